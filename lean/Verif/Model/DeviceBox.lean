import Verif.Model.Streams
import Verif.Model.Ndarray
/-!
# Box writes to a device with limited space

`write_ndarray` with the `BufWriter` of `Model.Device` and the encoders of `Model.Streams`. `room pos` is the number of
bytes that fit into the file of the chunk at `pos` when it is written: it depends on what the call has written before,
on the chunks it has replaced and on everybody else who uses the device, and it can be anything here. -/

namespace Zarr

/-- One round of the loop of `write_ndarray` (ndarray.rs:317-382), as `writeCoord` and `writePartial`, with any
`write_chunk`. -/
def writeCoordWith {t : RsType} (W : DataChunk t → M Fs Unit) (env : Env) (h : Hier) (path : Str) (m : ArrayMetadata)
    (bbox : BBox) (fill : El t) (array : NdArr (El t)) (pos : List Nat) (existing : List (El t)) :
    M Fs (List (El t)) := do
  let nomBb := m.chunkBounds pos
  let writeBb ← M.lift (nomBb.intersect bbox)
  let arrBb ← M.lift (writeBb.sub bbox.offset)
  let arrView ← M.lift (array.slice arrBb.toSlice)
  if writeBb = nomBb then do
    W ⟨pos, arrView.toVec m.order⟩
    pure existing
  else do
    let r ← readChunkInto env h path m t pos ⟨pos, existing⟩
    let c ← M.lift (
      if r.1 then do
        let a ← fromShapeVec m.order m.chunkShape r.2.data
        pure (m.chunkBounds r.2.gridPosition, a, m.order)
      else do
        let a ← fromShapeVec .rowMajor nomBb.shape (List.replicate nomBb.shape.prod fill)
        pure (nomBb, a, Order.rowMajor))
    let chunkWriteBb ← M.lift (writeBb.sub c.1.offset)
    let a ← M.lift (c.2.1.sliceAssign chunkWriteBb.toSlice arrView)
    W ⟨pos, a.toVec m.order⟩
    pure (a.toVec c.2.2)

/-- The loop of `write_ndarray` (ndarray.rs:317-382), with any `write_chunk`. -/
def writeLoopWith {t : RsType} (W : DataChunk t → M Fs Unit) (env : Env) (h : Hier) (path : Str) (m : ArrayMetadata)
    (bbox : BBox) (fill : El t) (array : NdArr (El t)) : List (List Nat) → List (El t) → M Fs Unit
  | [], _ => pure ()
  | pos :: rest, existing => do
    let e ← writeCoordWith W env h path m bbox fill array pos existing
    writeLoopWith W env h path m bbox fill array rest e

/-- `write_ndarray` (ndarray.rs:276-385), with any `write_chunk`. -/
def writeNdarrayWith {t : RsType} (W : DataChunk t → M Fs Unit) (env : Env) (h : Hier) (path : Str) (m : ArrayMetadata)
    (offset : List Nat) (array : NdArr (El t)) : M Fs Unit :=
  if array.shape.length ≠ m.shape.length then M.lift (.err .invalidData)
  else do
    let bbox : BBox := ⟨offset, array.shape⟩
    let fill ← M.lift (effectiveFillValue env m t)
    let it ← M.lift (m.boundedCoordIter bbox)
    writeLoopWith W env h path m bbox fill array it.rest []

/-- `write_ndarray` (ndarray.rs:276-385) of an array with the raw compressor. -/
def writeNdarrayDev (room : List Nat → Nat) (env : Env) (h : Hier) (path : Str) (m : ArrayMetadata) {t : RsType}
    (offset : List Nat) (array : NdArr (El t)) : M Fs Unit :=
  writeNdarrayWith (fun c => writeChunkDev (room c.gridPosition) env h path m c) env h path m offset array

/-- `write_ndarray` (ndarray.rs:276-385) of an array whose compressor has the encoder `e`. -/
def writeNdarrayStream (room : List Nat → Nat) (e : StreamEncoder) (env : Env) (h : Hier) (path : Str)
    (m : ArrayMetadata) {t : RsType} (offset : List Nat) (array : NdArr (El t)) : M Fs Unit :=
  writeNdarrayWith (fun c => writeChunkStream (room c.gridPosition) e env h path m c) env h path m offset array

end Zarr
