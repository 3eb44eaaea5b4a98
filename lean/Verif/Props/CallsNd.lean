import Verif.Props.Calls
import Verif.Props.NdWrite
/-!
# C40 and C58 for the n-dimensional calls
-/

namespace Zarr

open Spec

/-! ## C40 -/

section

variable {env : Env} {h : Hier} {path path' : Str} {m : ArrayMetadata} {t : RsType}

theorem readLoop_path (h1 : ∀ pos, readChunk env h path' m t pos = readChunk env h path m t pos)
    (h2 : ∀ pos buf, readChunkInto env h path' m t pos buf = readChunkInto env h path m t pos buf)
    {bbox : BBox} (coords : List (List Nat)) (arr : NdArr (El t)) (buf : Option (DataChunk t)) :
    readLoop env h path' m t bbox coords arr buf = readLoop env h path m t bbox coords arr buf := by
  have hc : ∀ pos (buf : Option (DataChunk t)),
      readCoord env h path' m t pos buf = readCoord env h path m t pos buf := by
    intro pos buf
    cases buf <;> simp only [readCoord, h1, h2]
  induction coords generalizing arr buf with
  | nil => rfl
  | cons pos rest ih =>
    simp only [readLoop, hc]
    congr 1
    funext r
    obtain ⟨r1, r2⟩ := r
    cases r1 <;> cases r2 <;> simp only [ih]

theorem writeLoop_path
    (h2 : ∀ pos buf, readChunkInto env h path' m t pos buf = readChunkInto env h path m t pos buf)
    (h3 : ∀ c : DataChunk t, writeChunk env h path' m c = writeChunk env h path m c)
    {bbox : BBox} {fill : El t} {array : NdArr (El t)} (coords : List (List Nat))
    (existing : List (El t)) :
    writeLoop env h path' m bbox fill array coords existing
      = writeLoop env h path m bbox fill array coords existing := by
  have hc : ∀ pos existing, writeCoord env h path' m bbox fill array pos existing
      = writeCoord env h path m bbox fill array pos existing := by
    intro pos existing
    simp only [writeCoord, writePartial, h2, h3]
  induction coords generalizing existing with
  | nil => rfl
  | cons pos rest ih => simp only [writeLoop, hc, ih]

end

/-- **C40** for `read_ndarray`, `read_ndarray_into`, `read_ndarray_into_with_buffer` and
`write_ndarray`: slashes at either end of the path do not matter. -/
theorem C40_ndarray (env : Env) (h : Hier) (path : Str) (a b : Nat) (m : ArrayMetadata) (t : RsType) :
    let path' := List.replicate a '/' ++ path ++ List.replicate b '/'
    (∀ bbox, readNdarray env h path' m t bbox = readNdarray env h path m t bbox) ∧
    (∀ bbox arr, readNdarrayInto env h path' m t bbox arr = readNdarrayInto env h path m t bbox arr) ∧
    (∀ bbox arr buf, readNdarrayIntoWithBuffer env h path' m t bbox arr buf
      = readNdarrayIntoWithBuffer env h path m t bbox arr buf) ∧
    (∀ offset (array : NdArr (El t)),
      writeNdarray env h path' m offset array = writeNdarray env h path m offset array) := by
  intro path'
  obtain ⟨_, _, _, _, _, _, _, _, _, _, _, h1, h2, h3, _⟩ := C40 env h path a b
  have e1 : ∀ bbox arr buf, readNdarrayIntoWithBuffer env h path' m t bbox arr buf
      = readNdarrayIntoWithBuffer env h path m t bbox arr buf := by
    intro bbox arr buf
    simp only [readNdarrayIntoWithBuffer, path', readLoop_path (h1 m t) (h2 m t)]
  have e2 : ∀ bbox arr, readNdarrayInto env h path' m t bbox arr
      = readNdarrayInto env h path m t bbox arr := by
    intro bbox arr
    simp only [readNdarrayInto, e1]
  refine ⟨fun bbox => by simp only [readNdarray, e2], e2, e1, fun offset array => ?_⟩
  simp only [writeNdarray, path', writeLoop_path (h2 m t) (h3 m t)]

example : ((readNdarray Demo.env Demo.hier str!"///a/b" Demo.arr .u16 ⟨[1], [3]⟩
    (writeNdarray Demo.env Demo.hier str!"a/b//" Demo.arr [1] demoWrite demoFs).2).1
      >>= fun a => .ok (a.toVec .rowMajor)) = .ok [1#16, 2#16, 3#16] := by decide +kernel

/-! ## C58 -/

/-- **C58** for the n-dimensional reads: none changes the filesystem, whatever it returns. -/
theorem C58_ndarray (env : Env) (h : Hier) (path : Str) (m : ArrayMetadata) (t : RsType) (bbox : BBox)
    (fs : Fs) :
    (readNdarray env h path m t bbox fs).2 = fs ∧
    (∀ arr, (readNdarrayInto env h path m t bbox arr fs).2 = fs) ∧
    (∀ arr buf, (readNdarrayIntoWithBuffer env h path m t bbox arr buf fs).2 = fs) := by
  have e1 : ∀ arr buf, (readNdarrayIntoWithBuffer env h path m t bbox arr buf fs).2 = fs := by
    intro arr buf
    unfold readNdarrayIntoWithBuffer
    split
    · rfl
    · split
      · rfl
      · simp only [M.bind_apply, M.lift_apply]
        cases m.boundedCoordIter bbox with
        | err e => rfl
        | panic => rfl
        | ok it => exact readLoop_fs it.rest arr buf
  have e2 : ∀ arr, (readNdarrayInto env h path m t bbox arr fs).2 = fs := by
    intro arr
    have := e1 arr none
    simp only [readNdarrayInto, M.bind_apply]
    generalize readNdarrayIntoWithBuffer env h path m t bbox arr none fs = x at this
    obtain ⟨o, s⟩ := x
    cases o <;> exact this
  refine ⟨?_, e2, e1⟩
  simp only [readNdarray, M.bind_apply, M.lift_apply]
  cases effectiveFillValue env m t with
  | err e => rfl
  | panic => rfl
  | ok fill => exact e2 _

example : (readNdarray Demo.env Demo.hier Demo.path Demo.arr .u16 ⟨[1], [3]⟩ demoFs).2 = demoFs ∧
    ((readNdarray Demo.env Demo.hier Demo.path Demo.arr .u16 ⟨[1], [3]⟩ demoFs).1
      >>= fun _ => .ok ()) = .ok () := by decide +kernel

end Zarr
