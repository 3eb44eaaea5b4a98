import Verif.Model.Grid
import Verif.Model.Elem
/-!
# Reading and writing one chunk (`src/chunk.rs`)
-/

namespace Zarr

/-- `SliceDataChunk`/`VecDataChunk` (chunk.rs:66-70, 88). -/
structure DataChunk (t : RsType) where
  gridPosition : List Nat
  data : List (El t)
  deriving DecidableEq

/-- `create_data_chunk` (data_type.rs:463-468); `num_el` is a `u32`. -/
def createDataChunk (t : RsType) (pos : List Nat) (numEl : Nat) : DataChunk t :=
  ⟨pos, List.replicate numEl (El.default t)⟩

/-- `VecDataChunk::reinitialize` (chunk.rs:91-94): the data is cut or extended with defaults. -/
def DataChunk.reinitialize {t : RsType} (c : DataChunk t) (pos : List Nat) (numEl : Nat) :
    DataChunk t :=
  ⟨pos, c.data.take numEl ++ List.replicate (numEl - c.data.length) (El.default t)⟩

/-- `get_num_elements` (chunk.rs:248-250): `len() as u32`. -/
def DataChunk.numElements {t : RsType} (c : DataChunk t) : Nat := c.data.length % 2 ^ 32

/-- `CHUNK` (chunk.rs:124, 177, 194). -/
def writeBuffer : Nat := 256

/-- `write_data` (chunk.rs:119-139 macro types, 170-172 `u8`, 193-205 `bool`, 225-236 `f16`): the
byte strings handed to `write_all`, in order. `write_all` of an empty slice makes no `write` call.
`effective_type()?` is evaluated before anything is written, except for `u8` and `bool` which do not
consult the metadata. -/
def writeData (native : Endian) (dt : ExtensibleDataType) {t : RsType} (data : List (El t)) :
    Outcome (List Bytes) :=
  match t with
  | .u8 =>
    let b := data.flatMap (elBytes native)
    .ok (if b.isEmpty then [] else [b])
  | .bool => .ok ((chunks writeBuffer data).map fun c => c.flatMap (elBytes native))
  | .f16 => do
    let d ← dt.effectiveType
    pure (data.map (elBytes (d.endian native)))
  | _ => do
    let d ← dt.effectiveType
    pure ((chunks writeBuffer data).map fun c => c.flatMap (elBytes (d.endian native)))

/-- Read pieces with one `read_exact` each (`bool` and `f16`): `sizes` are the numbers of elements
of the pieces. -/
def readPieces (e : Endian) (t : RsType) : List Nat → DecStream → Outcome (List (El t) × DecStream)
  | [], s => .ok ([], s)
  | n :: ns, s => do
    let (bs, s) ← s.readExact (n * t.size)
    let (rest, s) ← readPieces e t ns s
    pure (elsOfBytes e t n bs ++ rest, s)

/-- The lengths of `slice::chunks(k)` of a slice of length `n`. -/
def pieceSizes (k n : Nat) : List Nat := (chunks k (List.replicate n ())).map List.length

/-- `read_data` into a buffer of `n` elements (chunk.rs:106-115 macro types, 164-166 `u8`,
176-189 `bool`, 209-221 `f16`): the new contents of the buffer. What the buffer holds after an
error is not modelled. -/
def readData (native : Endian) (dt : ExtensibleDataType) (t : RsType) (n : Nat) (s : DecStream) :
    Outcome (List (El t)) :=
  match t with
  | .u8 => do
    let (bs, _) ← s.readExact n
    pure (elsOfBytes native .u8 n bs)
  | .bool => do
    let (xs, _) ← readPieces native .bool (pieceSizes writeBuffer n) s
    pure xs
  | .f16 => do
    let d ← dt.effectiveType
    let (xs, _) ← readPieces (d.endian native) .f16 (List.replicate n 1) s
    pure xs
  | t => do
    let d ← dt.effectiveType
    let (bs, _) ← s.readExact (n * t.size)
    pure (elsOfBytes (d.endian native) t n bs)

/-- `check_array_type` (chunk.rs:253-266). -/
def checkArrayType (native : Endian) (m : ArrayMetadata) (t : RsType) : Outcome Unit := do
  let d ← m.dataType.effectiveType
  if d.eqModuloEndian (t.zarrType native) then .ok () else .err .invalidInput

/-- `DefaultChunkReader::read_chunk` (chunk.rs:270-286) on a whole file. The number of elements is
`get_chunk_num_elements() as u32`. -/
def readChunkBytes (ext : Codecs) (native : Endian) (m : ArrayMetadata) (t : RsType)
    (pos : List Nat) (file : Bytes) : Outcome (DataChunk t) := do
  checkArrayType native m t
  let chunk := createDataChunk t pos (m.chunkNumElements % 2 ^ 32)
  let s ← (codecOf ext m.compressor).decode file
  let xs ← readData native m.dataType t chunk.data.length s
  pure { chunk with data := xs }

/-- `DefaultChunkReader::read_chunk_into` (chunk.rs:288-301): the caller's buffer is reinitialized
and then filled. The result is the buffer after a successful call. -/
def readChunkIntoBytes (ext : Codecs) (native : Endian) (m : ArrayMetadata) (t : RsType)
    (pos : List Nat) (file : Bytes) (buf : DataChunk t) : Outcome (DataChunk t) := do
  checkArrayType native m t
  let chunk := buf.reinitialize pos (m.chunkNumElements % 2 ^ 32)
  let s ← (codecOf ext m.compressor).decode file
  let xs ← readData native m.dataType t chunk.data.length s
  pure { chunk with data := xs }

/-- `DefaultChunkWriter::write_chunk` (chunk.rs:306-323): the bytes that reach the file and the
result. Errors before `write_data` leave the file as the store handed it over (empty). -/
def writeChunkBytes (ext : Codecs) (native : Endian) (m : ArrayMetadata) {t : RsType}
    (c : DataChunk t) : Bytes × Outcome Unit :=
  match checkArrayType native m t with
  | .err e => ([], .err e)
  | .panic => ([], .panic)
  | .ok () =>
    if c.numElements ≠ m.chunkNumElements then ([], .err .invalidData)
    else match writeData native m.dataType c.data with
      | .err e => ([], .err e)
      | .panic => ([], .panic)
      | .ok segs => (codecOf ext m.compressor).encode segs

end Zarr
