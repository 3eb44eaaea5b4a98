import Verif.Model.Store
/-!
# Writing to a device with limited space

`storeSet` takes the bytes that reach the file as given. This file models how they get there: through
a `BufWriter` (std) that is dropped without being flushed, on a device with room for a limited number
of bytes. Only the contents of files need room here; directories and empty files can always be made.
Nobody else uses the device during the call. -/

namespace Zarr

/-- An open, empty file on a device: the number of bytes that still fit and what was written. -/
structure Dev where
  free : Nat
  written : Bytes
  deriving DecidableEq, Repr

/-- `File::write_all` (std): what fits is written; if not everything does, the call fails with
`ENOSPC`. -/
def Dev.writeAll (d : Dev) (b : Bytes) : Dev × Outcome Unit :=
  if b.length ≤ d.free then (⟨d.free - b.length, d.written ++ b⟩, .ok ())
  else (⟨0, d.written ++ b.take d.free⟩, .err .other)

/-- `BufWriter::write_all` (std) with a buffer of `cap` bytes holding `buf`: what does not fit beside
the contents flushes the buffer first, what does not fit at all is written directly. The bytes a
failed flush could write leave the buffer. -/
def bufWriteAll (cap : Nat) (d : Dev) (buf seg : Bytes) : Dev × Bytes × Outcome Unit :=
  if cap < buf.length + seg.length then
    match d.writeAll buf with
    | (d1, .ok ()) =>
      if cap ≤ seg.length then let r := d1.writeAll seg; (r.1, [], r.2)
      else (d1, seg, .ok ())
    | (d1, r) => (d1, buf.drop d.free, r)
  else if cap ≤ seg.length then
    let r := d.writeAll seg; (r.1, buf, r.2)
  else (d, buf ++ seg, .ok ())

/-- Write the pieces one after the other until one fails, then drop the `BufWriter`, which flushes it
and ignores errors (std). The result is what is in the file and whether the pieces were accepted. -/
def bufWrite (cap : Nat) (d : Dev) (buf : Bytes) : List Bytes → Bytes × Outcome Unit
  | [] => ((d.writeAll buf).1.written, .ok ())
  | seg :: rest =>
    match bufWriteAll cap d buf seg with
    | (d1, buf1, .ok ()) => bufWrite cap d1 buf1 rest
    | (d1, buf1, r) => ((d1.writeAll buf1).1.written, r)

/-- `BufWriter::new` (std): 8 KiB. -/
def bufCapacity : Nat := 8192

/-- The value of a `set` call (filesystem.rs:275-279) whose closure writes `segs`, on a device with
room for `free` bytes after the truncation. -/
def devValue (free : Nat) (segs : List Bytes) : Bytes × Outcome Unit :=
  bufWrite bufCapacity ⟨free, []⟩ [] segs

/-- `DefaultChunkWriter::write_chunk` (chunk.rs:306-323) with the raw compressor, whose writer is the
`BufWriter` itself (raw.rs:21-23). -/
def writeChunkBytesDev (free : Nat) (native : Endian) (m : ArrayMetadata) {t : RsType}
    (c : DataChunk t) : Bytes × Outcome Unit :=
  match checkArrayType native m t with
  | .err e => ([], .err e)
  | .panic => ([], .panic)
  | .ok () =>
    if c.numElements ≠ m.chunkNumElements then ([], .err .invalidData)
    else match writeData native m.dataType c.data with
      | .err e => ([], .err e)
      | .panic => ([], .panic)
      | .ok segs => devValue free segs

/-- `write_chunk` (storage.rs:456-470) of an array with the raw compressor. -/
def writeChunkDev (free : Nat) (env : Env) (h : Hier) (path : Str) (m : ArrayMetadata) {t : RsType}
    (c : DataChunk t) : M Fs Unit :=
  storeSet h (chunkKey path m c.gridPosition) (writeChunkBytesDev free env.native m c)

/-- `create_array` (storage.rs:422-442). `pieces` are the byte strings `serde_json::to_writer` hands
to `write_all`. -/
def createArrayDev (free : Nat) (pieces : Json → List Bytes) (h : Hier) (path : Str)
    (m : ArrayMetadata) : M Fs Unit := do
  let g ← storeExists h (groupMetadataKey h.entry path)
  if g then M.lift (.err .alreadyExists)
  else do
    let a ← storeExists h (arrayMetadataKey h.entry path)
    if a then M.lift (.err .alreadyExists)
    else storeSet h (arrayMetadataKey h.entry path) (match m.toJson with
      | .ok j => devValue free (pieces j)
      | .err e => ([], .err e)
      | .panic => ([], .panic))

/-- `set_attributes` (storage.rs:369-398). The room is counted after the truncation of the document
being replaced. -/
def setAttributesDev (free : Nat) (pieces : Json → List Bytes) (env : Env) (h : Hier) (path : Str)
    (attributes : JsonObject) : M Fs Unit := do
  let key ← nodeMetadataKey h path
  let v ← storeGet h key
  let b ← M.lift (Outcome.ofOption .notFound v)
  let j ← M.lift (Outcome.ofOption .json (env.json.parse b))
  let existing ← M.lift j.asObj
  let merged := mergedDoc existing attributes
  if merged ≠ existing then storeSet h key (devValue free (pieces (.obj merged)))
  else pure ()

end Zarr
