import Verif.Model.Device
import Verif.Model.LzPure
/-!
# Compressors writing to a device with limited space

`Codec.encode` gives the whole output of a compressor. This file models when it is written: the writers of the
compression libraries keep part of their output until they are dropped, and what happens to errors then depends on the
library. The output goes to the `BufWriter` of `set` (Model/Device.lean). -/

namespace Zarr

/-- A library's encoder as the code uses it: what it writes to the writer below when it is built (`start`), when after
the pieces `done` the piece `seg` is written to it (`write done seg`), and when it is dropped after the pieces `done`
(`finish done`). `flate2`, `bzip2` and `xz2` ignore errors on drop (gzip.rs:54, bzip.rs:45, xz.rs:45); the wrapper of `lz4`
unwraps them (lz.rs:37-43). -/
structure StreamEncoder where
  start : List Bytes
  write : List Bytes → Bytes → List Bytes
  finish : List Bytes → List Bytes
  unwraps : Bool

/-- `RawCompression::encoder` (raw.rs:21-23): the writer itself. -/
def rawEncoder : StreamEncoder where
  start := []
  write _ seg := [seg]
  finish _ := []
  unwraps := false

/-- `Wrapper` of `lz_pure` (lz_pure.rs:18-33, 64-70) with a library that accepts everything: a frame for every non-empty piece,
nothing on drop. `pieces` are the byte strings in which the library writes a frame. -/
def lzPureEncoder (lz : LzFear) (bs : Nat) (pieces : Bytes → List Bytes) : StreamEncoder where
  start := []
  write _ seg := if seg.isEmpty then [] else pieces (lz.frame bs seg).1
  finish _ := []
  unwraps := false

/-- The pieces written to a `BufWriter` until one fails. -/
def pour (cap : Nat) (d : Dev) (buf : Bytes) : List Bytes → Dev × Bytes × Outcome Unit
  | [] => (d, buf, .ok ())
  | seg :: rest =>
    match bufWriteAll cap d buf seg with
    | (d1, buf1, .ok ()) => pour cap d1 buf1 rest
    | r => r

/-- `write_all` of the pieces of a chunk to the encoder until one fails (chunk.rs:113-131). The last component is the
list of the pieces handed to the encoder. -/
def StreamEncoder.feed (e : StreamEncoder) (cap : Nat) (d : Dev) (buf : Bytes) (done : List Bytes) :
    List Bytes → Dev × Bytes × Outcome Unit × List Bytes
  | [] => (d, buf, .ok (), done)
  | seg :: rest =>
    match pour cap d buf (e.write done seg) with
    | (d1, buf1, .ok ()) => e.feed cap d1 buf1 (done ++ [seg]) rest
    | (d1, buf1, r) => (d1, buf1, r, done ++ [seg])

/-- Build the encoder (an error is a panic: `expect`, lz.rs:89; the others write nothing), write the pieces, drop the encoder and then the
`BufWriter`, which ignores errors. The result is what is in the file and the result of the closure. -/
def StreamEncoder.run (e : StreamEncoder) (cap : Nat) (d : Dev) (segs : List Bytes) : Bytes × Outcome Unit :=
  match pour cap d [] e.start with
  | (d1, buf1, .ok ()) =>
    let f := e.feed cap d1 buf1 [] segs
    let g := pour cap f.1 f.2.1 (e.finish f.2.2.2)
    ((g.1.writeAll g.2.1).1.written, if e.unwraps ∧ g.2.2 ≠ .ok () then .panic else f.2.2.1)
  | (d1, buf1, _) => ((d1.writeAll buf1).1.written, .panic)

/-- `DefaultChunkWriter::write_chunk` (chunk.rs:306-323) with the encoder `e` on a device with room for `free` bytes. -/
def writeChunkBytesStream (free : Nat) (e : StreamEncoder) (native : Endian) (m : ArrayMetadata) {t : RsType}
    (c : DataChunk t) : Bytes × Outcome Unit :=
  match checkArrayType native m t with
  | .err x => ([], .err x)
  | .panic => ([], .panic)
  | .ok () =>
    if c.numElements ≠ m.chunkNumElements then ([], .err .invalidData)
    else match writeData native m.dataType c.data with
      | .err x => ([], .err x)
      | .panic => ([], .panic)
      | .ok segs => e.run bufCapacity ⟨free, []⟩ segs

/-- `write_chunk` (storage.rs:456-470) of an array whose compressor has the encoder `e`. -/
def writeChunkStream (free : Nat) (e : StreamEncoder) (env : Env) (h : Hier) (path : Str) (m : ArrayMetadata) {t : RsType}
    (c : DataChunk t) : M Fs Unit :=
  storeSet h (chunkKey path m c.gridPosition) (writeChunkBytesStream free e env.native m c)

end Zarr
