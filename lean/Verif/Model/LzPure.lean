import Verif.Model.Compression
/-!
# The pure-Rust LZ4 compressor (`src/compression/lz_pure.rs`, feature `lz_pure`)
-/

namespace Zarr

/-- The parts of the crate `lz_fear` used (lz_pure.rs:7-10). `frame blockSize b` is
`CompressionSettings::compress`: one complete LZ4 frame for `b`. `read` is
`LZ4FrameReader::new(r).expect(..).into_read()`: a panic if there is no frame header. -/
structure LzFear where
  frame : Nat → Bytes → Bytes × Outcome Unit
  read : Bytes → Outcome DecStream

/-- The laws assumed of `lz_fear`: a complete frame is decoded to its contents and the reader is at
its end after the frame, whatever follows; without a header `new` fails. -/
structure LzFear.Lawful (lz : LzFear) : Prop where
  read_frame : ∀ bs b rest, (lz.frame bs b).2 = .ok () →
    lz.read ((lz.frame bs b).1 ++ rest) = .ok ⟨b, none⟩
  read_nil : lz.read [] = .panic

/-- `Wrapper::write` (lz_pure.rs:23-27) for each `write_all` in turn: every call writes a whole frame
and reports all of the buffer as written, so `write_all` makes one call for a non-empty buffer and
none for an empty one. Writing stops at the first error; dropping the `Wrapper` writes nothing. -/
def lzPureEncode (lz : LzFear) (bs : Nat) : List Bytes → Bytes × Outcome Unit
  | [] => ([], .ok ())
  | b :: rest =>
    if b.isEmpty then lzPureEncode lz bs rest
    else match lz.frame bs b with
      | (out, .ok ()) => let r := lzPureEncode lz bs rest; (out ++ r.1, r.2)
      | r => r

/-- `impl Compression for Lz4Compression` (lz_pure.rs:54-71). -/
def lzPureCodec (lz : LzFear) (blockSize : Int) : Codec where
  encode := lzPureEncode lz (i32AsUsize blockSize)
  decode := lz.read

end Zarr
