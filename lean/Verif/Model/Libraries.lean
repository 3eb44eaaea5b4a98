import Verif.Model.LzPure
/-!
# The compressors other than raw (`src/compression/{bzip,gzip,lz,xz}.rs`)

What the repository does with the configuration before it calls the compression libraries, which are parameters. -/

namespace Zarr

/-- `i32 as u32`. -/
def i32AsU32 (i : Int) : Nat := (i % 2 ^ 32).toNat

/-- The compression libraries as the repository calls them: for the arguments of the encoder, what building it, writing
to it (`write_all` for each byte string) and dropping it gives; and the decoder over a whole file. -/
structure Libraries where
  /-- `bzip2::write::BzEncoder::new(w, Compression::new(level))`. -/
  bz : Nat → List Bytes → Bytes × Outcome Unit
  /-- `bzip2::read::BzDecoder`. -/
  bzRead : Bytes → Outcome DecStream
  /-- `flate2::write::GzEncoder::new(w, Compression::new(level))`. -/
  gz : Nat → List Bytes → Bytes × Outcome Unit
  /-- `flate2::read::GzDecoder`. -/
  gzRead : Bytes → Outcome DecStream
  /-- `lz4::EncoderBuilder` with a block size, and `finish` when it is dropped (lz.rs:37-43). -/
  lz : LzBlockSize → List Bytes → Bytes × Outcome Unit
  /-- `lz4::Decoder`. -/
  lzRead : Bytes → Outcome DecStream
  /-- `xz2::write::XzEncoder::new(w, preset)`. -/
  xz : Nat → List Bytes → Bytes × Outcome Unit
  /-- `xz2::read::XzDecoder`. -/
  xzRead : Bytes → Outcome DecStream
  /-- `lz_fear`. -/
  fear : LzFear

/-- `impl Compression for Bzip2Compression` (bzip.rs:35-46). -/
def Libraries.bzip2Codec (libs : Libraries) (blockSize : Nat) : Codec where
  encode := libs.bz blockSize
  decode := libs.bzRead

/-- `impl Compression for GzipCompression` (gzip.rs:49-57). -/
def Libraries.gzipCodec (libs : Libraries) (level : Int) : Codec where
  encode := libs.gz (gzipEffectiveLevel level)
  decode := libs.gzRead

/-- `impl Compression for Lz4Compression` (lz.rs:80-93). -/
def Libraries.lz4Codec (libs : Libraries) (blockSize : Int) : Codec where
  encode := libs.lz (lzEffectiveBlockSize blockSize)
  decode := libs.lzRead

/-- `impl Compression for XzCompression` (xz.rs:34-43). -/
def Libraries.xzCodec (libs : Libraries) (preset : Int) : Codec where
  encode := libs.xz (i32AsU32 preset)
  decode := libs.xzRead

/-- `impl Compression for CompressionType` (compression/mod.rs:72-108); `lz` is `lz_pure` if that feature is enabled
(compression/mod.rs:16-24). -/
def Libraries.codecs (libs : Libraries) (f : Features) : Codecs
  | .raw => rawCodec
  | .bzip2 b => libs.bzip2Codec b
  | .gzip l => libs.gzipCodec l
  | .lz4 b => if f.lzPure then lzPureCodec libs.fear b else libs.lz4Codec b
  | .xz p => libs.xzCodec p

end Zarr
