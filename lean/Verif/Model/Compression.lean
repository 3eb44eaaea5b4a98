import Verif.Model.DataType
/-!
# Compressors (`src/compression/*.rs`)
-/

namespace Zarr

/-- The cargo features that change the compressors (Cargo.toml:16-26). `gzip` stands for
`any(feature = "gzip", feature = "gzip_pure")`. -/
structure Features where
  bzip : Bool
  gzip : Bool
  lz : Bool
  lzPure : Bool
  xz : Bool
  deriving DecidableEq, Repr

/-- `CompressionType` with its configuration structs (compression/mod.rs:37-51, bzip.rs:18-21,
gzip.rs:17-20, lz.rs:47-50, lz_pure.rs:37-40, xz.rs:17-20). -/
inductive CompressionType where
  | raw
  | bzip2 (blockSize : Nat)
  | gzip (level : Int)
  | lz4 (blockSize : Int)
  | xz (preset : Int)
  deriving DecidableEq, Repr

namespace CompressionType

/-- The Rust field types: `u8`, `i32`, `i32`, `i32`. -/
def WellTyped : CompressionType → Prop
  | .raw => True
  | .bzip2 b => b < 2 ^ 8
  | .gzip l => -(2 ^ 31) ≤ l ∧ l < 2 ^ 31
  | .lz4 b => -(2 ^ 31) ≤ b ∧ b < 2 ^ 31
  | .xz p => -(2 ^ 31) ≤ p ∧ p < 2 ^ 31

/-- The variants compiled in (`#[cfg]` attributes of compression/mod.rs:41-50). -/
def enabled (f : Features) : CompressionType → Bool
  | .raw => true
  | .bzip2 _ => f.bzip
  | .gzip _ => f.gzip
  | .lz4 _ => f.lz || f.lzPure
  | .xz _ => f.xz

/-- `impl Default for CompressionType` (compression/mod.rs:66-70). -/
def default : CompressionType := .raw

/-- `Bzip2Compression::default` (bzip.rs:23-33). -/
def bzip2Default : CompressionType := .bzip2 9
/-- `GzipCompression::default` (gzip.rs:37-47). -/
def gzipDefault : CompressionType := .gzip (-1)
/-- `Lz4Compression::default` (lz.rs:68-78, lz_pure.rs:42-52). -/
def lz4Default : CompressionType := .lz4 65536
/-- `XzCompression::default` (xz.rs:22-32). -/
def xzDefault : CompressionType := .xz 6

/-- `is_default` (compression/mod.rs:61-63). -/
def isDefault (c : CompressionType) : Bool := decide (c = default)

/-- The `codec` tag of the derived `Serialize` (compression/mod.rs:38-50). -/
def tag : CompressionType → Str
  | .raw => str!"raw"
  | .bzip2 _ => str!"bzip2"
  | .gzip _ => str!"https://purl.org/zarr/spec/codec/gzip/1.0"
  | .lz4 _ => str!"lz4"
  | .xz _ => str!"xz"

/-- The `configuration` content of the derived `Serialize`; field names follow
`rename_all = "camelCase"`. -/
def config : CompressionType → Json
  | .raw => .null
  | .bzip2 b => .obj [(str!"blockSize", .int b)]
  | .gzip l => .obj [(str!"level", .int l)]
  | .lz4 b => .obj [(str!"blockSize", .int b)]
  | .xz p => .obj [(str!"preset", .int p)]

/-- Derived `Serialize`, adjacently tagged (compression/mod.rs:37-39). -/
def toJson (c : CompressionType) : Json :=
  .obj [(str!"codec", .str c.tag), (str!"configuration", c.config)]

end CompressionType

/-- An integer field of a derived `Deserialize` with the range of its Rust type. -/
def Json.asIntIn (lo hi : Int) : Json → Outcome Int
  | .int i => if lo ≤ i ∧ i < hi then .ok i else .err .json
  | _ => .err .json

/-- A struct with one integer field that has a `#[serde(default = "...")]`. -/
def intFieldOr (dflt lo hi : Int) (k : Str) (j : Json) : Outcome Int := do
  let m ← j.members [k] 0
  match objGet m k with
  | none => .ok dflt
  | some j => j.asIntIn lo hi

namespace CompressionType

/-- Derived `Deserialize` of the variant selected by the tag, from its configuration. -/
def fromTag (f : Features) (t : Str) (cfg : Json) : Outcome CompressionType :=
  if t = str!"raw" then
    match cfg with
    | .null => .ok .raw
    | _ => .err .json
  else if t = str!"bzip2" ∧ f.bzip then do
    let b ← intFieldOr 9 0 (2 ^ 8) str!"blockSize" cfg
    pure (.bzip2 b.toNat)
  else if t = str!"https://purl.org/zarr/spec/codec/gzip/1.0" ∧ f.gzip then do
    let l ← intFieldOr (-1) (-(2 ^ 31)) (2 ^ 31) str!"level" cfg
    pure (.gzip l)
  else if t = str!"lz4" ∧ (f.lz || f.lzPure) then do
    let b ← intFieldOr 65536 (-(2 ^ 31)) (2 ^ 31) str!"blockSize" cfg
    pure (.lz4 b)
  else if t = str!"xz" ∧ f.xz then do
    let p ← intFieldOr 6 (-(2 ^ 31)) (2 ^ 31) str!"preset" cfg
    pure (.xz p)
  else .err .json

/-- Derived `Deserialize`, adjacently tagged (compression/mod.rs:37-39). -/
def fromJson (f : Features) (j : Json) : Outcome CompressionType := do
  let m ← j.members [str!"codec", str!"configuration"] 2
  let t ← objField m str!"codec"
  let t ← t.asStr
  let c ← objField m str!"configuration"
  fromTag f t c

/-- `impl Display` (compression/mod.rs:110-132). -/
def display : CompressionType → Str
  | .raw => str!"Raw"
  | .bzip2 _ => str!"Bzip2"
  | .gzip _ => str!"Gzip"
  | .xz _ => str!"Xz"
  | .lz4 _ => str!"Lz4"

/-- `char::to_ascii_lowercase`. -/
def asciiLower (c : Char) : Char :=
  if 65 ≤ c.toNat ∧ c.toNat ≤ 90 then Char.ofNat (c.toNat + 32) else c

/-- `impl FromStr` (compression/mod.rs:134-156). The `"lz4"` arm is compiled under
`feature = "lz"` only. -/
def fromStr (f : Features) (s : Str) : Outcome CompressionType :=
  let t := s.map asciiLower
  if t = str!"raw" then .ok .raw
  else if t = str!"bzip2" ∧ f.bzip then .ok bzip2Default
  else if t = str!"gzip" ∧ f.gzip then .ok gzipDefault
  else if t = str!"xz" ∧ f.xz then .ok xzDefault
  else if t = str!"lz4" ∧ f.lz then .ok lz4Default
  else .err .invalidInput

end CompressionType

/-- `flate2::Compression::default()` is level 6 (flate2 documentation). -/
def flate2DefaultLevel : Nat := 6

/-- `GzipCompression::get_effective_level` (gzip.rs:28-34): the level handed to the encoder. -/
def gzipEffectiveLevel (level : Int) : Nat :=
  if level < 0 ∨ level > 9 then flate2DefaultLevel else level.toNat

/-- `lz4::BlockSize` (external); `get_size` in bytes. -/
inductive LzBlockSize where | max64KB | max256KB | max1MB | max4MB
  deriving DecidableEq, Repr

/-- `lz4::BlockSize::get_size`. -/
def LzBlockSize.getSize : LzBlockSize → Nat
  | .max64KB => 64 * 1024
  | .max256KB => 256 * 1024
  | .max1MB => 1024 * 1024
  | .max4MB => 4 * 1024 * 1024

/-- `i32 as usize` on a 64-bit target (sign extension). -/
def i32AsUsize (i : Int) : Nat := (i % 2 ^ 64).toNat

/-- `Lz4Compression::get_effective_block_size` (lz.rs:55-65). -/
def lzEffectiveBlockSize (blockSize : Int) : LzBlockSize :=
  if blockSize ≤ LzBlockSize.max64KB.getSize then .max64KB
  else if i32AsUsize blockSize ≤ LzBlockSize.max256KB.getSize then .max256KB
  else if i32AsUsize blockSize ≤ LzBlockSize.max1MB.getSize then .max1MB
  else .max4MB

/-- What a decompressing reader delivers: `avail` bytes, then end of file (`fail = none`) or an
error. -/
structure DecStream where
  avail : Bytes
  fail : Option ErrKind
  deriving DecidableEq, Repr

/-- `Read::read_exact` into a buffer of `n` bytes (std): on success the bytes and the rest of the
stream; if fewer than `n` bytes are left, the stream's error or `UnexpectedEof`. -/
def DecStream.readExact (n : Nat) (s : DecStream) : Outcome (Bytes × DecStream) :=
  if n ≤ s.avail.length then .ok (s.avail.take n, { s with avail := s.avail.drop n })
  else .err (s.fail.getD .unexpectedEof)

/-- A compressor as the code uses it: a writer to which byte strings are written one `write_all`
at a time and which is then dropped, and a reader over a whole file.

`encode segs` gives the bytes that reach the file and the result of writing;
`decode bytes` gives the decoding reader, or a panic if building it panics (`expect`,
lz.rs:82, lz_pure.rs:58). -/
structure Codec where
  encode : List Bytes → Bytes × Outcome Unit
  decode : Bytes → Outcome DecStream

/-- The law assumed of a compressor: if writing succeeded, reading gives back the bytes written and
then a clean end of file. -/
def Codec.Lawful (c : Codec) : Prop :=
  ∀ segs, (c.encode segs).2 = .ok () → c.decode (c.encode segs).1 = .ok ⟨segs.flatten, none⟩

/-- `RawCompression` (compression/raw.rs:16-24): the bytes themselves. -/
def rawCodec : Codec where
  encode segs := (segs.flatten, .ok ())
  decode b := .ok ⟨b, none⟩

theorem rawCodec_lawful : rawCodec.Lawful := by
  intro segs _; rfl

/-- Code outside the repository, for each compressor other than raw. -/
abbrev Codecs := CompressionType → Codec

/-- `CompressionType::{encoder, decoder}` (compression/mod.rs:72-108): raw is handled by this
repository, the rest by the libraries given in `ext`. -/
def codecOf (ext : Codecs) : CompressionType → Codec
  | .raw => rawCodec
  | c => ext c

end Zarr
