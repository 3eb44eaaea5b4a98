import Verif.Model.DataType
import Verif.Model.Compression
/-!
# Elements and their bytes

Values of the Rust element types and the byte-level conversions of `byteorder` and `half`
(`write_u16_into`, `read_u16_into`, `f16::to_le_bytes`, ...), which are code outside this repository
and are given here their documented meaning: an element is the bytes of its two's complement or IEEE
bit pattern in the given byte order.
-/

namespace Zarr

/-- A value of a Rust element type: `bool`, or the bits of an integer or floating point number. -/
def El : RsType → Type
  | .bool => Bool
  | t => BitVec (8 * t.size)

/-- `Default::default()` (`false`, `0`, `0.0`). -/
def El.default : (t : RsType) → El t
  | .bool => false
  | .u8 | .u16 | .u32 | .u64 | .i8 | .i16 | .i32 | .i64 | .f16 | .f32 | .f64 => 0#_

/-- The value as a number (0 or 1 for `bool`, otherwise its bit pattern). -/
def El.toNat : {t : RsType} → El t → Nat
  | .bool, b => Bool.toNat b
  | .u8, x | .u16, x | .u32, x | .u64, x | .i8, x | .i16, x | .i32, x | .i64, x | .f16, x
  | .f32, x | .f64, x => BitVec.toNat x

/-- The value with a given bit pattern (`j != 0` for `bool`, chunk.rs:184). -/
def El.ofNat : (t : RsType) → Nat → El t
  | .bool, n => decide (n ≠ 0)
  | .u8, n | .u16, n | .u32, n | .u64, n | .i8, n | .i16, n | .i32, n | .i64, n | .f16, n
  | .f32, n | .f64, n => BitVec.ofNat _ n

instance : (t : RsType) → DecidableEq (El t)
  | .bool => inferInstanceAs (DecidableEq Bool)
  | .u8 | .u16 | .u32 | .u64 | .i8 | .i16 | .i32 | .i64 | .f16 | .f32 | .f64 =>
    inferInstanceAs (DecidableEq (BitVec _))

/-- The `k` low bytes of `n`, least significant first. -/
def leBytes : Nat → Nat → Bytes
  | 0, _ => []
  | k + 1, n => BitVec.ofNat 8 n :: leBytes k (n / 256)

/-- The number whose little-endian bytes are given. -/
def ofLeBytes : Bytes → Nat
  | [] => 0
  | b :: bs => b.toNat + 256 * ofLeBytes bs

/-- One element as bytes (`ByteOrder::write_*`, `to_le_bytes`, `to_be_bytes`, `bool as u8`). -/
def elBytes (e : Endian) {t : RsType} (x : El t) : Bytes :=
  match e with
  | .little => leBytes t.size x.toNat
  | .big => (leBytes t.size x.toNat).reverse

/-- One element from its bytes (`ByteOrder::read_*`, `from_le_bytes`, `from_be_bytes`, `!= 0`). -/
def elOfBytes (e : Endian) (t : RsType) (bs : Bytes) : El t :=
  match e with
  | .little => El.ofNat t (ofLeBytes bs)
  | .big => El.ofNat t (ofLeBytes bs.reverse)

/-- `n` elements from a byte string. -/
def elsOfBytes (e : Endian) (t : RsType) : Nat → Bytes → List (El t)
  | 0, _ => []
  | n + 1, bs => elOfBytes e t (bs.take t.size) :: elsOfBytes e t n (bs.drop t.size)

/-- `slice::chunks(k)` for `k > 0`: consecutive pieces of `k` elements, the last one shorter.
The first argument bounds the number of pieces. -/
def chunksAux {α : Type} (k : Nat) : Nat → List α → List (List α)
  | 0, _ => []
  | f + 1, l => if l.isEmpty then [] else l.take k :: chunksAux k f (l.drop k)

/-- `slice::chunks(k)`. -/
def chunks {α : Type} (k : Nat) (l : List α) : List (List α) := chunksAux k l.length l

end Zarr
