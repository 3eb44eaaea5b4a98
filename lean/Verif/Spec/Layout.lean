import Verif.Model.Elem
/-!
# Specification: the byte layout of chunks

Independent of the model's byte functions: byte `i` of a number is its `i`-th base-256 digit, and the
declared byte order says in which direction the digits are stored. -/

namespace Zarr.Spec

/-- The `i`-th base-256 digit of `n`, least significant first. -/
def digit (n i : Nat) : Byte := BitVec.ofNat 8 (n / 256 ^ i)

/-- `size` bytes of `n` in the given order. -/
def numBytes (order : Endian) (size n : Nat) : Bytes :=
  (List.range size).map fun i =>
    match order with
    | .little => digit n i
    | .big => digit n (size - 1 - i)

/-- The kind letter and size in bytes of a stored type: what is left of it when byte order is
forgotten. -/
def kindOf : DataType → Char × Nat
  | .bool => ('b', 1)
  | .int .B1 _ => ('i', 1) | .int .B2 _ => ('i', 2) | .int .B4 _ => ('i', 4) | .int .B8 _ => ('i', 8)
  | .uint .B1 _ => ('u', 1) | .uint .B2 _ => ('u', 2) | .uint .B4 _ => ('u', 4)
  | .uint .B8 _ => ('u', 8)
  | .float .B2 _ => ('f', 2) | .float .B4 _ => ('f', 4) | .float .B8 _ => ('f', 8)
  | .raw n => ('r', n)

/-- The kind letter and size in bytes of a Rust element type. -/
def kindOfRs : RsType → Char × Nat
  | .bool => ('b', 1)
  | .i8 => ('i', 1) | .i16 => ('i', 2) | .i32 => ('i', 4) | .i64 => ('i', 8)
  | .u8 => ('u', 1) | .u16 => ('u', 2) | .u32 => ('u', 4) | .u64 => ('u', 8)
  | .f16 => ('f', 2) | .f32 => ('f', 4) | .f64 => ('f', 8)

/-- The byte order named by a stored type, if it names one. -/
def orderOf : DataType → Option Endian
  | .bool | .raw _ => none
  | .int _ e | .uint _ e | .float _ e => some e

/-- The effective type of an array's declared type: itself, or the fallback of an extension type. -/
def effective : ExtensibleDataType → Option DataType
  | .core d => some d
  | .extended _ _ f => f

end Zarr.Spec
