import Verif.Model.Json
/-!
# Data types (`src/data_type.rs`)
-/

namespace Zarr

/-- `IntSize` (data_type.rs:15-21). -/
inductive IntSize where | B1 | B2 | B4 | B8
  deriving DecidableEq, Repr

/-- `FloatSize` (data_type.rs:46-51). -/
inductive FloatSize where | B2 | B4 | B8
  deriving DecidableEq, Repr

/-- `Endian` (data_type.rs:74-78). -/
inductive Endian where | big | little
  deriving DecidableEq, Repr

/-- `DataType` (data_type.rs:116-123). -/
inductive DataType where
  | bool
  | int (size : IntSize) (endian : Endian)
  | uint (size : IntSize) (endian : Endian)
  | float (size : FloatSize) (endian : Endian)
  | raw (size : Nat)
  deriving DecidableEq, Repr

/-- `IntSize::deserial_char` (data_type.rs:24-33). -/
def IntSize.deserialChar (c : Char) : Option IntSize :=
  if c = '1' then some .B1
  else if c = '2' then some .B2
  else if c = '4' then some .B4
  else if c = '8' then some .B8
  else none

/-- `IntSize::serial_char` (data_type.rs:35-43). -/
def IntSize.serialChar : IntSize → Char
  | .B1 => '1' | .B2 => '2' | .B4 => '4' | .B8 => '8'

/-- `FloatSize::deserial_char` (data_type.rs:54-62). -/
def FloatSize.deserialChar (c : Char) : Option FloatSize :=
  if c = '2' then some .B2
  else if c = '4' then some .B4
  else if c = '8' then some .B8
  else none

/-- `FloatSize::serial_char` (data_type.rs:64-71). -/
def FloatSize.serialChar : FloatSize → Char
  | .B2 => '2' | .B4 => '4' | .B8 => '8'

/-- `Endian::deserial_char` (data_type.rs:87-93). -/
def Endian.deserialChar (c : Char) : Option Endian :=
  if c = '>' then some .big
  else if c = '<' then some .little
  else none

/-- `Endian::serial_char` (data_type.rs:95-100). -/
def Endian.serialChar : Endian → Char
  | .big => '>' | .little => '<'

/-- `impl Serialize for DataType` (data_type.rs:125-165): the JSON string produced. For a raw
type the whole 32-byte buffer is turned into a string (line 160), so the text is followed by
NUL characters; `write!` into the buffer fails (`expect`) if it does not fit. -/
def DataType.serialize : DataType → Outcome Str
  | .bool => .ok str!"bool"
  | .int .B1 _ => .ok str!"i1"
  | .uint .B1 _ => .ok str!"u1"
  | .int s e => .ok [e.serialChar, 'i', s.serialChar]
  | .uint s e => .ok [e.serialChar, 'u', s.serialChar]
  | .float s e => .ok [e.serialChar, 'f', s.serialChar]
  | .raw n =>
    let text := 'r' :: dec n
    if text.length ≤ 32 then .ok (text ++ List.replicate (32 - text.length) (Char.ofNat 0))
    else .panic

/-- The `dtype.len() == 3` arm of `visit_str` (data_type.rs:208-231), on the characters. -/
def DataType.visit3 (value : Str) : Outcome DataType :=
  match value with
  | [] => .panic                                  -- `chars.next().unwrap()`
  | c0 :: r0 =>
    match Endian.deserialChar c0 with
    | none => .panic                              -- `.expect("TODO")` (line 210)
    | some endian =>
      match r0 with
      | [] => .panic                              -- `chars.next().unwrap()`
      | c1 :: r1 =>
        if c1 = 'i' then
          match r1 with
          | [] => .panic
          | c2 :: _ => match IntSize.deserialChar c2 with
            | none => .panic                      -- `.unwrap()` (line 213)
            | some size => .ok (.int size endian)
        else if c1 = 'u' then
          match r1 with
          | [] => .panic
          | c2 :: _ => match IntSize.deserialChar c2 with
            | none => .panic                      -- `.unwrap()` (line 217)
            | some size => .ok (.uint size endian)
        else if c1 = 'f' then
          match r1 with
          | [] => .panic
          | c2 :: _ => match FloatSize.deserialChar c2 with
            | none => .panic                      -- `.unwrap()` (line 221)
            | some size => .ok (.float size endian)
        else .err .json

/-- `DataTypeVisitor::visit_str` (data_type.rs:176-241). -/
def DataType.visitStr (value : Str) : Outcome DataType :=
  if value = str!"bool" then .ok .bool
  else if value = str!"i1" then .ok (.int .B1 .little)
  else if value = str!"u1" then .ok (.uint .B1 .little)
  else match value with
    | 'r' :: rest =>
      match parseUsize rest with
      | some size => if size % 8 = 0 then .ok (.raw size) else .err .json
      | none => .err .json
    | _ => if byteLen value = 3 then DataType.visit3 value else .err .json

/-- Rust element types implementing `ReflectedType` for which chunk reading and writing is
implemented (data_type.rs:479-490, chunk.rs:153-237). The example raw types `[u8; n]`
(data_type.rs:493-496) are reflected but have no chunk I/O. -/
inductive RsType where
  | bool | u8 | u16 | u32 | u64 | i8 | i16 | i32 | i64 | f16 | f32 | f64
  deriving DecidableEq, Repr

/-- `std::mem::size_of::<T>()` of the Rust element types. -/
def RsType.size : RsType → Nat
  | .bool => 1 | .u8 => 1 | .i8 => 1
  | .u16 => 2 | .i16 => 2 | .f16 => 2
  | .u32 => 4 | .i32 => 4 | .f32 => 4
  | .u64 => 8 | .i64 => 8 | .f64 => 8

/-- `ReflectedType::ZARR_TYPE` (data_type.rs:479-490); `native` is `NATIVE_ENDIAN` (80-83). -/
def RsType.zarrType (native : Endian) : RsType → DataType
  | .bool => .bool
  | .u8 => .uint .B1 native
  | .u16 => .uint .B2 native
  | .u32 => .uint .B4 native
  | .u64 => .uint .B8 native
  | .i8 => .int .B1 native
  | .i16 => .int .B2 native
  | .i32 => .int .B4 native
  | .i64 => .int .B8 native
  | .f16 => .float .B2 native
  | .f32 => .float .B4 native
  | .f64 => .float .B8 native

/-- The arm chosen by `data_type_match!` (data_type.rs:375-395); `none` is the raw arm. -/
def DataType.matchRs : DataType → Option RsType
  | .bool => some .bool
  | .uint .B1 _ => some .u8
  | .uint .B2 _ => some .u16
  | .uint .B4 _ => some .u32
  | .uint .B8 _ => some .u64
  | .int .B1 _ => some .i8
  | .int .B2 _ => some .i16
  | .int .B4 _ => some .i32
  | .int .B8 _ => some .i64
  | .float .B2 _ => some .f16
  | .float .B4 _ => some .f32
  | .float .B8 _ => some .f64
  | .raw _ => none

/-- `DataType::size_of` (data_type.rs:419-423). -/
def DataType.sizeOf (d : DataType) : Nat :=
  match d with
  | .raw size => 1 * size / 8
  | d => match d.matchRs with
    | some t => t.size
    | none => 0

/-- `DataType::endian` (data_type.rs:425-432). -/
def DataType.endian (native : Endian) : DataType → Endian
  | .int _ e => e
  | .uint _ e => e
  | .float _ e => e
  | _ => native

/-- `DataType::eq_modulo_endian` (data_type.rs:434-443). -/
def DataType.eqModuloEndian : DataType → DataType → Bool
  | .bool, .bool => true
  | .int s1 _, .int s2 _ => decide (s1 = s2)
  | .uint s1 _, .uint s2 _ => decide (s1 = s2)
  | .float s1 _, .float s2 _ => decide (s1 = s2)
  | .raw s1, .raw s2 => decide (s1 = s2)
  | _, _ => false

/-- `ExtensibleDataType` (data_type.rs:282-293). -/
inductive ExtensibleDataType where
  | core (d : DataType)
  | extended (extension typeString : Str) (fallback : Option DataType)
  deriving DecidableEq, Repr

/-- `ExtensibleDataType::effective_type` (data_type.rs:300-309); no fallback is `todo!()`. -/
def ExtensibleDataType.effectiveType : ExtensibleDataType → Outcome DataType
  | .core d => .ok d
  | .extended _ _ (some d) => .ok d
  | .extended _ _ none => .panic

/-- `deserialize_str` with `DataTypeVisitor` (data_type.rs:244-251): only strings are accepted. -/
def DataType.fromJson : Json → Outcome DataType
  | .str s => DataType.visitStr s
  | _ => .err .json

/-- Serialization as a JSON value. -/
def DataType.toJson (d : DataType) : Outcome Json := do
  let s ← d.serialize
  pure (.str s)

/-- Derived `Serialize` of the untagged enum (data_type.rs:282-293). -/
def ExtensibleDataType.toJson : ExtensibleDataType → Outcome Json
  | .core d => d.toJson
  | .extended e t none => .ok (.obj [(str!"extension", .str e), (str!"type", .str t)])
  | .extended e t (some d) => do
    let j ← d.toJson
    pure (.obj [(str!"extension", .str e), (str!"type", .str t), (str!"fallback", j)])

/-- A `String` field of a derived `Deserialize`. -/
def Json.asStr : Json → Outcome Str
  | .str s => .ok s
  | _ => .err .json

/-- A required field of a derived `Deserialize`. -/
def objField (m : JsonObject) (k : Str) : Outcome Json :=
  Outcome.ofOption .json (objGet m k)

/-- The members of a struct read from an object by a derived `Deserialize` (`visit_map`): a second member
with one of the field names is refused; members with other names are ignored. -/
def uniqueMembers (names : List Str) (m : JsonObject) : Outcome JsonObject :=
  if names.all fun k => decide ((m.map Prod.fst).count k ≤ 1) then .ok m else .err .json

/-- The members of a struct with the given field names, of which all but the first `required` have a
default, as a derived `Deserialize` finds them: in an object, or in an array that holds the fields in
their order (`visit_map` and `visit_seq`). -/
def Json.members (names : List Str) (required : Nat) : Json → Outcome JsonObject
  | .obj m => uniqueMembers names m
  | .arr l => if required ≤ l.length ∧ l.length ≤ names.length then .ok (names.zip l) else .err .json
  | _ => .err .json

/-- The `Extended` alternative of the derived `Deserialize` (data_type.rs:286-292). A struct variant of
an untagged enum is read from an object only. -/
def ExtensibleDataType.extFromJson : Json → Outcome ExtensibleDataType
  | .obj m => do
    let m ← uniqueMembers [str!"extension", str!"type", str!"fallback"] m
    let e ← objField m str!"extension"
    let e ← e.asStr
    let t ← objField m str!"type"
    let t ← t.asStr
    let f ← match objGet m str!"fallback" with
      | none => pure none
      | some .null => pure none
      | some j => do
        let d ← DataType.fromJson j
        pure (some d)
    pure (.extended e t f)
  | _ => .err .json

/-- Derived `Deserialize` of the untagged enum: try `Core`, then `Extended`; an error of the
first is discarded, a panic inside it is not (data_type.rs:282-293). -/
def ExtensibleDataType.fromJson (j : Json) : Outcome ExtensibleDataType :=
  match DataType.fromJson j with
  | .ok d => .ok (.core d)
  | .panic => .panic
  | .err _ => ExtensibleDataType.extFromJson j

end Zarr
