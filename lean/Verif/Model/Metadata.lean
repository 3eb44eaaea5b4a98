import Verif.Model.Compression
/-!
# Metadata documents (`src/lib.rs`)

Array, group, extension and entry point metadata and their derived serde implementations, as
functions between Rust values and JSON values. Serde's derived `Deserialize` ignores unknown fields
and also accepts a struct written as a JSON array (`Json.members`). -/

namespace Zarr

/-- `ExtensionMetadata` (lib.rs:156-162). -/
structure ExtensionMetadata where
  extension : Str
  mustUnderstand : Bool
  configuration : Option JsonObject
  deriving DecidableEq

/-- `EntryPointMetadata` (lib.rs:164-171). -/
structure EntryPointMetadata where
  zarrFormat : Str
  metadataEncoding : Str
  metadataKeySuffix : Str
  extensions : List ExtensionMetadata
  deriving DecidableEq

/-- `impl Default for EntryPointMetadata` (lib.rs:173-182). -/
def EntryPointMetadata.default : EntryPointMetadata where
  zarrFormat := str!"https://purl.org/zarr/spec/protocol/core/3.0"
  metadataEncoding := str!"https://purl.org/zarr/spec/protocol/core/3.0"
  metadataKeySuffix := str!".json"
  extensions := []

/-- `GroupMetadata` (lib.rs:345-349). -/
structure GroupMetadata where
  extensions : List Json
  attributes : JsonObject
  deriving DecidableEq

/-- `impl Default for GroupMetadata` (lib.rs:351-358). -/
def GroupMetadata.default : GroupMetadata := ⟨[], []⟩

/-- `Order` (lib.rs:373-379). -/
inductive Order where | rowMajor | columnMajor
  deriving DecidableEq, Repr

/-- `ArrayMetadata` with its `ChunkGridMetadata` inlined (lib.rs:360-369, 381-402). -/
structure ArrayMetadata where
  shape : List Nat
  dataType : ExtensibleDataType
  gridType : Str
  chunkShape : List Nat
  separator : Str
  order : Order
  fillValue : Option Json
  extensions : List ExtensionMetadata
  attributes : JsonObject
  compressor : CompressionType
  deriving DecidableEq

/-- `ArrayMetadata::new` (lib.rs:405-430). -/
def ArrayMetadata.new (shape chunkShape : List Nat) (dataType : ExtensibleDataType)
    (compressor : CompressionType) : Outcome ArrayMetadata :=
  if shape.length = chunkShape.length then
    .ok { shape, dataType, gridType := str!"regular", chunkShape, separator := str!"/",
          order := .columnMajor, fillValue := none, extensions := [], attributes := [],
          compressor }
  else .panic

/-- `get_chunk_num_elements` (lib.rs:474-480), as a natural number (the `usize` product is treated
in `Model/Machine.lean`). -/
def ArrayMetadata.chunkNumElements (m : ArrayMetadata) : Nat := m.chunkShape.prod

/-! ## Derived serde of the extension metadata -/

/-- Derived `Serialize` (lib.rs:156-162). -/
def ExtensionMetadata.toJson (e : ExtensionMetadata) : Json :=
  .obj ([(str!"extension", .str e.extension), (str!"must_understand", .bool e.mustUnderstand)] ++
    match e.configuration with
    | none => []
    | some c => [(str!"configuration", .obj c)])

/-- A `bool` field. -/
def Json.asBool : Json → Outcome Bool
  | .bool b => .ok b
  | _ => .err .json

/-- A field of type `JsonObject`. -/
def Json.asObj : Json → Outcome JsonObject
  | .obj m => .ok m
  | _ => .err .json

/-- A field of type `JsonObject` of a document that is read to a struct. -/
def Json.asMap (j : Json) : Outcome JsonObject := j.dedup.asObj

/-- A field of type `Vec<_>`. -/
def Json.asArr : Json → Outcome (List Json)
  | .arr l => .ok l
  | _ => .err .json

/-- An `Option<JsonObject>` field: missing or null is `None`. -/
def optObjField (m : JsonObject) (k : Str) : Outcome (Option JsonObject) :=
  match objGet m k with
  | none => .ok none
  | some .null => .ok none
  | some j => do
    let o ← j.asMap
    pure (some o)

/-- Deserialize every element of a sequence. -/
def mapOutcome {α β : Type} (f : α → Outcome β) : List α → Outcome (List β)
  | [] => .ok []
  | x :: xs => do
    let y ← f x
    let ys ← mapOutcome f xs
    pure (y :: ys)

/-- Derived `Deserialize` (lib.rs:156-162). -/
def ExtensionMetadata.fromJson (j : Json) : Outcome ExtensionMetadata := do
  let m ← j.members [str!"extension", str!"must_understand", str!"configuration"] 3
  let e ← objField m str!"extension"
  let e ← e.asStr
  let u ← objField m str!"must_understand"
  let u ← u.asBool
  let c ← optObjField m str!"configuration"
  pure ⟨e, u, c⟩

/-! ## Entry point metadata -/

/-- Derived `Serialize` (lib.rs:164-171). -/
def EntryPointMetadata.toJson (e : EntryPointMetadata) : Json :=
  .obj [(str!"zarr_format", .str e.zarrFormat),
        (str!"metadata_encoding", .str e.metadataEncoding),
        (str!"metadata_key_suffix", .str e.metadataKeySuffix),
        (str!"extensions", .arr (e.extensions.map ExtensionMetadata.toJson))]

/-- Derived `Deserialize` (lib.rs:164-171). -/
def EntryPointMetadata.fromJson (j : Json) : Outcome EntryPointMetadata := do
  let m ← j.members [str!"zarr_format", str!"metadata_encoding", str!"metadata_key_suffix", str!"extensions"] 4
  let f ← objField m str!"zarr_format"
  let f ← f.asStr
  let e ← objField m str!"metadata_encoding"
  let e ← e.asStr
  let s ← objField m str!"metadata_key_suffix"
  let s ← s.asStr
  let x ← objField m str!"extensions"
  let x ← x.asArr
  let x ← mapOutcome ExtensionMetadata.fromJson x
  pure ⟨f, e, s, x⟩

/-! ## Group metadata -/

/-- Derived `Serialize` (lib.rs:345-349). -/
def GroupMetadata.toJson (g : GroupMetadata) : Json :=
  .obj [(str!"extensions", .arr g.extensions), (str!"attributes", .obj g.attributes)]

/-! ## Array metadata -/

/-- Derived `Serialize` of `Order` (lib.rs:373-379). -/
def Order.toJson : Order → Json
  | .rowMajor => .str str!"C"
  | .columnMajor => .str str!"F"

/-- Derived `Deserialize` of `Order` (lib.rs:373-379): a variant name, or an object whose only member
has that name and no content. -/
def Order.fromJson : Json → Outcome Order
  | .str s => if s = str!"C" then .ok .rowMajor else if s = str!"F" then .ok .columnMajor
              else .err .json
  | .obj [(s, .null)] => if s = str!"C" then .ok .rowMajor else if s = str!"F" then .ok .columnMajor
              else .err .json
  | _ => .err .json

/-- An element of a `u64`/`u32` sequence. -/
def Json.asNatBelow (hi : Nat) (j : Json) : Outcome Nat := do
  let i ← j.asIntIn 0 hi
  pure i.toNat

/-- A `GridCoord`/`ChunkCoord` value. -/
def Json.asNats (hi : Nat) (j : Json) : Outcome (List Nat) := do
  let l ← j.asArr
  mapOutcome (Json.asNatBelow hi) l

/-- Derived `Serialize` (lib.rs:381-402): `fill_value: None` is written as null, a raw compressor
is skipped. Serializing the data type may panic. -/
def ArrayMetadata.toJson (m : ArrayMetadata) : Outcome Json := do
  let dt ← m.dataType.toJson
  pure <| .obj <|
    [(str!"shape", .arr (m.shape.map fun (n : Nat) => Json.int n)),
     (str!"data_type", dt),
     (str!"chunk_grid", .obj
        [(str!"type", .str m.gridType),
         (str!"chunk_shape", .arr (m.chunkShape.map fun (n : Nat) => Json.int n)),
         (str!"separator", .str m.separator)]),
     (str!"chunk_memory_layout", m.order.toJson),
     (str!"fill_value", m.fillValue.getD .null),
     (str!"extensions", .arr (m.extensions.map ExtensionMetadata.toJson)),
     (str!"attributes", .obj m.attributes)] ++
    (if m.compressor.isDefault then [] else [(str!"compressor", m.compressor.toJson)])

/-- Derived `Deserialize` (lib.rs:381-402). -/
def ArrayMetadata.fromJson (f : Features) (j : Json) : Outcome ArrayMetadata := do
  let m ← j.members [str!"shape", str!"data_type", str!"chunk_grid", str!"chunk_memory_layout",
    str!"fill_value", str!"extensions", str!"attributes", str!"compressor"] 7
  let shape ← objField m str!"shape"
  let shape ← shape.asNats (2 ^ 64)
  let dt ← objField m str!"data_type"
  let dt ← ExtensibleDataType.fromJson dt
  let g ← objField m str!"chunk_grid"
  let g ← g.members [str!"type", str!"chunk_shape", str!"separator"] 3
  let gt ← objField g str!"type"
  let gt ← gt.asStr
  let cs ← objField g str!"chunk_shape"
  let cs ← cs.asNats (2 ^ 32)
  let sep ← objField g str!"separator"
  let sep ← sep.asStr
  let o ← objField m str!"chunk_memory_layout"
  let o ← Order.fromJson o
  let fill := match objGet m str!"fill_value" with
    | none => none
    | some .null => none
    | some j => some j.dedup
  let x ← objField m str!"extensions"
  let x ← x.asArr
  let x ← mapOutcome ExtensionMetadata.fromJson x
  let a ← objField m str!"attributes"
  let a ← a.asMap
  let c ← match objGet m str!"compressor" with
    | none => pure CompressionType.default
    | some j => CompressionType.fromJson f j
  pure { shape, dataType := dt, gridType := gt, chunkShape := cs, separator := sep, order := o,
         fillValue := fill, extensions := x, attributes := a, compressor := c }

end Zarr
