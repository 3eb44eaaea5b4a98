import Verif.Model.Metadata
/-!
# Specification: metadata documents

What the metadata documents of an array, an extension list and an entry point say, as relations between
JSON values and metadata: which member holds what, in which spelling. Nothing here refers to the
model's serializers or deserializers. -/

namespace Zarr.Spec

/-- The member of an object with a given name. -/
def field (o : JsonObject) (k : Str) : Option Json := (o.find? fun e => decide (e.1 = k)).map (·.2)

/-- The members of a struct whose fields have the given names, all but the first `required` of them
with a default: an object in which none of the names is repeated, or (serde's alternative form) an array
that lists the fields in their order. -/
inductive Members (names : List Str) (required : Nat) : Json → JsonObject → Prop
  | object {o : JsonObject} : (∀ k ∈ names, (o.map Prod.fst).count k ≤ 1) → Members names required (.obj o) o
  | array {l : List Json} : required ≤ l.length → l.length ≤ names.length →
      Members names required (.arr l) (names.zip l)

/-- The names of the types of fixed size. -/
def typeTable : List (Str × DataType) :=
  [(str!"bool", .bool),
   (str!"i1", .int .B1 .little), (str!"u1", .uint .B1 .little),
   (str!"<i1", .int .B1 .little), (str!">i1", .int .B1 .big),
   (str!"<i2", .int .B2 .little), (str!">i2", .int .B2 .big),
   (str!"<i4", .int .B4 .little), (str!">i4", .int .B4 .big),
   (str!"<i8", .int .B8 .little), (str!">i8", .int .B8 .big),
   (str!"<u1", .uint .B1 .little), (str!">u1", .uint .B1 .big),
   (str!"<u2", .uint .B2 .little), (str!">u2", .uint .B2 .big),
   (str!"<u4", .uint .B4 .little), (str!">u4", .uint .B4 .big),
   (str!"<u8", .uint .B8 .little), (str!">u8", .uint .B8 .big),
   (str!"<f2", .float .B2 .little), (str!">f2", .float .B2 .big),
   (str!"<f4", .float .B4 .little), (str!">f4", .float .B4 .big),
   (str!"<f8", .float .B8 .little), (str!">f8", .float .B8 .big)]

/-- The names of data types: one of the table, or `r` and a number of bits in decimal that is a
multiple of 8 (Rust's number parser admits a plus sign). -/
inductive TypeName : Str → DataType → Prop
  | fixed {s : Str} {d : DataType} : (s, d) ∈ typeTable → TypeName s d
  | raw {plus digits : Str} {n : Nat} : plus = [] ∨ plus = ['+'] → digits ≠ [] →
      (∀ c ∈ digits, c.isDigit = true) → Nat.ofDigitChars 10 digits 0 = n → n < 2 ^ 64 → n % 8 = 0 →
      TypeName ('r' :: (plus ++ digits)) (.raw n)

/-- A member that may be missing or null. -/
def Optional {α : Type} (j : Option Json) (says : Json → α → Prop) : Option α → Prop
  | none => j = none ∨ j = some .null
  | some a => ∃ v, j = some v ∧ says v a

/-- A JSON string that names a data type. -/
def TypeText (j : Json) (d : DataType) : Prop := ∃ s, j = .str s ∧ TypeName s d

/-- The `data_type` member: a type name, or an object naming an extension, its type and possibly a
fallback. -/
inductive DataTypeDoc : Json → ExtensibleDataType → Prop
  | core {j : Json} {d : DataType} : TypeText j d → DataTypeDoc j (.core d)
  | extended {o : JsonObject} {e t : Str} {f : Option DataType} :
      (∀ k ∈ [str!"extension", str!"type", str!"fallback"], (o.map Prod.fst).count k ≤ 1) →
      field o str!"extension" = some (.str e) → field o str!"type" = some (.str t) →
      Optional (field o str!"fallback") TypeText f → DataTypeDoc (.obj o) (.extended e t f)

/-- An entry of an `extensions` member. -/
def ExtensionDoc (j : Json) (e : ExtensionMetadata) : Prop :=
  ∃ o, Members [str!"extension", str!"must_understand", str!"configuration"] 3 j o ∧
    field o str!"extension" = some (.str e.extension) ∧
    field o str!"must_understand" = some (.bool e.mustUnderstand) ∧
    Optional (field o str!"configuration") (fun j c => j.dedup = .obj c) e.configuration

/-- The entries of two lists correspond. -/
def Pointwise {α β : Type} (R : α → β → Prop) (xs : List α) (ys : List β) : Prop :=
  xs.length = ys.length ∧ ∀ i (h : i < xs.length) (h' : i < ys.length), R xs[i] ys[i]

/-- A member holding a list of numbers below a bound. -/
def NatsDoc (hi : Nat) (j : Json) (l : List Nat) : Prop :=
  j = .arr (l.map fun (n : Nat) => Json.int n) ∧ ∀ n ∈ l, n < hi

/-- A number in an object, with the value it has when it is missing. -/
def IntMember (o : JsonObject) (k : Str) (dflt i : Int) : Prop :=
  (field o k = none ∧ i = dflt) ∨ field o k = some (.int i)

/-- A configured compressor that is compiled in. -/
def CodecDoc (f : Features) (j : Json) (c : CompressionType) : Prop :=
  ∃ o cfg, Members [str!"codec", str!"configuration"] 2 j o ∧ field o str!"configuration" = some cfg ∧
    match c with
    | .raw => field o str!"codec" = some (.str str!"raw") ∧ cfg = .null
    | .bzip2 b => field o str!"codec" = some (.str str!"bzip2") ∧ f.bzip = true ∧ b < 256 ∧
        ∃ p, Members [str!"blockSize"] 0 cfg p ∧ IntMember p str!"blockSize" 9 b
    | .gzip l => field o str!"codec" = some (.str str!"https://purl.org/zarr/spec/codec/gzip/1.0") ∧
        f.gzip = true ∧ -(2 ^ 31) ≤ l ∧ l < 2 ^ 31 ∧
        ∃ p, Members [str!"level"] 0 cfg p ∧ IntMember p str!"level" (-1) l
    | .lz4 b => field o str!"codec" = some (.str str!"lz4") ∧ (f.lz = true ∨ f.lzPure = true) ∧
        -(2 ^ 31) ≤ b ∧ b < 2 ^ 31 ∧ ∃ p, Members [str!"blockSize"] 0 cfg p ∧ IntMember p str!"blockSize" 65536 b
    | .xz p => field o str!"codec" = some (.str str!"xz") ∧ f.xz = true ∧
        -(2 ^ 31) ≤ p ∧ p < 2 ^ 31 ∧ ∃ q, Members [str!"preset"] 0 cfg q ∧ IntMember q str!"preset" 6 p

/-- The `chunk_memory_layout` member: `C` for row-major, `F` for column-major (or an object with this as
the name of its only member, and null as its value). -/
def OrderDoc (j : Json) : Order → Prop
  | .rowMajor => j = .str str!"C" ∨ j = .obj [(str!"C", .null)]
  | .columnMajor => j = .str str!"F" ∨ j = .obj [(str!"F", .null)]

/-- The fields of an array document. -/
def arrayFields : List Str := [str!"shape", str!"data_type", str!"chunk_grid", str!"chunk_memory_layout",
  str!"fill_value", str!"extensions", str!"attributes", str!"compressor"]

/-- A document that describes an array. Other members are allowed. Of repeated members within the fill
value, the attributes and the configuration of an extension the last counts. -/
structure ArrayDocument (f : Features) (doc : Json) (m : ArrayMetadata) (o g : JsonObject) : Prop where
  members : Members arrayFields 7 doc o
  shape : ∃ j, field o str!"shape" = some j ∧ NatsDoc (2 ^ 64) j m.shape
  dataType : ∃ j, field o str!"data_type" = some j ∧ DataTypeDoc j m.dataType
  grid : ∃ j, field o str!"chunk_grid" = some j ∧
    Members [str!"type", str!"chunk_shape", str!"separator"] 3 j g
  gridType : field g str!"type" = some (.str m.gridType)
  chunkShape : ∃ j, field g str!"chunk_shape" = some j ∧ NatsDoc (2 ^ 32) j m.chunkShape
  separator : field g str!"separator" = some (.str m.separator)
  order : ∃ j, field o str!"chunk_memory_layout" = some j ∧ OrderDoc j m.order
  fill : Optional (field o str!"fill_value") (fun j v => j.dedup = v ∧ v ≠ .null) m.fillValue
  extensions : ∃ l, field o str!"extensions" = some (.arr l) ∧ Pointwise ExtensionDoc l m.extensions
  attributes : ∃ j, field o str!"attributes" = some j ∧ j.dedup = .obj m.attributes
  compressor : (field o str!"compressor" = none ∧ m.compressor = .raw) ∨
    ∃ j, field o str!"compressor" = some j ∧ CodecDoc f j m.compressor

end Zarr.Spec
