import Verif.Model.Strings
/-!
# JSON values (`serde_json::Value`)

A JSON document as a value. Numbers are integers or the bits of an `f64`.
An object is a list of key/value pairs; `serde_json::Map` keeps its keys sorted
(it is a `BTreeMap`), the model keeps them in insertion order. No property
depends on the order of keys: objects are observed through `lookup`.
-/

namespace Zarr

/-- `serde_json::Value`. -/
inductive Json where
  | null
  | bool (b : Bool)
  | int (i : Int)
  | float (bits : BitVec 64)
  | str (s : Str)
  | arr (l : List Json)
  | obj (kvs : List (Str × Json))

namespace Json

mutual
/-- Equality of JSON values is decidable (`impl PartialEq for Value`). -/
def decEq : (a b : Json) → Decidable (a = b)
  | .null, .null => isTrue rfl
  | .bool a, .bool b => if h : a = b then isTrue (by rw [h]) else isFalse (by simp [h])
  | .int a, .int b => if h : a = b then isTrue (by rw [h]) else isFalse (by simp [h])
  | .float a, .float b => if h : a = b then isTrue (by rw [h]) else isFalse (by simp [h])
  | .str a, .str b => if h : a = b then isTrue (by rw [h]) else isFalse (by simp [h])
  | .arr a, .arr b => match decEqArr a b with
    | isTrue h => isTrue (by rw [h])
    | isFalse h => isFalse (by simp [h])
  | .obj a, .obj b => match decEqObj a b with
    | isTrue h => isTrue (by rw [h])
    | isFalse h => isFalse (by simp [h])
  | .null, .bool _ | .null, .int _ | .null, .float _ | .null, .str _ | .null, .arr _ | .null, .obj _
  | .bool _, .null | .bool _, .int _ | .bool _, .float _ | .bool _, .str _ | .bool _, .arr _
  | .bool _, .obj _
  | .int _, .null | .int _, .bool _ | .int _, .float _ | .int _, .str _ | .int _, .arr _
  | .int _, .obj _
  | .float _, .null | .float _, .bool _ | .float _, .int _ | .float _, .str _ | .float _, .arr _
  | .float _, .obj _
  | .str _, .null | .str _, .bool _ | .str _, .int _ | .str _, .float _ | .str _, .arr _
  | .str _, .obj _
  | .arr _, .null | .arr _, .bool _ | .arr _, .int _ | .arr _, .float _ | .arr _, .str _
  | .arr _, .obj _
  | .obj _, .null | .obj _, .bool _ | .obj _, .int _ | .obj _, .float _ | .obj _, .str _
  | .obj _, .arr _ => isFalse (by simp)
/-- Equality of lists of JSON values. -/
def decEqArr : (a b : List Json) → Decidable (a = b)
  | [], [] => isTrue rfl
  | [], _ :: _ | _ :: _, [] => isFalse (by simp)
  | x :: xs, y :: ys => match decEq x y, decEqArr xs ys with
    | isTrue h, isTrue h' => isTrue (by rw [h, h'])
    | isFalse h, _ => isFalse (by simp [h])
    | _, isFalse h => isFalse (by simp [h])
/-- Equality of lists of key/value pairs. -/
def decEqObj : (a b : List (Str × Json)) → Decidable (a = b)
  | [], [] => isTrue rfl
  | [], _ :: _ | _ :: _, [] => isFalse (by simp)
  | (k, x) :: xs, (l, y) :: ys =>
    if hk : k = l then
      match decEq x y, decEqObj xs ys with
      | isTrue h, isTrue h' => isTrue (by rw [hk, h, h'])
      | isFalse h, _ => isFalse (by simp [h])
      | _, isFalse h => isFalse (by simp [h])
    else isFalse (by simp [hk])
end

instance : DecidableEq Json := decEq

end Json

/-- A JSON object (`serde_json::Map<String, Value>`). -/
abbrev JsonObject := List (Str × Json)

/-- `Map::get`. -/
def objGet : JsonObject → Str → Option Json
  | [], _ => none
  | (k, v) :: m, x => if k = x then some v else objGet m x

/-- `Map::insert`: replace the value of an existing key or add a new key. -/
def objInsert : JsonObject → Str → Json → JsonObject
  | [], x, v => [(x, v)]
  | (k, w) :: m, x, v => if k = x then (k, v) :: m else (k, w) :: objInsert m x v

namespace Json

mutual
/-- A document whose text form determines it, given the floating point numbers `fl` that are read back
exactly (serde_json does not guarantee this for every `f64` without its `float_roundtrip` feature):
integers in the range of `serde_json::Number`, no repeated key in an object, and arrays and objects
nested at most `n` deep. -/
def canon (fl : BitVec 64 → Bool) : Nat → Json → Bool
  | _, .null => true
  | _, .bool _ => true
  | _, .int i => decide (-(2 ^ 63 : Int) ≤ i ∧ i < 2 ^ 64)
  | _, .float b => fl b
  | _, .str _ => true
  | 0, .arr _ => false
  | n + 1, .arr l => canonArr fl n l
  | 0, .obj _ => false
  | n + 1, .obj kvs => canonObj fl n kvs
/-- All values of an array are canonical. -/
def canonArr (fl : BitVec 64 → Bool) : Nat → List Json → Bool
  | _, [] => true
  | n, x :: xs => canon fl n x && canonArr fl n xs
/-- All values of an object are canonical and no key is repeated. -/
def canonObj (fl : BitVec 64 → Bool) : Nat → List (Str × Json) → Bool
  | _, [] => true
  | n, (k, v) :: m => canon fl n v && !(m.map Prod.fst).contains k && canonObj fl n m
end

mutual
/-- Arrays and objects are nested at most `n` deep. -/
def within : Nat → Json → Bool
  | _, .null => true
  | _, .bool _ => true
  | _, .int _ => true
  | _, .float _ => true
  | _, .str _ => true
  | 0, .arr _ => false
  | n + 1, .arr l => withinArr n l
  | 0, .obj _ => false
  | n + 1, .obj kvs => withinObj n kvs
/-- All values of an array are nested at most `n` deep. -/
def withinArr : Nat → List Json → Bool
  | _, [] => true
  | n, x :: xs => within n x && withinArr n xs
/-- All values of an object are nested at most `n` deep. -/
def withinObj : Nat → List (Str × Json) → Bool
  | _, [] => true
  | n, (_, v) :: m => within n v && withinObj n m
end

mutual
/-- The `serde_json::Value` a document is read to: of the members of an object with the same name, the
last is kept (`Map::insert` for every member; not in this repository). -/
def dedup : Json → Json
  | .null => .null
  | .bool b => .bool b
  | .int i => .int i
  | .float b => .float b
  | .str s => .str s
  | .arr l => .arr (dedupArr l)
  | .obj m => .obj (dedupObj m)
/-- `dedup` of all values of an array. -/
def dedupArr : List Json → List Json
  | [] => []
  | x :: xs => dedup x :: dedupArr xs
/-- `dedup` of all values of an object, keeping the last of several members with the same name. -/
def dedupObj : List (Str × Json) → List (Str × Json)
  | [] => []
  | (k, v) :: m => if (m.map Prod.fst).contains k then dedupObj m else (k, dedup v) :: dedupObj m
end

/-- `Value::as_object`. -/
def asObject : Json → Option JsonObject
  | .obj m => some m
  | _ => none

end Json

/-- The text form of JSON documents (`serde_json::to_writer` and `serde_json::from_reader`),
which is code outside this repository. -/
structure JsonText where
  /-- `serde_json::to_writer` / `to_value` then `to_writer`. -/
  print : Json → Bytes
  /-- The document in a whole file, with its members as they stand in the text. -/
  raw : Bytes → Option Json
  /-- The `f64` values whose text is read back exactly. -/
  floats : BitVec 64 → Bool

/-- `serde_json::from_reader::<_, Value>` on a whole file. -/
def JsonText.parse (T : JsonText) (b : Bytes) : Option Json := (T.raw b).map Json.dedup

/-- What is assumed of serde_json. The reader takes arrays and objects nested at most 127 deep
(`Deserializer::remaining_depth` starts at 128 and must not reach 0) while the writer has no such
limit: reading back the text of a canonical document gives that document if it is nested at most that
deep and is refused otherwise. An empty file is not a document. -/
structure JsonText.Lawful (T : JsonText) : Prop where
  raw_print : ∀ j, j.canon T.floats 127 = true → T.raw (T.print j) = some j
  raw_deep : ∀ n j, j.canon T.floats n = true → j.within 127 = false → T.raw (T.print j) = none
  raw_within : ∀ t j, T.raw t = some j → j.within 127 = true
  raw_nil : T.raw [] = none

end Zarr
