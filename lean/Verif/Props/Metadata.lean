import Verif.Lemmas.Json
import Verif.Lemmas.JsonText
import Verif.Spec.Keys
import Verif.Props.DataType
import Verif.Props.Compression
/-!
# Metadata documents: C31, C32
-/

namespace Zarr

open Spec

/-- The demonstration environment with a real JSON text form. -/
def Demo.envJ : Env := { Demo.env with json := jsonText }

/-! ## C31 -/

/-- Data types whose text form determines them: everything but raw types and one-byte integers
declared big-endian. -/
def Spec.TypeFaithful (d : DataType) : Prop :=
  (∀ n, d ≠ .raw n) ∧ d ≠ .int .B1 .big ∧ d ≠ .uint .B1 .big

/-- Metadata of which nothing is lost when it is stored: the values have their Rust types, the data
type is faithful, the fill value is not an explicit null, no extension is required, and the free-form
parts contain only floating point numbers in `fl`. -/
structure Spec.Faithful (f : Features) (fl : BitVec 64 → Bool) (m : ArrayMetadata) : Prop where
  shape : ∀ n ∈ m.shape, n < 2 ^ 64
  chunkShape : ∀ n ∈ m.chunkShape, n < 2 ^ 32
  core : ∀ d, m.dataType = .core d → TypeFaithful d
  fallback : ∀ x t d, m.dataType = .extended x t (some d) → TypeFaithful d
  fill : ∀ j, m.fillValue = some j → j ≠ .null ∧ j.canon fl 126 = true
  exts : ∀ e ∈ m.extensions, e.mustUnderstand = false ∧
    ∀ c, e.configuration = some c → (Json.obj c).canon fl 124 = true
  attrs : (Json.obj m.attributes).canon fl 126 = true
  comp : m.compressor.WellTyped ∧ m.compressor.enabled f = true

theorem DataType.toJson_ok {d : DataType} {j : Json} (h : d.toJson = .ok j) : ∃ s, j = .str s := by
  simp only [DataType.toJson, Outcome.bind_eq_ok, Outcome.pure_def, Outcome.ok.injEq] at h
  obtain ⟨s, _, h⟩ := h
  exact ⟨s, h.symm⟩

theorem ExtensibleDataType.roundTrip {fl : BitVec 64 → Bool} (n : Nat) {d : ExtensibleDataType}
    (h1 : ∀ x, d = .core x → TypeFaithful x)
    (h2 : ∀ x t y, d = .extended x t (some y) → TypeFaithful y) :
    ∃ j, d.toJson = .ok j ∧ j.canon fl (n + 1) = true ∧ ExtensibleDataType.fromJson j = .ok d := by
  cases d with
  | core x =>
    obtain ⟨a, b⟩ := h1 x rfl
    obtain ⟨j, hj, hj'⟩ := C29_partial x a b
    refine ⟨j, hj, ?_, ?_⟩
    · obtain ⟨s, rfl⟩ := DataType.toJson_ok hj; rfl
    · simp [ExtensibleDataType.fromJson, hj']
  | extended x t f =>
    cases f with
    | none =>
      refine ⟨_, rfl, by simp [Json.canon, Json.canonObj], ?_⟩
      simp only [ExtensibleDataType.fromJson, DataType.fromJson, ExtensibleDataType.extFromJson]
      rw [uniqueMembers_nodup (by simp)]
      simp [objField, objGet, Json.asStr]
    | some y =>
      obtain ⟨a, b⟩ := h2 x t y rfl
      obtain ⟨j, hj, hj'⟩ := C29_partial y a b
      obtain ⟨s, rfl⟩ := DataType.toJson_ok hj
      refine ⟨_, by simp only [ExtensibleDataType.toJson, hj]; rfl,
        by simp [Json.canon, Json.canonObj], ?_⟩
      simp only [ExtensibleDataType.fromJson, ExtensibleDataType.extFromJson]
      rw [uniqueMembers_nodup (by simp)]
      simp [objField, objGet, Json.asStr, DataType.fromJson]
      simp only [DataType.fromJson] at hj'
      simp [hj']

theorem ExtensionMetadata.roundTrip {fl : BitVec 64 → Bool} {n : Nat} (e : ExtensionMetadata)
    (h : ∀ c, e.configuration = some c → (Json.obj c).canon fl n = true) :
    ExtensionMetadata.fromJson e.toJson = .ok e := by
  obtain ⟨x, u, c⟩ := e
  simp only [ExtensionMetadata.toJson, ExtensionMetadata.fromJson]
  cases c with
  | none =>
    rw [members_nodup (by simp)]
    simp [objField, objGet, Json.asStr, Json.asBool, optObjField]
  | some c =>
    rw [members_nodup (by simp)]
    simp [objField, objGet, Json.asStr, Json.asBool, optObjField, Json.asMap,
      Json.dedup_canon n _ (h c rfl), Json.asObj]

theorem ExtensionMetadata.canon {fl : BitVec 64 → Bool} {n : Nat} {e : ExtensionMetadata}
    (h : ∀ c, e.configuration = some c → (Json.obj c).canon fl (n + 1) = true) :
    e.toJson.canon fl (n + 2) = true := by
  obtain ⟨x, u, c⟩ := e
  cases c with
  | none => simp [ExtensionMetadata.toJson, Json.canon, Json.canonObj]
  | some c =>
    have := h c rfl
    simp only [Json.canon] at this
    simp [ExtensionMetadata.toJson, Json.canon, Json.canonObj, this]

theorem asNatBelow_int {hi n : Nat} (h : n < hi) : Json.asNatBelow hi (Json.int n) = .ok n := by
  simp [Json.asNatBelow, Json.asIntIn, h]

theorem asNats_map {hi : Nat} {l : List Nat} (h : ∀ n ∈ l, n < hi) :
    Json.asNats hi (.arr (l.map fun (n : Nat) => Json.int n)) = .ok l := by
  simp only [Json.asNats, Json.asArr, Outcome.bind_ok]
  exact mapOutcome_map fun n hn => asNatBelow_int (h n hn)

theorem canon_nats {fl : BitVec 64 → Bool} (k : Nat) {hi : Nat} {l : List Nat} (h : ∀ n ∈ l, n < hi) (h' : hi ≤ 2 ^ 64) :
    Json.canonArr fl k (l.map fun (n : Nat) => Json.int n) = true := by
  rw [Json.canonArr_iff]
  intro j hj
  obtain ⟨n, hn, rfl⟩ := List.mem_map.mp hj
  have := h n hn
  simp [Json.canon]; omega

theorem CompressionType.canon_toJson {fl : BitVec 64 → Bool} (n : Nat) {c : CompressionType} (h : c.WellTyped) :
    c.toJson.canon fl (n + 2) = true := by
  cases c <;> simp [CompressionType.toJson, CompressionType.config, Json.canon, Json.canonObj,
    CompressionType.WellTyped] at h ⊢ <;> omega

theorem Order.roundTrip (fl : BitVec 64 → Bool) (n : Nat) (o : Order) :
    Order.fromJson o.toJson = .ok o ∧ o.toJson.canon fl n = true := by
  cases o <;> exact ⟨by decide, rfl⟩

/-- The values of the metadata have their Rust types, the free-form parts are nested at most so deep that
the document has `n + 4` levels, the data type is faithful and the fill value is not an explicit null. -/
structure Spec.StoredAt (f : Features) (fl : BitVec 64 → Bool) (n : Nat) (m : ArrayMetadata) : Prop where
  shape : ∀ n ∈ m.shape, n < 2 ^ 64
  chunkShape : ∀ n ∈ m.chunkShape, n < 2 ^ 32
  core : ∀ d, m.dataType = .core d → TypeFaithful d
  fallback : ∀ x t d, m.dataType = .extended x t (some d) → TypeFaithful d
  fill : ∀ j, m.fillValue = some j → j ≠ .null ∧ j.canon fl (n + 3) = true
  exts : ∀ e ∈ m.extensions, ∀ c, e.configuration = some c → (Json.obj c).canon fl (n + 1) = true
  attrs : (Json.obj m.attributes).canon fl (n + 3) = true
  comp : m.compressor.WellTyped ∧ m.compressor.enabled f = true

/-- The document of such metadata is canonical and is read back as the same metadata. -/
theorem ArrayMetadata.roundTripAt {f : Features} {fl : BitVec 64 → Bool} {n : Nat} {m : ArrayMetadata}
    (hm : StoredAt f fl n m) :
    ∃ kvs, m.toJson = .ok (.obj kvs) ∧ (Json.obj kvs).canon fl (n + 4) = true ∧
      ArrayMetadata.fromJson f (.obj kvs) = .ok m := by
  obtain ⟨dt, hdt, hdc, hdr⟩ := ExtensibleDataType.roundTrip (fl := fl) (n + 2) hm.core hm.fallback
  have hcomp := (C50_partial f).1 m.compressor hm.comp.1 hm.comp.2
  have hshape := asNats_map hm.shape
  have hchunk := asNats_map hm.chunkShape
  have hext : mapOutcome ExtensionMetadata.fromJson (m.extensions.map ExtensionMetadata.toJson)
      = .ok m.extensions := mapOutcome_map fun e he => e.roundTrip (hm.exts e he)
  have hfill : (match some (m.fillValue.getD .null) with
      | none => none
      | some .null => none
      | some j => some j.dedup) = m.fillValue := by
    cases hf : m.fillValue with
    | none => rfl
    | some j =>
      have h1 := (hm.fill j hf).1
      have h2 := Json.dedup_canon (n + 3) j (hm.fill j hf).2
      cases j <;> simp [h2] at h1 ⊢
  have hfillc : (m.fillValue.getD .null).canon fl (n + 3) = true := by
    cases hf : m.fillValue with
    | none => rfl
    | some j => exact (hm.fill j hf).2
  have hextc : Json.canonArr fl (n + 2) (m.extensions.map ExtensionMetadata.toJson) = true := by
    rw [Json.canonArr_iff]
    intro j hj
    obtain ⟨e, he, rfl⟩ := List.mem_map.mp hj
    exact ExtensionMetadata.canon (hm.exts e he)
  have hattr := hm.attrs
  simp only [Json.canon] at hattr
  have hcc := CompressionType.canon_toJson (fl := fl) (n + 1) hm.comp.1
  have hs1 := canon_nats (fl := fl) (n + 2) hm.shape (by omega)
  have hs2 := canon_nats (fl := fl) (n + 1) hm.chunkShape (by omega)
  have ho := Order.roundTrip fl (n + 3) m.order
  have hmap : (Json.obj m.attributes).asMap = .ok m.attributes := by
    rw [Json.asMap, Json.dedup_canon (n + 3) _ hm.attrs]; rfl
  have hgrid : ∀ a b c : Json, (Json.obj [(str!"type", a), (str!"chunk_shape", b), (str!"separator", c)]).members
      [str!"type", str!"chunk_shape", str!"separator"] 3
        = .ok [(str!"type", a), (str!"chunk_shape", b), (str!"separator", c)] :=
    fun a b c => members_nodup (by simp)
  by_cases hd : m.compressor.isDefault = true
  · have hraw : m.compressor = .raw := of_decide_eq_true hd
    refine ⟨_, by simp only [ArrayMetadata.toJson, hdt, hd]; rfl, ?_, ?_⟩
    · simp [Json.canon, Json.canonObj, hs1, hs2, hdc, ho, hfillc, hextc, hattr]
    · rw [ArrayMetadata.fromJson, members_nodup (by simp)]
      simp only [objField, objGet, Outcome.bind_ok, List.cons_append, List.nil_append]
      simp only [reduceCtorEq, List.cons.injEq, Char.reduceEq, if_true, if_false, false_and, and_false,
        and_self, Outcome.ofOption_some, Outcome.bind_ok, hshape, hdr, hgrid, Json.asStr, hchunk, ho.1, Json.asArr,
        hext, hmap, CompressionType.default, Outcome.pure_def, objGet]
      rw [← hraw]
      exact congrArg (fun v => Outcome.ok { m with fillValue := v }) hfill
  · refine ⟨_, by simp only [ArrayMetadata.toJson, hdt, hd]; rfl, ?_, ?_⟩
    · simp [Json.canon, Json.canonObj, hs1, hs2, hdc, ho, hfillc, hextc, hattr, hcc]
    · rw [ArrayMetadata.fromJson, members_nodup (by simp)]
      simp only [objField, objGet, Outcome.bind_ok, List.cons_append, List.nil_append]
      simp only [reduceCtorEq, List.cons.injEq, Char.reduceEq, if_true, if_false, false_and, and_false,
        and_self, Outcome.ofOption_some, Outcome.bind_ok, hshape, hdr, hgrid, Json.asStr, hchunk, ho.1, Json.asArr,
        hext, hmap, hcomp, Outcome.pure_def, objGet]
      exact congrArg (fun v => Outcome.ok { m with fillValue := v }) hfill

/-- The document of faithful metadata is canonical and is read back as the same metadata. -/
theorem ArrayMetadata.roundTrip {f : Features} {fl : BitVec 64 → Bool} {m : ArrayMetadata}
    (hm : Faithful f fl m) :
    ∃ kvs, m.toJson = .ok (.obj kvs) ∧ (Json.obj kvs).canon fl 127 = true ∧
      ArrayMetadata.fromJson f (.obj kvs) = .ok m :=
  ArrayMetadata.roundTripAt (n := 123) ⟨hm.shape, hm.chunkShape, hm.core, hm.fallback, hm.fill,
    fun e he => (hm.exts e he).2, hm.attrs, hm.comp⟩

theorem checkExtensions_eq (xs : List ExtensionMetadata) :
    checkExtensions xs = if ∃ e ∈ xs, e.mustUnderstand = true then .err .other else .ok () := by
  unfold checkExtensions
  cases h : xs.find? (·.mustUnderstand) with
  | none =>
    rw [List.find?_eq_none] at h
    rw [if_neg]
    rintro ⟨e, he, h'⟩
    exact h e he h'
  | some e =>
    have := List.find?_some h
    rw [if_pos ⟨e, List.mem_of_find?_eq_some h, this⟩]

/-- Metadata with a required extension. -/
def Demo.arrReq : ArrayMetadata := { Demo.arr with extensions := [⟨str!"x", true, none⟩] }
/-- Metadata with a raw data type. -/
def Demo.arrRaw : ArrayMetadata := { Demo.arr with dataType := .core (.raw 16) }
/-- Metadata with big-endian bytes. -/
def Demo.arrByte : ArrayMetadata := { Demo.arr with dataType := .core (.uint .B1 .big) }
/-- Metadata with an explicit null fill value. -/
def Demo.arrNull : ArrayMetadata := { Demo.arr with fillValue := some .null }

/-- Create an array and read its metadata back. -/
def Demo.createGet (m : ArrayMetadata) : Outcome Unit × Outcome ArrayMetadata :=
  let r := createArray Demo.envJ Demo.hier Demo.path m Demo.emptyFs
  (r.1, (getArrayMetadata Demo.envJ Demo.hier Demo.path r.2).1)

set_option maxRecDepth 20000 in
/-- **C31, violated.** Creation succeeds, but the array cannot be read back with a required extension
or a raw data type, and is read back as something else with a big-endian byte type or an explicit null
fill value. -/
theorem C31_violated :
    Demo.createGet Demo.arrReq = (.ok (), .err .other) ∧
    Demo.createGet Demo.arrRaw = (.ok (), .err .json) ∧
    Demo.createGet Demo.arrByte = (.ok (), .ok { Demo.arrByte with dataType := .core (.uint .B1 .little) }) ∧
    Demo.createGet Demo.arrNull = (.ok (), .ok { Demo.arrNull with fillValue := none }) := by
  refine ⟨?_, ?_, ?_, ?_⟩ <;> decide +kernel

/-- **C31, what holds.** For every path (also with `..`), every filesystem and all faithful metadata:
after a successful creation the metadata read is the metadata given. Missing from the full property:
metadata that is not faithful; for required extensions, raw and big-endian byte types and explicit null
fill values it is false (`C31_violated`), also for attributes, fill values and configurations nested so
deep that the document has more than 127 levels (`C89_violated`), for floating point numbers that serde_json
does not read back exactly it is not claimed. -/
theorem C31_partial {env : Env} (hj : env.json.Lawful) {h : Hier} {path : Str} {m : ArrayMetadata}
    {fs fs' : Fs} (hm : Faithful env.features env.json.floats m) (hc : createArray env h path m fs = (.ok (), fs')) :
    getArrayMetadata env h path fs' = (.ok m, fs') := by
  obtain ⟨kvs, h1, h2, h3⟩ := ArrayMetadata.roundTrip hm
  have hset : storeSet h (arrayMetadataKey h.entry path) (arrayMetadataText env m) fs = (.ok (), fs') := by
    simp only [createArray, M.bind_apply] at hc
    cases hg : storeExists h (groupMetadataKey h.entry path) fs with
    | mk r s =>
      have hs : s = fs := by have := storeExists_state h (groupMetadataKey h.entry path) fs; rw [hg] at this; exact this
      subst hs
      rw [hg] at hc
      cases r with
      | ok g =>
        cases g with
        | true => simp at hc
        | false =>
          simp only [Bool.false_eq_true, if_false, M.bind_apply] at hc
          cases ha : storeExists h (arrayMetadataKey h.entry path) s with
          | mk r s' =>
            have hs : s' = s := by have := storeExists_state h (arrayMetadataKey h.entry path) s; rw [ha] at this; exact this
            subst hs
            rw [ha] at hc
            cases r with
            | ok a => cases a with
              | true => simp at hc
              | false => simpa using hc
            | err e => simp at hc
            | panic => simp at hc
      | err e => simp at hc
      | panic => simp at hc
  have hget := storeGet_of_storeSet hset
  simp only [getArrayMetadata, M.bind_apply, hget, M.lift_apply, Outcome.ofOption_some]
  have htext : (arrayMetadataText env m).1 = env.json.print (.obj kvs) := by
    simp [arrayMetadataText, h1]
  rw [htext]
  simp only [parseArrayMetadata, hj.raw_print _ h2, Outcome.ofOption_some, Outcome.bind_ok, h3]
  rw [checkExtensions_eq, if_neg]
  · rfl
  · rintro ⟨e, he, h'⟩
    rw [(hm.exts e he).1] at h'
    simp at h'

/-- Metadata with every field away from its default. -/
def Demo.arrFull : ArrayMetadata where
  shape := [5, 18446744073709551615]
  dataType := .extended str!"e" str!"t" (some (.float .B8 .big))
  gridType := str!"regular"
  chunkShape := [2, 4294967295]
  separator := str!"."
  order := .rowMajor
  fillValue := some (.int (-7))
  extensions := [⟨str!"x", false, some [(str!"k", .arr [.null, .bool true])]⟩]
  attributes := [(str!"λ\"", .obj [(str!"n", .int 3)])]
  compressor := .gzip 4

example : Faithful Demo.envJ.features Demo.envJ.json.floats Demo.arrFull where
  shape := by simp [Demo.arrFull]
  chunkShape := by simp [Demo.arrFull]
  core := by simp [Demo.arrFull]
  fallback := by simp [Demo.arrFull, TypeFaithful]
  fill := by simp [Demo.arrFull, Json.canon]
  exts := by simp [Demo.arrFull, Json.canon, Json.canonObj, Json.canonArr]
  attrs := by simp [Demo.arrFull, Json.canon, Json.canonObj]
  comp := by simp [Demo.arrFull, CompressionType.WellTyped, Demo.envJ, Demo.env, CompressionType.enabled]

set_option maxRecDepth 20000 in
example : Demo.createGet Demo.arrFull = (.ok (), .ok Demo.arrFull) := by decide +kernel

/-! ## C32 -/

/-- A field of a struct: the member of an object with that name, or the element of an array at that
position (serde's alternative form). -/
def Spec.ItemAt (j : Json) (k : Str) (i : Nat) (v : Json) : Prop :=
  (∃ o, j = .obj o ∧ objGet o k = some v) ∨ ∃ l, j = .arr l ∧ l[i]? = some v

/-- A document whose `extensions` field (the one at position `i`) lists an extension with
`must_understand: true`. -/
def Spec.Requires (i : Nat) (j : Json) : Prop :=
  ∃ xs x, ItemAt j str!"extensions" i (.arr xs) ∧ x ∈ xs ∧ ItemAt x str!"must_understand" 1 (.bool true)

theorem members_item {names : List Str} {r : Nat} {j : Json} {o : JsonObject} (h : j.members names r = .ok o)
    {k : Str} (hk : k ∈ names) {v : Json} : objGet o k = some v ↔ ItemAt j k (names.idxOf k) v := by
  rcases Json.members_eq_ok.mp h with ⟨rfl, _⟩ | ⟨l, rfl, _, _, rfl⟩
  · simp [ItemAt]
  · simp [ItemAt, objGet_zip names l hk]

theorem objField_ok {m : JsonObject} {k : Str} {j : Json} (h : objField m k = .ok j) :
    objGet m k = some j := by
  unfold objField at h
  cases hg : objGet m k with
  | none => rw [hg] at h; simp at h
  | some v => rw [hg] at h; simp at h; rw [h]

theorem asArr_ok {j : Json} {l : List Json} (h : j.asArr = .ok l) : j = .arr l := by
  cases j <;> simp [Json.asArr] at h
  rw [h]

theorem ExtensionMetadata.fromJson_must {j : Json} {e : ExtensionMetadata}
    (h : ExtensionMetadata.fromJson j = .ok e) (b : Bool) :
    ItemAt j str!"must_understand" 1 (.bool b) ↔ e.mustUnderstand = b := by
  simp only [ExtensionMetadata.fromJson, Outcome.bind_eq_ok, Outcome.pure_def, Outcome.ok.injEq] at h
  obtain ⟨o, ho, _, _, _, _, u, hu, b', hb, _, _, rfl⟩ := h
  have key := members_item ho (k := str!"must_understand") (by simp) (v := .bool b)
  rw [show ([str!"extension", str!"must_understand", str!"configuration"] : List Str).idxOf
    str!"must_understand" = 1 by decide] at key
  rw [← key, objField_ok hu]
  cases u <;> simp [Json.asBool] at hb
  subst hb; simp

theorem requires_iff {j : Json} {i : Nat} {o : JsonObject} {l : List Json} {xs : List ExtensionMetadata}
    (hi : ∀ v, objGet o str!"extensions" = some v ↔ ItemAt j str!"extensions" i v)
    (hg : objGet o str!"extensions" = some (.arr l))
    (hx : mapOutcome ExtensionMetadata.fromJson l = .ok xs) :
    Requires i j ↔ ∃ e ∈ xs, e.mustUnderstand = true := by
  obtain ⟨h1, h2⟩ := mapOutcome_mem hx
  constructor
  · rintro ⟨l', x, hk, hx', hm⟩
    rw [← hi, hg] at hk
    cases hk
    obtain ⟨e, he, hf⟩ := h1 _ hx'
    exact ⟨e, he, (ExtensionMetadata.fromJson_must hf true).mp hm⟩
  · rintro ⟨e, he, hm⟩
    obtain ⟨x, hx', hf⟩ := h2 _ he
    exact ⟨l, x, (hi _).mp hg, hx', (ExtensionMetadata.fromJson_must hf true).mpr hm⟩

theorem ArrayMetadata.fromJson_requires {f : Features} {j : Json} {m : ArrayMetadata}
    (h : ArrayMetadata.fromJson f j = .ok m) :
    Requires 5 j ↔ ∃ e ∈ m.extensions, e.mustUnderstand = true := by
  rw [ArrayMetadata.fromJson, Outcome.bind_eq_ok] at h
  obtain ⟨kvs, hk, h⟩ := h
  have hi : ∀ v, objGet kvs str!"extensions" = some v ↔ ItemAt j str!"extensions" 5 v :=
    fun v => members_item hk (by simp)
  cases hc : objGet kvs str!"compressor" with
  | none =>
    simp only [hc, Outcome.bind_eq_ok, Outcome.pure_def, Outcome.ok.injEq] at h
    obtain ⟨_, _, _, _, _, _, _, _, _, _, _, _, _, _, _, _, _, _, _, _, _, _, _, _, _, _, _, _,
      x, hx, l, hl, xs, hxs, _, _, _, _, _, _, rfl⟩ := h
    have hx := objField_ok hx
    rw [asArr_ok hl] at hx
    exact requires_iff hi hx hxs
  | some c =>
    simp only [hc, Outcome.bind_eq_ok, Outcome.pure_def, Outcome.ok.injEq] at h
    obtain ⟨_, _, _, _, _, _, _, _, _, _, _, _, _, _, _, _, _, _, _, _, _, _, _, _, _, _, _, _,
      x, hx, l, hl, xs, hxs, _, _, _, _, _, _, rfl⟩ := h
    have hx := objField_ok hx
    rw [asArr_ok hl] at hx
    exact requires_iff hi hx hxs

theorem EntryPointMetadata.fromJson_requires {j : Json} {m : EntryPointMetadata}
    (h : EntryPointMetadata.fromJson j = .ok m) :
    Requires 3 j ↔ ∃ e ∈ m.extensions, e.mustUnderstand = true := by
  rw [EntryPointMetadata.fromJson, Outcome.bind_eq_ok] at h
  obtain ⟨kvs, hk, h⟩ := h
  have hi : ∀ v, objGet kvs str!"extensions" = some v ↔ ItemAt j str!"extensions" 3 v :=
    fun v => members_item hk (by simp)
  simp only [Outcome.bind_eq_ok, Outcome.pure_def, Outcome.ok.injEq] at h
  obtain ⟨_, _, _, _, _, _, _, _, _, _, _, _, x, hx, l, hl, xs, hxs, rfl⟩ := h
  have hx := objField_ok hx
  rw [asArr_ok hl] at hx
  exact requires_iff hi hx hxs

theorem segs_entryPoint (base : Str) : segs (joinPath base entryPointKey) = segs base ++ [str!"zarr.json"] := by
  rw [segs_joinPath _ _ (by intro r; simp [entryPointKey])]; rfl

theorem readFile_content {fs : Fs} (hwf : fs.WF) {p : Loc} (hp : Plain p) {b : Bytes}
    (h : fs.content p = some b) : fs.readFile p = .ok b :=
  Fs.readFile_of_get hwf hp (Fs.content_eq_some.mp h)

/-- `v` is what follows the last `/` of a text. -/
def Spec.AfterSlash (s v : Str) : Prop := '/' ∉ v ∧ (s = v ∨ ∃ p, s = p ++ '/' :: v)

/-- The answer of the version requirement that the entry point document names: `none` if it names none. -/
def Spec.VersionIs (env : Env) (e : EntryPointMetadata) (answer : Option Bool) : Prop :=
  ∃ v, AfterSlash e.zarrFormat v ∧ env.versionReq v = answer

/-- The version named by the entry point document is compatible. -/
def Spec.Compatible (env : Env) (e : EntryPointMetadata) : Prop := VersionIs env e (some true)

theorem lastPiece_append (p v : Str) (hv : '/' ∉ v) : lastPiece (p ++ '/' :: v) = v := by
  have h : ∀ a ∈ v.reverse, decide (a ≠ '/') = true := by
    intro a ha
    simp only [List.mem_reverse] at ha
    exact decide_eq_true fun e => hv (e ▸ ha)
  simp only [lastPiece, List.reverse_append, List.reverse_cons, List.append_assoc, List.singleton_append]
  rw [List.takeWhile_append_of_pos h, List.takeWhile_cons_of_neg (by simp)]
  simp

theorem afterSlash_iff {s v : Str} : AfterSlash s v ↔ lastPiece s = v := by
  have hall : ∀ v : Str, '/' ∉ v → lastPiece v = v := by
    intro v hv
    have h : ∀ a ∈ v.reverse, decide (a ≠ '/') = true := by
      intro a ha
      simp only [List.mem_reverse] at ha
      exact decide_eq_true fun e => hv (e ▸ ha)
    have h2 := List.takeWhile_append_of_pos (l₂ := []) h
    simp only [List.append_nil, List.takeWhile_nil] at h2
    simp only [lastPiece, h2, List.reverse_reverse]
  constructor
  · rintro ⟨hv, rfl | ⟨p, rfl⟩⟩
    · exact hall _ hv
    · exact lastPiece_append p v hv
  · rintro rfl
    refine ⟨?_, ?_⟩
    · intro h
      simp only [lastPiece, List.mem_reverse] at h
      have hall := List.all_takeWhile (p := fun c => decide (c ≠ '/')) (l := s.reverse)
      have := List.all_eq_true.mp hall _ h
      simp at this
    · cases hd : s.reverse.dropWhile (· ≠ '/') with
      | nil =>
        left
        have h := List.takeWhile_append_dropWhile (p := fun c => decide (c ≠ '/')) (l := s.reverse)
        rw [hd, List.append_nil] at h
        simp only [lastPiece, h, List.reverse_reverse]
      | cons c r =>
        right
        have h := List.takeWhile_append_dropWhile (p := fun c => decide (c ≠ '/')) (l := s.reverse)
        have hc : c = '/' := by
          have hh := List.head?_dropWhile_not (p := fun c => decide (c ≠ '/')) s.reverse
          rw [hd] at hh
          simpa using hh
        rw [hd, hc] at h
        refine ⟨r.reverse, ?_⟩
        have h' := congrArg List.reverse h
        rw [List.reverse_reverse, List.reverse_append, List.reverse_cons, List.append_assoc] at h'
        exact h'.symm

theorem versionIs_iff {env : Env} {e : EntryPointMetadata} {answer : Option Bool} :
    VersionIs env e answer ↔ env.versionReq (lastPiece e.zarrFormat) = answer := by
  constructor
  · rintro ⟨v, hv, h⟩
    rw [afterSlash_iff.mp hv, h]
  · exact fun h => ⟨_, afterSlash_iff.mpr rfl, h⟩

theorem compatible_iff {env : Env} {e : EntryPointMetadata} :
    Compatible env e ↔ env.versionReq (lastPiece e.zarrFormat) = some true := versionIs_iff

/-- **C32.** An array document that deserializes is refused by `get_array_metadata` exactly when it
lists a required extension, and is otherwise returned, whatever other extensions it lists. An entry
point document that deserializes and names a compatible version is refused by `open` exactly when it
lists a required extension. -/
theorem C32 {env : Env} :
    (∀ {h : Hier} {path : Str} {fs : Fs} {b : Bytes} {j : Json} {m : ArrayMetadata},
      fs.WF → Plain (segs h.base) → GoodSuffix h.entry → Plain (segs path) →
      arrayDoc h fs path = some b → env.json.raw b = some j →
      ArrayMetadata.fromJson env.features j = .ok m →
      (Requires 5 j → ∃ e, getArrayMetadata env h path fs = (.err e, fs)) ∧
      (¬ Requires 5 j → getArrayMetadata env h path fs = (.ok m, fs))) ∧
    (∀ {base : Str} {fs : Fs} {b : Bytes} {j : Json} {e : EntryPointMetadata},
      fs.WF → Plain (segs base) → fs.content (segs base ++ [str!"zarr.json"]) = some b →
      env.json.raw b = some j → EntryPointMetadata.fromJson j = .ok e →
      Compatible env e →
      (Requires 3 j → ∃ k, openHier env base fs = (.err k, fs)) ∧
      (¬ Requires 3 j → openHier env base fs = (.ok ⟨base, e⟩, fs))) := by
  constructor
  · intro h path fs b j m hwf hb hs hp hd hj hm
    have hiff := ArrayMetadata.fromJson_requires hm
    have hg := storeGet_array hwf hb hs hp
    rw [hd] at hg
    have e1 : getArrayMetadata env h path fs =
        (checkExtensions m.extensions >>= fun _ => pure m, fs) := by
      simp only [getArrayMetadata, M.bind_apply, hg, M.lift_apply, Outcome.ofOption_some,
        parseArrayMetadata, hj, Outcome.bind_ok, hm]
    rw [e1, checkExtensions_eq]
    constructor
    · intro hr; rw [if_pos (hiff.mp hr)]; exact ⟨_, rfl⟩
    · intro hr; rw [if_neg (fun h => hr (hiff.mpr h))]; rfl
  · intro base fs b j e hwf hb hd hj hm hv
    have hiff := EntryPointMetadata.fromJson_requires hm
    have hr : fs.readFile (segs (joinPath base entryPointKey)) = .ok b := by
      rw [segs_entryPoint]
      exact readFile_content hwf (hb.append (by decide)) hd
    have e1 : readEntryPointMetadata env base fs = (checkExtensions e.extensions >>= fun _ => pure e, fs) := by
      simp only [readEntryPointMetadata, M.read_apply, hr, Outcome.bind_ok, parseEntryPoint, hj,
        Outcome.ofOption_some, hm]
    constructor
    · intro hq
      simp only [openHier, M.bind_apply, e1, checkExtensions_eq, if_pos (hiff.mp hq)]
      exact ⟨_, rfl⟩
    · intro hq
      simp only [openHier, M.bind_apply, e1, checkExtensions_eq, if_neg (fun h => hq (hiff.mpr h))]
      simp [checkVersion, getVersion, compatible_iff.mp hv]

/-- A filesystem with one file at `/h/zarr.json`. -/
def Demo.entryFs (e : EntryPointMetadata) : Fs :=
  ⟨[([], .dir), ([str!"h"], .dir), ([str!"h", str!"zarr.json"], .file (jsonText.print e.toJson))]⟩

set_option maxRecDepth 20000 in
example : (openHier Demo.envJ str!"/h" (Demo.entryFs { EntryPointMetadata.default with
      extensions := [⟨str!"a", false, none⟩] })).1.isOk = true ∧
    (openHier Demo.envJ str!"/h" (Demo.entryFs { EntryPointMetadata.default with
      extensions := [⟨str!"a", false, none⟩, ⟨str!"b", true, none⟩] })).1 = .err .other := by
  decide +kernel

end Zarr
