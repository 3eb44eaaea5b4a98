import Verif.Props.Attributes
import Verif.Props.Documents
/-!
# Reading one document in two ways: C92, and a part of C66

`get_array_metadata` reads an array's document to a struct, `list_attributes` and `set_attributes` read it
to a `serde_json::Value`. -/

namespace Zarr

open Spec

/-! ## Repeated members -/

theorem dedupObj_keys (m : JsonObject) (k : Str) : k ∈ (Json.dedupObj m).map Prod.fst ↔ k ∈ m.map Prod.fst := by
  induction m with
  | nil => simp [Json.dedupObj]
  | cons e m ih =>
    obtain ⟨x, v⟩ := e
    rw [Json.dedupObj]
    split
    · rename_i hx
      rw [ih]
      simp only [List.map_cons, List.mem_cons]
      constructor
      · exact .inr
      · rintro (rfl | h)
        · simpa using hx
        · exact h
    · simp only [List.map_cons, List.mem_cons, ih]

theorem dedupObj_nodup (m : JsonObject) : ((Json.dedupObj m).map Prod.fst).Nodup := by
  induction m with
  | nil => simp [Json.dedupObj]
  | cons e m ih =>
    obtain ⟨x, v⟩ := e
    rw [Json.dedupObj]
    split
    · exact ih
    · rename_i hx
      rw [List.map_cons, List.nodup_cons]
      refine ⟨fun h => hx ?_, ih⟩
      simpa using (dedupObj_keys m x).mp h

/-- A `Value` has no repeated members, and holds of the members with the same name the last. -/
theorem dedup_last (m : JsonObject) : ((Json.dedupObj m).map Prod.fst).Nodup ∧
    ∀ k, objGet (Json.dedupObj m) k = (field m.reverse k).map Json.dedup := by
  refine ⟨dedupObj_nodup m, fun k => ?_⟩
  simp only [field]
  induction m with
  | nil => simp [Json.dedupObj, objGet]
  | cons e m ih =>
    obtain ⟨x, v⟩ := e
    rw [Json.dedupObj, List.reverse_cons, List.find?_append]
    have hnone : k ∉ m.map Prod.fst ↔ m.reverse.find? (fun e => decide (e.1 = k)) = none := by
      rw [List.find?_eq_none]
      constructor
      · intro h y hy he
        exact h (List.mem_map.mpr ⟨y, by simpa using hy, by simpa using he⟩)
      · intro h hk
        obtain ⟨y, hy, rfl⟩ := List.mem_map.mp hk
        exact h y (by simpa using hy) (by simp)
    by_cases hx : x ∈ m.map Prod.fst
    · rw [if_pos (by simpa using hx), ih]
      by_cases hk : x = k
      · subst hk
        cases hf : m.reverse.find? (fun e => decide (e.1 = x)) with
        | none => exact absurd hx (hnone.mpr hf)
        | some y => simp
      · cases m.reverse.find? (fun e => decide (e.1 = k)) <;> simp [hk]
    · rw [if_neg (by simpa using hx)]
      simp only [objGet]
      by_cases hk : x = k
      · subst hk
        rw [if_pos rfl, hnone.mp hx]
        simp
      · rw [if_neg hk, ih]
        cases m.reverse.find? (fun e => decide (e.1 = k)) <;> simp [hk]

theorem objGet_dedupObj {m : JsonObject} {k : Str} (h : (m.map Prod.fst).count k ≤ 1) :
    objGet (Json.dedupObj m) k = (objGet m k).map Json.dedup := by
  induction m with
  | nil => simp [Json.dedupObj, objGet]
  | cons e m ih =>
    obtain ⟨x, v⟩ := e
    rw [Json.dedupObj]
    simp only [List.map_cons] at h
    have hm : (m.map Prod.fst).count k ≤ 1 := Nat.le_trans List.count_le_count_cons h
    split
    · rename_i hx
      have hx : x ∈ m.map Prod.fst := by simpa using hx
      have hne : x ≠ k := by
        rintro rfl
        rw [List.count_cons_self] at h
        have := List.count_pos_iff.mpr hx
        omega
      rw [ih hm, objGet, if_neg hne]
    · simp only [objGet]
      by_cases hk : x = k
      · rw [if_pos hk, if_pos hk]; rfl
      · rw [if_neg hk, if_neg hk, ih hm]

/-! ## C92 -/

theorem storeExists_of_get {h : Hier} {key : Str} {fs : Fs} {c : Bytes} (hg : storeGet h key fs = (.ok (some c), fs)) :
    storeExists h key fs = (.ok true, fs) := by
  have h1 : (storeGet h key fs).1 = .ok (some c) := by rw [hg]
  refine Prod.ext ?_ rfl
  change Outcome.bind _ _ = _ at h1
  change Outcome.bind _ _ = _
  cases hp : getPath h.base key with
  | err e => rw [hp] at h1; cases h1
  | panic => rw [hp] at h1; cases h1
  | ok t =>
    rw [hp] at h1
    have h1 : (if fs.isFile (segs t) then (do let b ← fs.readFile (segs t); pure (some b)) else pure none :
      Outcome (Option Bytes)) = .ok (some c) := h1
    change Outcome.ok (fs.isFile (segs t)) = _
    by_cases hf : fs.isFile (segs t)
    · rw [hf]
    · rw [if_neg hf] at h1; cases h1

/-- What both calls read, if the metadata can be read. -/
theorem getArrayMetadata_reads {env : Env} {h : Hier} {path : Str} {fs : Fs} {m : ArrayMetadata}
    (hm : getArrayMetadata env h path fs = (.ok m, fs)) :
    ∃ c doc, storeGet h (arrayMetadataKey h.entry path) fs = (.ok (some c), fs) ∧ env.json.raw c = some doc ∧
      ArrayMetadata.fromJson env.features doc = .ok m ∧
      nodeMetadataKey h path fs = (.ok (arrayMetadataKey h.entry path), fs) := by
  simp only [getArrayMetadata, M.bind_apply] at hm
  cases hg : storeGet h (arrayMetadataKey h.entry path) fs with
  | mk r s =>
    have hs : s = fs := by
      have : (storeGet h (arrayMetadataKey h.entry path) fs).2 = fs := rfl
      rw [hg] at this; exact this
    subst hs
    rw [hg] at hm
    cases r with
    | err e => simp at hm
    | panic => simp at hm
    | ok v =>
      cases v with
      | none => simp [Outcome.ofOption] at hm
      | some c =>
        simp only [Outcome.ofOption, M.lift_apply, Prod.mk.injEq, and_true] at hm
        have hm : parseArrayMetadata env c = .ok m := hm
        rw [parseArrayMetadata, Outcome.bind_eq_ok] at hm
        obtain ⟨doc, h1, hm⟩ := hm
        rw [Outcome.bind_eq_ok] at hm
        obtain ⟨m', h2, hm⟩ := hm
        rw [Outcome.bind_eq_ok] at hm
        obtain ⟨_, _, hm⟩ := hm
        simp only [Outcome.pure_def, Outcome.ok.injEq] at hm
        subst hm
        refine ⟨c, doc, rfl, ?_, h2, ?_⟩
        · cases hr : env.json.raw c with
          | none => rw [hr] at h1; simp [Outcome.ofOption] at h1
          | some d => rw [hr] at h1; simp [Outcome.ofOption] at h1; rw [h1]
        · simp [nodeMetadataKey, storeExists_of_get hg]

/-- **C92, what holds.** If the metadata of an array can be read and its document is a JSON object, with or
without repeated or unknown members, then `list_attributes` returns the attributes in the metadata. Missing
from the full property: a document in serde's alternative form of a struct, a JSON array, for which it
always fails unless the attributes are empty (`C92_violated_always`). -/
theorem C92_partial {env : Env} {h : Hier} {path : Str} {fs : Fs} {m : ArrayMetadata} {c : Bytes} {o : JsonObject}
    (hm : getArrayMetadata env h path fs = (.ok m, fs))
    (hc : storeGet h (arrayMetadataKey h.entry path) fs = (.ok (some c), fs)) (ho : env.json.raw c = some (.obj o)) :
    listAttributes env h path fs = (.ok m.attributes, fs) := by
  obtain ⟨c', doc, h1, h2, h3, h4⟩ := getArrayMetadata_reads hm
  rw [hc] at h1
  cases h1
  rw [ho] at h2
  cases h2
  obtain ⟨o', g, hd⟩ := ArrayMetadata.fromJson_eq_ok.mp h3
  have hmem := hd.members
  cases hmem with
  | object hu =>
    obtain ⟨j, ha, hj⟩ := hd.attributes
    have hp : env.json.parse c = some (.obj (Json.dedupObj o)) := by rw [JsonText.parse, ho]; rfl
    have hget : objGet (Json.dedupObj o) attributesName = some (.obj m.attributes) := by
      rw [objGet_dedupObj (hu attributesName (by simp [arrayFields, attributesName]))]
      rw [field_eq] at ha
      rw [show attributesName = str!"attributes" from rfl, ha, Option.map_some, hj]
    simp only [listAttributes, M.bind_apply, h4, hc, M.lift_apply, hp, Outcome.ofOption, docAttributes,
      Json.asObject, Option.bind_some, hget]

/-- **C92, what fails.** If the metadata of an array can be read but its document is not a JSON object (then
it is an array of the fields), `list_attributes` succeeds with no attributes, whatever the metadata says,
and every `set_attributes` fails. -/
theorem C92_violated_always {env : Env} {h : Hier} {path : Str} {fs : Fs} {m : ArrayMetadata} {c : Bytes} {doc : Json}
    (hm : getArrayMetadata env h path fs = (.ok m, fs))
    (hc : storeGet h (arrayMetadataKey h.entry path) fs = (.ok (some c), fs)) (ho : env.json.raw c = some doc)
    (hn : ∀ o, doc ≠ .obj o) :
    (∃ l, doc = .arr l ∧ 7 ≤ l.length ∧ l.length ≤ 8) ∧ listAttributes env h path fs = (.ok [], fs) ∧
    ∀ b, ∃ e, setAttributes env h path b fs = (.err e, fs) := by
  obtain ⟨c', doc', h1, h2, h3, h4⟩ := getArrayMetadata_reads hm
  rw [hc] at h1
  cases h1
  rw [ho] at h2
  cases h2
  obtain ⟨o', g, hd⟩ := ArrayMetadata.fromJson_eq_ok.mp h3
  have hmem := hd.members
  cases hmem with
  | object hu => exact absurd rfl (hn _)
  | @array l h7 h8 =>
    have hp : env.json.parse c = some (.arr (Json.dedupArr l)) := by rw [JsonText.parse, ho]; rfl
    refine ⟨⟨l, rfl, h7, h8⟩, ?_, fun b => ⟨.json, ?_⟩⟩
    · simp only [listAttributes, M.bind_apply, h4, hc, M.lift_apply, hp, Outcome.ofOption, docAttributes,
        Json.asObject, Option.bind_none]
    · simp only [setAttributes, M.bind_apply, h4, hc, M.lift_apply, hp, Outcome.ofOption, Json.asObj]

/-! ## Concrete cases -/

/-- A filesystem with one array document. -/
def Demo.docFs (b : Bytes) : Fs :=
  ⟨[([], .dir), ([str!"h"], .dir), ([str!"h", str!"meta"], .dir), ([str!"h", str!"meta", str!"root"], .dir),
    ([str!"h", str!"meta", str!"root", str!"a.array.json"], .file b)]⟩

/-- The text of a document in serde's alternative form. -/
def Demo.listText : Str :=
  str!"[[5], \"<u2\", [\"regular\", [2], \"/\"], {\"C\": null}, null, [[\"x\", false, null]], {\"k\": 1}]"

/-- The text of a document with a repeated attribute and a repeated unknown member. -/
def Demo.twiceText : Str :=
  str!"{\"shape\": [5], \"data_type\": \"<u2\", \"y\": 0, \"chunk_grid\": [\"regular\", [2], \"/\"], \"chunk_memory_layout\": \"C\", \"y\": 1, \"extensions\": [], \"attributes\": {\"k\": 1, \"k\": 2}}"

/-- The metadata of these documents. -/
def Demo.arrList : ArrayMetadata :=
  { shape := [5], dataType := .core (.uint .B2 .little), gridType := str!"regular", chunkShape := [2],
    separator := str!"/", order := .rowMajor, fillValue := none, extensions := [⟨str!"x", false, none⟩],
    attributes := [(str!"k", .int 1)], compressor := .raw }

set_option maxRecDepth 20000 in
/-- **C92, violated.** The document is an array of the fields: its metadata can be read and has an
attribute, but `list_attributes` returns none. -/
theorem C92_violated :
    (getArrayMetadata Demo.envJ Demo.hier str!"a" (Demo.docFs (utf8 Demo.listText))).1 = .ok Demo.arrList ∧
    (listAttributes Demo.envJ Demo.hier str!"a" (Demo.docFs (utf8 Demo.listText))).1 = .ok [] := by
  constructor <;> decide +kernel

set_option maxRecDepth 20000 in
/-- **C66, violated.** `get_array_metadata` reads a document that is not a JSON object. -/
theorem C66_violated_form :
    arrayDoc Demo.hier (Demo.docFs (utf8 Demo.listText)) str!"a" = some (utf8 Demo.listText) ∧
    (∃ l, Demo.envJ.json.raw (utf8 Demo.listText) = some (.arr l)) ∧
    (getArrayMetadata Demo.envJ Demo.hier str!"a" (Demo.docFs (utf8 Demo.listText))).1 = .ok Demo.arrList := by
  refine ⟨by decide +kernel, ⟨[.arr [.int 5], .str str!"<u2", .arr [.str str!"regular", .arr [.int 2], .str str!"/"],
    .obj [(str!"C", .null)], .null, .arr [.arr [.str str!"x", .bool false, .null]], .obj [(str!"k", .int 1)]],
    by decide +kernel⟩, by decide +kernel⟩

set_option maxRecDepth 20000 in
/-- Repeated attributes: the last counts, in both. -/
example :
    (getArrayMetadata Demo.envJ Demo.hier str!"a" (Demo.docFs (utf8 Demo.twiceText))).1 =
      .ok { Demo.arrList with extensions := [], attributes := [(str!"k", .int 2)] } ∧
    (listAttributes Demo.envJ Demo.hier str!"a" (Demo.docFs (utf8 Demo.twiceText))).1 = .ok [(str!"k", .int 2)] := by
  constructor <;> decide +kernel

end Zarr
