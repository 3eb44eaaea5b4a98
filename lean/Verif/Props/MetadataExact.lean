import Verif.Props.Metadata
/-!
# What is read after an array is created, exactly (C31)
-/

namespace Zarr

open Spec

/-- The type that the document names: the type itself, or the fallback of an extended one. -/
def Spec.namedType : ExtensibleDataType → Option DataType
  | .core d => some d
  | .extended _ _ f => f

/-- Array metadata as Rust values: numbers have their Rust types, and the free-form parts are JSON
values, nested at most `n` deep, whose floating point numbers have an exact text. -/
structure Spec.AnyMetadata (f : Features) (fl : BitVec 64 → Bool) (n : Nat) (m : ArrayMetadata) :
    Prop where
  shape : ∀ n ∈ m.shape, n < 2 ^ 64
  chunkShape : ∀ n ∈ m.chunkShape, n < 2 ^ 32
  raw : ∀ n, namedType m.dataType = some (.raw n) → n < 2 ^ 64
  fill : ∀ j, m.fillValue = some j → j.canon fl n = true
  exts : ∀ e ∈ m.extensions, ∀ c, e.configuration = some c → (Json.obj c).canon fl n = true
  attrs : (Json.obj m.attributes).canon fl n = true
  comp : m.compressor.WellTyped ∧ m.compressor.enabled f = true

/-- A one-byte integer has no byte order. -/
def Spec.dropOrder : DataType → DataType
  | .int .B1 _ => .int .B1 .little
  | .uint .B1 _ => .uint .B1 .little
  | d => d

/-- What a document keeps of array metadata: not the byte order of one-byte integers, and not the
difference between no fill value and null. -/
def Spec.kept (m : ArrayMetadata) : ArrayMetadata :=
  { m with
    dataType := match m.dataType with
      | .core d => .core (dropOrder d)
      | .extended e t (some d) => .extended e t (some (dropOrder d))
      | d => d
    fillValue := if m.fillValue = some .null then none else m.fillValue }

/-- Some free-form part makes the document nest more than 127 levels deep. -/
def Spec.TooDeep (m : ArrayMetadata) : Prop :=
  (∃ j, m.fillValue = some j ∧ j.within 126 = false) ∨ (Json.obj m.attributes).within 126 = false ∨
  ∃ e ∈ m.extensions, ∃ c, e.configuration = some c ∧ (Json.obj c).within 124 = false

/-! ## The document -/

/-- The members of the document. -/
def arrayMembers (m : ArrayMetadata) (dt : Json) : JsonObject :=
  [(str!"shape", .arr (m.shape.map fun (n : Nat) => Json.int n)),
     (str!"data_type", dt),
     (str!"chunk_grid", .obj
        [(str!"type", .str m.gridType),
         (str!"chunk_shape", .arr (m.chunkShape.map fun (n : Nat) => Json.int n)),
         (str!"separator", .str m.separator)]),
     (str!"chunk_memory_layout", m.order.toJson),
     (str!"fill_value", m.fillValue.getD .null),
     (str!"extensions", .arr (m.extensions.map ExtensionMetadata.toJson)),
     (str!"attributes", .obj m.attributes)] ++
    (if m.compressor.isDefault then [] else [(str!"compressor", m.compressor.toJson)])

theorem toJson_members {m : ArrayMetadata} {dt : Json} (h : m.dataType.toJson = .ok dt) :
    m.toJson = .ok (.obj (arrayMembers m dt)) := by
  simp only [ArrayMetadata.toJson, h]; rfl

theorem toJson_kept (m : ArrayMetadata) : (kept m).toJson = m.toJson := by
  have h1 : (kept m).dataType.toJson = m.dataType.toJson := by
    have hd : ∀ d, (dropOrder d).toJson = d.toJson := by
      intro d
      cases d with
      | int s e => cases s <;> rfl
      | uint s e => cases s <;> rfl
      | bool => rfl
      | float s e => rfl
      | raw n => rfl
    unfold kept
    cases hm : m.dataType with
    | core d => exact hd d
    | extended e t f =>
      cases f with
      | none => rfl
      | some d => simp only [ExtensibleDataType.toJson, hd]
  have h2 : (kept m).fillValue.getD .null = m.fillValue.getD .null := by
    unfold kept
    by_cases h : m.fillValue = some .null
    · simp [h]
    · simp [h]
  unfold ArrayMetadata.toJson
  rw [h1, h2]
  rfl

/-- Data types have a document, of at most one level. -/
theorem dataType_doc (fl : BitVec 64 → Bool) (n : Nat) {d : ExtensibleDataType}
    (hr : ∀ n, namedType d = some (.raw n) → n < 2 ^ 64) :
    ∃ j, d.toJson = .ok j ∧ j.canon fl (n + 1) = true := by
  have core : ∀ d : DataType, (∀ n, d = .raw n → n < 2 ^ 64) → ∃ s, d.toJson = .ok (.str s) := by
    intro d hd
    cases d with
    | bool => exact ⟨_, rfl⟩
    | int s e => cases s <;> exact ⟨_, rfl⟩
    | uint s e => cases s <;> exact ⟨_, rfl⟩
    | float s e => exact ⟨_, rfl⟩
    | raw n =>
      obtain ⟨j, hj, _⟩ := C29_violated.1 n (hd n rfl)
      obtain ⟨s, rfl⟩ := DataType.toJson_ok hj
      exact ⟨s, hj⟩
  cases d with
  | core d =>
    obtain ⟨s, hs⟩ := core d (fun n e => hr n (by rw [e]; rfl))
    exact ⟨_, hs, by simp [Json.canon]⟩
  | extended e t f =>
    cases f with
    | none => exact ⟨_, rfl, by simp [Json.canon, Json.canonObj]⟩
    | some d =>
      obtain ⟨s, hs⟩ := core d (fun n e => hr n (by rw [e]; rfl))
      exact ⟨_, by simp only [ExtensibleDataType.toJson, hs]; rfl,
        by simp [Json.canon, Json.canonObj]⟩

theorem members_canon {f : Features} {fl : BitVec 64 → Bool} {n k : Nat} {m : ArrayMetadata} {dt : Json}
    (hm : AnyMetadata f fl n m) (hdc : dt.canon fl (k + 3) = true)
    (hfill : ∀ j, m.fillValue = some j → j.canon fl (k + 3) = true)
    (hexts : ∀ e ∈ m.extensions, ∀ c, e.configuration = some c →
      (Json.obj c).canon fl (k + 1) = true)
    (hattrs : (Json.obj m.attributes).canon fl (k + 3) = true) :
    (Json.obj (arrayMembers m dt)).canon fl (k + 4) = true := by
  have hfillc : (m.fillValue.getD .null).canon fl (k + 3) = true := by
    cases hf : m.fillValue with
    | none => rfl
    | some j => exact hfill j hf
  have hextc : Json.canonArr fl (k + 2) (m.extensions.map ExtensionMetadata.toJson) = true := by
    rw [Json.canonArr_iff]
    intro j hj
    obtain ⟨e, he, rfl⟩ := List.mem_map.mp hj
    exact ExtensionMetadata.canon (hexts e he)
  simp only [Json.canon] at hattrs
  have hcc := CompressionType.canon_toJson (fl := fl) (k + 1) hm.comp.1
  have hs1 := canon_nats (fl := fl) (k + 2) hm.shape (by omega)
  have hs2 := canon_nats (fl := fl) (k + 1) hm.chunkShape (by omega)
  have ho := Order.roundTrip fl (k + 3) m.order
  unfold arrayMembers
  by_cases hd : m.compressor.isDefault = true
  · rw [if_pos hd]
    simp [Json.canon, Json.canonObj, hs1, hs2, hdc, ho, hfillc, hextc, hattrs]
  · rw [if_neg hd]
    simp [Json.canon, Json.canonObj, hs1, hs2, hdc, ho, hfillc, hextc, hattrs, hcc]

theorem withinArr_iff {n : Nat} {l : List Json} :
    Json.withinArr n l = true ↔ ∀ j ∈ l, j.within n = true := by
  induction l with
  | nil => simp [Json.withinArr]
  | cons x xs ih => simp [Json.withinArr, ih]

theorem members_deep {m : ArrayMetadata} {dt : Json} (h : TooDeep m) :
    (Json.obj (arrayMembers m dt)).within 127 = false := by
  cases hw : (Json.obj (arrayMembers m dt)).within 127 with
  | false => rfl
  | true =>
    exfalso
    simp only [Json.within] at hw
    rw [Json.withinObj_iff] at hw
    rcases h with ⟨j, hj, hd⟩ | hd | ⟨e, he, c, hc, hd⟩
    · have := hw (str!"fill_value", m.fillValue.getD .null) (by simp [arrayMembers])
      rw [hj] at this
      simp [hd] at this
    · have := hw (str!"attributes", .obj m.attributes) (by simp [arrayMembers])
      simp [hd] at this
    · have := hw (str!"extensions", .arr (m.extensions.map ExtensionMetadata.toJson))
        (by simp [arrayMembers])
      simp only [Json.within] at this
      rw [withinArr_iff] at this
      have := this _ (List.mem_map.mpr ⟨e, he, rfl⟩)
      simp only [ExtensionMetadata.toJson, hc, Json.within] at this
      rw [Json.withinObj_iff] at this
      have := this (str!"configuration", .obj c) (by simp)
      simp [hd] at this

/-- A document that names a raw type is refused. -/
theorem fromJson_raw {f : Features} {fl : BitVec 64 → Bool} {n r : Nat} {m : ArrayMetadata} {dt : Json}
    (hm : AnyMetadata f fl n m) (hr : namedType m.dataType = some (.raw r))
    (hdt : m.dataType.toJson = .ok dt) :
    ArrayMetadata.fromJson f (.obj (arrayMembers m dt)) = .err .json := by
  have hdr : ExtensibleDataType.fromJson dt = .err .json := by
    obtain ⟨j, hj, hj'⟩ := C29_violated.1 r (hm.raw r hr)
    obtain ⟨s, rfl⟩ := DataType.toJson_ok hj
    cases hd : m.dataType with
    | core d =>
      rw [hd] at hr hdt
      simp only [namedType, Option.some.injEq] at hr
      subst hr
      simp only [ExtensibleDataType.toJson, hj, Outcome.ok.injEq] at hdt
      subst hdt
      simp only [ExtensibleDataType.fromJson, hj', ExtensibleDataType.extFromJson]
    | extended e t fb =>
      rw [hd] at hr hdt
      simp only [namedType] at hr
      subst hr
      simp only [ExtensibleDataType.toJson, hj, Outcome.bind_ok, Outcome.pure_def,
        Outcome.ok.injEq] at hdt
      subst hdt
      simp only [ExtensibleDataType.fromJson, ExtensibleDataType.extFromJson]
      rw [uniqueMembers_nodup (by simp)]
      simp [objField, objGet, Json.asStr, DataType.fromJson]
      simp only [DataType.fromJson] at hj'
      simp [hj']
  have hshape := asNats_map hm.shape
  rw [ArrayMetadata.fromJson, members_nodup (by
    unfold arrayMembers; split <;> simp)]
  simp only [Outcome.bind_ok, arrayMembers, objField, objGet, List.cons_append, List.nil_append]
  simp only [reduceCtorEq, List.cons.injEq, Char.reduceEq, if_true, if_false, false_and, and_false,
    and_self, Outcome.ofOption_some, Outcome.bind_ok, hshape, hdr, Outcome.bind_err]

/-- The document that a successful `create_array` left. -/
theorem createArray_document {env : Env} {h : Hier} {path : Str} {m : ArrayMetadata} {fs fs' : Fs}
    (hc : createArray env h path m fs = (.ok (), fs')) :
    storeGet h (arrayMetadataKey h.entry path) fs' = (.ok (some (arrayMetadataText env m).1), fs') := by
  refine storeGet_of_storeSet (fs := fs) (v := arrayMetadataText env m) ?_
  simp only [createArray, M.bind_apply] at hc
  cases hg : storeExists h (groupMetadataKey h.entry path) fs with
  | mk r s =>
    have hs : s = fs := by have := storeExists_state h (groupMetadataKey h.entry path) fs; rw [hg] at this; exact this
    subst hs
    rw [hg] at hc
    cases r with
    | ok g =>
      cases g with
      | true => simp at hc
      | false =>
        simp only [Bool.false_eq_true, if_false, M.bind_apply] at hc
        cases ha : storeExists h (arrayMetadataKey h.entry path) s with
        | mk r s' =>
          have hs : s' = s := by have := storeExists_state h (arrayMetadataKey h.entry path) s; rw [ha] at this; exact this
          subst hs
          rw [ha] at hc
          cases r with
          | ok a => cases a with
            | true => simp at hc
            | false => simpa using hc
          | err e => simp at hc
          | panic => simp at hc
    | err e => simp at hc
    | panic => simp at hc

/-! ## C31 -/

/-- **C31 (exact).** What `get_array_metadata` returns after a successful `create_array` at any path, in any
filesystem, with any metadata: an error if the document nests more than 127 levels, if the type is a raw
type, or if an extension is required; otherwise the metadata, but for the byte order of one-byte
integers, which becomes little-endian, and a null fill value, which becomes none. -/
theorem C31_exact {env : Env} (hj : env.json.Lawful) {h : Hier} {path : Str} {m : ArrayMetadata}
    {fs fs' : Fs} {n : Nat} (hm : AnyMetadata env.features env.json.floats n m)
    (hc : createArray env h path m fs = (.ok (), fs')) :
    (TooDeep m → getArrayMetadata env h path fs' = (.err .json, fs')) ∧
    ((∃ r, namedType m.dataType = some (.raw r)) →
      getArrayMetadata env h path fs' = (.err .json, fs')) ∧
    (¬ TooDeep m → (∀ r, namedType m.dataType ≠ some (.raw r)) →
      (∃ e ∈ m.extensions, e.mustUnderstand = true) →
      getArrayMetadata env h path fs' = (.err .other, fs')) ∧
    (¬ TooDeep m → (∀ r, namedType m.dataType ≠ some (.raw r)) →
      (∀ e ∈ m.extensions, e.mustUnderstand = false) →
      getArrayMetadata env h path fs' = (.ok (kept m), fs')) := by
  obtain ⟨dt, hdt, hdc⟩ := dataType_doc env.json.floats (n + 2) hm.raw
  have hjson := toJson_members hdt
  have hget : getArrayMetadata env h path fs'
      = (parseArrayMetadata env (env.json.print (.obj (arrayMembers m dt))), fs') := by
    simp only [getArrayMetadata, M.bind_apply, createArray_document hc, M.lift_apply,
      Outcome.ofOption_some]
    rw [show (arrayMetadataText env m).1 = env.json.print (.obj (arrayMembers m dt)) by
      simp [arrayMetadataText, hjson]]
  have hcanon : (Json.obj (arrayMembers m dt)).canon env.json.floats (n + 4) = true :=
    members_canon hm hdc (fun j e => Json.canon_mono (by omega) (hm.fill j e))
      (fun e he c hc => Json.canon_mono (by omega) (hm.exts e he c hc))
      (Json.canon_mono (by omega) hm.attrs)
  have hdeep : TooDeep m → getArrayMetadata env h path fs' = (.err .json, fs') := by
    intro hd
    rw [hget, parseArrayMetadata, hj.raw_deep _ _ hcanon (members_deep hd)]
    rfl
  have hraw : ¬ TooDeep m →
      env.json.raw (env.json.print (.obj (arrayMembers m dt))) = some (.obj (arrayMembers m dt)) ∧
      ((∀ r, namedType m.dataType ≠ some (.raw r)) →
        StoredAt env.features env.json.floats 123 (kept m)) := by
    intro hd
    simp only [TooDeep, not_or, not_exists, not_and, Bool.not_eq_false] at hd
    obtain ⟨d1, d2, d3⟩ := hd
    have c1 := fun j e => Json.canon_of_within n 126 j (hm.fill j e) (d1 j e)
    have c2 := Json.canon_of_within n 126 _ hm.attrs d2
    have c3 := fun e he c hc => Json.canon_of_within n 124 _ (hm.exts e he c hc) (d3 e he c hc)
    obtain ⟨dt', hdt', hdc'⟩ := dataType_doc env.json.floats 125 hm.raw
    rw [hdt] at hdt'
    simp only [Outcome.ok.injEq] at hdt'
    subst hdt'
    refine ⟨hj.raw_print _ (members_canon (k := 123) hm hdc' c1 c3 c2), fun hr => ?_⟩
    have hty : ∀ d, (∀ r, d ≠ .raw r) → TypeFaithful (dropOrder d) := by
      intro d hd
      unfold TypeFaithful
      cases d with
      | bool => simp [dropOrder]
      | int s e => cases s <;> simp [dropOrder]
      | uint s e => cases s <;> simp [dropOrder]
      | float s e => simp [dropOrder]
      | raw r => exact absurd rfl (hd r)
    refine ⟨hm.shape, hm.chunkShape, ?_, ?_, ?_, c3, c2, hm.comp⟩
    · intro d hd
      unfold kept at hd
      cases hmd : m.dataType with
      | core x =>
        simp only [hmd, ExtensibleDataType.core.injEq] at hd
        subst hd
        exact hty x fun r e => hr r (by rw [hmd, e]; rfl)
      | extended e t f => cases f <;> simp [hmd] at hd
    · intro x t d hd
      unfold kept at hd
      cases hmd : m.dataType with
      | core x => simp [hmd] at hd
      | extended e t f =>
        cases f with
        | none => simp [hmd] at hd
        | some y =>
          simp only [hmd, ExtensibleDataType.extended.injEq, Option.some.injEq] at hd
          rw [← hd.2.2]
          exact hty y fun r e => hr r (by rw [hmd, e]; rfl)
    · intro j hjf
      unfold kept at hjf
      by_cases hn : m.fillValue = some .null
      · simp [hn] at hjf
      · simp only [hn, if_false] at hjf
        refine ⟨?_, c1 j hjf⟩
        rintro rfl
        exact hn hjf
  have hround : ¬ TooDeep m → (∀ r, namedType m.dataType ≠ some (.raw r)) →
      ArrayMetadata.fromJson env.features (.obj (arrayMembers m dt)) = .ok (kept m) := by
    intro hd hr
    obtain ⟨kvs, k1, _, k3⟩ := ArrayMetadata.roundTripAt ((hraw hd).2 hr)
    rw [toJson_kept, hjson] at k1
    simp only [Outcome.ok.injEq, Json.obj.injEq] at k1
    rw [k1]
    exact k3
  refine ⟨hdeep, ?_, ?_, ?_⟩
  · rintro ⟨r, hr⟩
    by_cases hd : TooDeep m
    · exact hdeep hd
    · rw [hget, parseArrayMetadata, (hraw hd).1, Outcome.ofOption_some, Outcome.bind_ok,
        fromJson_raw hm hr hdt]
      rfl
  · intro hd hr he
    rw [hget, parseArrayMetadata, (hraw hd).1, Outcome.ofOption_some, Outcome.bind_ok, hround hd hr,
      Outcome.bind_ok,
      show (kept m).extensions = m.extensions from rfl, checkExtensions_eq, if_pos he]
    rfl
  · intro hd hr he
    rw [hget, parseArrayMetadata, (hraw hd).1, Outcome.ofOption_some, Outcome.bind_ok, hround hd hr,
      Outcome.bind_ok, show (kept m).extensions = m.extensions from rfl, checkExtensions_eq, if_neg]
    · rfl
    · rintro ⟨e, h1, h2⟩
      have := he e h1
      rw [h2] at this
      simp at this

/-- **C31, which metadata is read back.** After a successful `create_array` the metadata read is the
metadata given exactly if it is faithful. -/
theorem C31_exact_iff {env : Env} (hj : env.json.Lawful) {h : Hier} {path : Str} {m : ArrayMetadata}
    {fs fs' : Fs} {n : Nat} (hm : AnyMetadata env.features env.json.floats n m)
    (hc : createArray env h path m fs = (.ok (), fs')) :
    getArrayMetadata env h path fs' = (.ok m, fs') ↔ Faithful env.features env.json.floats m := by
  refine ⟨fun hg => ?_, fun hf => C31_partial hj hf hc⟩
  obtain ⟨x1, x2, x3, x4⟩ := C31_exact hj hm hc
  have hd : ¬ TooDeep m := fun hd => by rw [x1 hd] at hg; simp at hg
  have hr : ∀ r, namedType m.dataType ≠ some (.raw r) := fun r e => by
    rw [x2 ⟨r, e⟩] at hg; simp at hg
  have he : ∀ e ∈ m.extensions, e.mustUnderstand = false := by
    intro e he
    cases hu : e.mustUnderstand with
    | false => rfl
    | true => rw [x3 hd hr ⟨e, he, hu⟩] at hg; simp at hg
  rw [x4 hd hr he] at hg
  simp only [Prod.mk.injEq, Outcome.ok.injEq, and_true] at hg
  simp only [TooDeep, not_or, not_exists, not_and, Bool.not_eq_false] at hd
  obtain ⟨d1, d2, d3⟩ := hd
  have hty : ∀ d, dropOrder d = d → d ≠ .int .B1 .big ∧ d ≠ .uint .B1 .big := by
    intro d hd
    constructor <;> rintro rfl <;> simp [dropOrder] at hd
  refine ⟨hm.shape, hm.chunkShape, ?_, ?_, ?_, ?_, Json.canon_of_within n 126 _ hm.attrs d2, hm.comp⟩
  · intro d hmd
    refine ⟨fun r e => hr r (by rw [hmd, e]; rfl), hty d ?_⟩
    have := congrArg ArrayMetadata.dataType hg
    simpa only [kept, hmd, ExtensibleDataType.core.injEq] using this
  · intro x t d hmd
    refine ⟨fun r e => hr r (by rw [hmd, e]; rfl), hty d ?_⟩
    have := congrArg ArrayMetadata.dataType hg
    simpa [kept, hmd] using this
  · intro j hfj
    refine ⟨?_, Json.canon_of_within n 126 _ (hm.fill j hfj) (d1 j hfj)⟩
    rintro rfl
    have := congrArg ArrayMetadata.fillValue hg
    simp [kept, hfj] at this
  · intro e hee
    exact ⟨he e hee, fun c hc => Json.canon_of_within n 124 _ (hm.exts e hee c hc) (d3 e hee c hc)⟩

/-- Metadata with a big-endian byte type as fallback, and a null fill value. -/
def Demo.arrKept : ArrayMetadata :=
  { Demo.arrFull with
    dataType := .extended str!"e" str!"t" (some (.int .B1 .big)), fillValue := some .null }

example : AnyMetadata Demo.envJ.features Demo.envJ.json.floats 5 Demo.arrKept ∧
    AnyMetadata Demo.envJ.features Demo.envJ.json.floats 5 Demo.arrRaw ∧
    ¬ TooDeep Demo.arrKept ∧ namedType Demo.arrRaw.dataType = some (.raw 16) := by
  refine ⟨⟨by simp [Demo.arrKept, Demo.arrFull], by simp [Demo.arrKept, Demo.arrFull],
    by simp [Demo.arrKept, namedType], by simp [Demo.arrKept, Json.canon],
    by simp [Demo.arrKept, Demo.arrFull, Json.canon, Json.canonObj, Json.canonArr],
    by simp [Demo.arrKept, Demo.arrFull, Json.canon, Json.canonObj],
    by simp [Demo.arrKept, Demo.arrFull, CompressionType.WellTyped, Demo.envJ, Demo.env,
      CompressionType.enabled]⟩,
    ⟨by simp [Demo.arrRaw, Demo.arr], by simp [Demo.arrRaw, Demo.arr],
    by simp [Demo.arrRaw, namedType], by simp [Demo.arrRaw, Demo.arr],
    by simp [Demo.arrRaw, Demo.arr],
    by simp [Demo.arrRaw, Demo.arr, Json.canon, Json.canonObj],
    by simp [Demo.arrRaw, Demo.arr, CompressionType.WellTyped, CompressionType.enabled]⟩, ?_, rfl⟩
  simp [TooDeep, Demo.arrKept, Demo.arrFull, Json.within, Json.withinObj, Json.withinArr]

set_option maxRecDepth 20000 in
example : Demo.createGet Demo.arrKept = (.ok (),
    .ok { Demo.arrKept with
      dataType := .extended str!"e" str!"t" (some (.int .B1 .little)), fillValue := none }) := by
  decide +kernel

end Zarr
