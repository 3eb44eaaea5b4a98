import Verif.Props.Documents
import Verif.Props.MetadataExact
/-!
# Exactly what the document of a new array describes: C66
-/

namespace Zarr

open Spec

theorem kept_stored {f : Features} {fl : BitVec 64 → Bool} {n : Nat} {m : ArrayMetadata}
    (hm : AnyMetadata f fl n m) (hr : ∀ r, namedType m.dataType ≠ some (.raw r)) :
    StoredAt f fl n (kept m) := by
  have hty : ∀ d, (∀ r, d ≠ .raw r) → TypeFaithful (dropOrder d) := by
    intro d hd
    unfold TypeFaithful
    cases d with
    | bool => simp [dropOrder]
    | int s e => cases s <;> simp [dropOrder]
    | uint s e => cases s <;> simp [dropOrder]
    | float s e => simp [dropOrder]
    | raw r => exact absurd rfl (hd r)
  refine ⟨hm.shape, hm.chunkShape, ?_, ?_, ?_,
    fun e he c hc => Json.canon_mono (by omega) (hm.exts e he c hc),
    Json.canon_mono (by omega) hm.attrs, hm.comp⟩
  · intro d hd
    unfold kept at hd
    cases hmd : m.dataType with
    | core x =>
      simp only [hmd, ExtensibleDataType.core.injEq] at hd
      subst hd
      exact hty x fun r e => hr r (by rw [hmd, e]; rfl)
    | extended e t f => cases f <;> simp [hmd] at hd
  · intro x t d hd
    unfold kept at hd
    cases hmd : m.dataType with
    | core x => simp [hmd] at hd
    | extended e t f =>
      cases f with
      | none => simp [hmd] at hd
      | some y =>
        simp only [hmd, ExtensibleDataType.extended.injEq, Option.some.injEq] at hd
        rw [← hd.2.2]
        exact hty y fun r e => hr r (by rw [hmd, e]; rfl)
  · intro j hjf
    unfold kept at hjf
    by_cases hn : m.fillValue = some .null
    · simp [hn] at hjf
    · simp only [hn, if_false] at hjf
      refine ⟨?_, Json.canon_mono (by omega) (hm.fill j hjf)⟩
      rintro rfl
      exact hn hjf

/-- **C66 (exact, writing).** The document that a successful `create_array` stores, for any metadata: it
is the text of an object with the members listed. For a raw type it describes no metadata at all.
Otherwise it describes one metadata value: the given one without the byte order of one-byte integers
and with no fill value for a null one. So it describes the given metadata exactly if it has neither. -/
theorem C66_exact {env : Env} {h : Hier} {path : Str} {m : ArrayMetadata} {fs fs' : Fs} {n : Nat}
    (hwf : fs.WF) (hb : Plain (segs h.base)) (hs : GoodSuffix h.entry) (hp : Plain (segs path))
    (hm : AnyMetadata env.features env.json.floats n m)
    (hc : createArray env h path m fs = (.ok (), fs')) :
    ∃ o, arrayDoc h fs' path = some (env.json.print (.obj o)) ∧
      o.map Prod.fst = Spec.arrayMembers m.compressor ∧
      ((∃ r, namedType m.dataType = some (.raw r)) →
        ∀ m' o' g, ¬ ArrayDocument env.features (.obj o) m' o' g) ∧
      ((∀ r, namedType m.dataType ≠ some (.raw r)) → ∀ m',
        (∃ o' g, ArrayDocument env.features (.obj o) m' o' g) ↔ m' = kept m) := by
  obtain ⟨dt, hdt, _⟩ := dataType_doc env.json.floats (n + 2) hm.raw
  have hjson := toJson_members hdt
  have hplA : Plain (h.loc (arrayMetadataKey h.entry path)) := by
    rw [loc_arrayKey hs hp]; exact plain_docLoc hb hp (by simp)
  refine ⟨Zarr.arrayMembers m dt, ?_, ArrayMetadata.toJson_members hjson, ?_, ?_⟩
  · have hget := createArray_document hc
    have hwf' : fs'.WF := by
      have := (NodeOp.run_frame (env := env) (h := h) (op := .createArray path m) hwf hb hs hp).1
      simpa [NodeOp.run, hc] using this
    rw [storeGet_array hwf' hb hs hp,
      show (arrayMetadataText env m).1 = env.json.print (.obj (Zarr.arrayMembers m dt)) by
        simp [arrayMetadataText, hjson]] at hget
    simpa using hget
  · rintro ⟨r, hr⟩ m' o' g hd
    have := ArrayMetadata.fromJson_eq_ok.mpr ⟨o', g, hd⟩
    rw [fromJson_raw hm hr hdt] at this
    simp at this
  · intro hr m'
    obtain ⟨kvs, k1, _, k3⟩ := ArrayMetadata.roundTripAt (kept_stored hm hr)
    rw [toJson_kept, hjson] at k1
    simp only [Outcome.ok.injEq, Json.obj.injEq] at k1
    rw [← k1] at k3
    rw [← ArrayMetadata.fromJson_eq_ok, k3]
    simp [eq_comm]

example : AnyMetadata Demo.envJ.features Demo.envJ.json.floats 5 Demo.arrRaw ∧
    (createArray Demo.envJ Demo.hier Demo.path Demo.arrRaw Demo.emptyFs).1 = .ok () ∧
    (createArray Demo.envJ Demo.hier Demo.path Demo.arrKept Demo.emptyFs).1 = .ok () ∧
    (∀ r, namedType Demo.arrKept.dataType ≠ some (.raw r)) ∧ kept Demo.arrKept ≠ Demo.arrKept := by
  refine ⟨⟨by simp [Demo.arrRaw, Demo.arr], by simp [Demo.arrRaw, Demo.arr],
    by simp [Demo.arrRaw, namedType], by simp [Demo.arrRaw, Demo.arr],
    by simp [Demo.arrRaw, Demo.arr],
    by simp [Demo.arrRaw, Demo.arr, Json.canon, Json.canonObj],
    by simp [Demo.arrRaw, Demo.arr, CompressionType.WellTyped, CompressionType.enabled]⟩,
    by decide +kernel, by decide +kernel, by simp [Demo.arrKept, namedType], ?_⟩
  intro h
  have := congrArg ArrayMetadata.fillValue h
  simp [kept, Demo.arrKept] at this

end Zarr
