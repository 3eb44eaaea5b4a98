import Verif.Props.NdWrite
import Verif.Props.Locations
import Verif.Props.Attributes
/-!
# Calls that nothing stands in the way of succeed: C67, C68
-/

namespace Zarr

open Spec

variable {env : Env} {h : Hier} {path : Str} {m : ArrayMetadata} {t : RsType} {fs fs' : Fs}

/-! ## Documents -/

theorem Fs.WF.writable_of_file (hwf : fs.WF) {l : Loc} {b : Bytes} (hl : fs.get l = some (.file b)) :
    Writable fs l := by
  refine ⟨fun l' hl' hne b' hb' => ?_, by rw [hl]; simp⟩
  rw [hwf.dir_of_prefix hl' hne hl] at hb'
  simp at hb'

theorem DataType.serialize_total {d : DataType} (hr : ∀ n, d = .raw n → n < 2 ^ 64) :
    ∃ s, d.serialize = .ok s := by
  cases d with
  | bool => exact ⟨_, rfl⟩
  | int s e => cases s <;> exact ⟨_, rfl⟩
  | uint s e => cases s <;> exact ⟨_, rfl⟩
  | float s e => exact ⟨_, rfl⟩
  | raw n =>
    have hn := hr n rfl
    have : (dec n).length ≤ 20 := dec_length_le 19 n (by omega) _
    refine ⟨_, if_pos ?_⟩
    simp; omega

theorem ExtensibleDataType.toJson_total {d : ExtensibleDataType}
    (hr : ∀ n, effective d = some (.raw n) → n < 2 ^ 64) : ∃ j, d.toJson = .ok j := by
  cases d with
  | core d =>
    obtain ⟨s, hs⟩ := DataType.serialize_total (d := d) fun n hn => hr n (by simp [effective, hn])
    exact ⟨.str s, by simp [ExtensibleDataType.toJson, DataType.toJson, hs]⟩
  | extended e ty fb =>
    cases fb with
    | none => exact ⟨_, rfl⟩
    | some d =>
      obtain ⟨s, hs⟩ := DataType.serialize_total (d := d) fun n hn => hr n (by simp [effective, hn])
      exact ⟨_, by simp only [ExtensibleDataType.toJson, DataType.toJson, hs]; rfl⟩

theorem ArrayMetadata.toJson_total (hr : ∀ n, effective m.dataType = some (.raw n) → n < 2 ^ 64) :
    ∃ j, m.toJson = .ok j := by
  obtain ⟨j, hj⟩ := ExtensibleDataType.toJson_total hr
  unfold ArrayMetadata.toJson
  rw [hj]
  exact ⟨_, rfl⟩

/-- The last two steps of `remove`. -/
theorem remove_tail (hwf : fs.WF) (hb : Plain (segs h.base)) (hsfx : GoodSuffix h.entry)
    (hp : Plain (segs path)) (x : Outcome Unit × Fs)
    (hx : (do let _ ← storeErase h (arrayMetadataKey h.entry path)
              let _ ← storeErasePrefix h (dataPathKey path)
              pure () : M Fs Unit) fs = x) :
    x.1 = .ok () ↔ fs.get (docLoc h str!"array" path) ≠ some .dir := by
  subst hx
  have hplA : Plain (h.loc (arrayMetadataKey h.entry path)) := by
    rw [loc_arrayKey hsfx hp]; exact plain_docLoc hb hp (by simp)
  have hplD : Plain (h.loc (dataPathKey path)) := by
    rw [loc_dataKey]; exact plain_dataLoc hb hp
  have hne : h.loc (dataPathKey path) ≠ [] := by rw [loc_dataKey]; simp [dataLoc]
  have eA := storeErase_spec hwf hplA
  rw [loc_arrayKey hsfx hp] at eA
  rw [M.bind_apply, eA]
  cases hg : fs.get (docLoc h str!"array" path) with
  | none =>
    obtain ⟨fs3, e3, _⟩ := storeErasePrefix_spec hwf hplD hne
    simp only [M.bind_apply, e3]
    simp
  | some n =>
    cases n with
    | dir => simp
    | file b =>
      obtain ⟨fs3, e3, _⟩ := storeErasePrefix_spec (hwf.del_file hg) hplD hne
      simp only [M.bind_apply, e3]
      simp

theorem remove_ok_iff (hwf : fs.WF) (hb : Plain (segs h.base)) (hsfx : GoodSuffix h.entry)
    (hp : Plain (segs path)) :
    (remove h path fs).1 = .ok () ↔ fs.get (docLoc h str!"group" path) ≠ some .dir ∧
      fs.get (docLoc h str!"array" path) ≠ some .dir := by
  have hplG : Plain (h.loc (groupMetadataKey h.entry path)) := by
    rw [loc_groupKey hsfx hp]; exact plain_docLoc hb hp (by simp)
  have eG := storeErase_spec hwf hplG
  rw [loc_groupKey hsfx hp] at eG
  unfold remove
  rw [M.bind_apply, eG]
  cases hg : fs.get (docLoc h str!"group" path) with
  | none =>
    simp only [ne_eq, reduceCtorEq, not_false_eq_true, true_and]
    exact remove_tail hwf hb hsfx hp _ rfl
  | some n =>
    cases n with
    | dir => simp
    | file b =>
      have := remove_tail (hwf.del_file hg) hb hsfx hp _ rfl
      rw [Fs.get_del, if_neg docLoc_array_ne_group] at this
      simp only [ne_eq, Option.some.injEq, reduceCtorEq, not_false_eq_true, true_and]
      exact this

/-- **C67.** What the calls that write documents need to succeed, exactly: `create_group` returns `Ok` if
and only if the path has no array document and it has a group document or nothing blocks its location (no
file where a directory is needed, no directory at the location itself); `create_array` if and only if
the path has neither document and nothing blocks the location; `set_attributes` if and only if the node's
document exists and is a JSON object; `remove` if and only if no directory stands where a document goes;
`write_chunk` of a chunk of the array's element type and size, if and only if nothing blocks its location and
the compressor accepts the bytes. -/
theorem C67 (env : Env) (h : Hier) (path : Str) (fs : Fs) (hwf : fs.WF)
    (hb : Plain (segs h.base)) (hsfx : GoodSuffix h.entry) (hp : Plain (segs path)) :
    ((createGroup env h path fs).1 = .ok () ↔ arrayDoc h fs path = none ∧
      (groupDoc h fs path ≠ none ∨ Writable fs (docLoc h str!"group" path))) ∧
    (∀ m : ArrayMetadata, (∀ n, effective m.dataType = some (.raw n) → n < 2 ^ 64) →
      ((createArray env h path m fs).1 = .ok () ↔ arrayDoc h fs path = none ∧ groupDoc h fs path = none ∧
        Writable fs (docLoc h str!"array" path))) ∧
    (∀ attrs, (setAttributes env h path attrs fs).1 = .ok () ↔
      ∃ b kvs, (arrayDoc h fs path = some b ∨ (arrayDoc h fs path = none ∧ groupDoc h fs path = some b)) ∧
        env.json.parse b = some (.obj kvs)) ∧
    ((remove h path fs).1 = .ok () ↔ fs.get (docLoc h str!"group" path) ≠ some .dir ∧
      fs.get (docLoc h str!"array" path) ≠ some .dir) ∧
    (∀ (m : ArrayMetadata) (t : RsType) (c : DataChunk t) (d : DataType),
      (m.separator = str!"/" ∨ '/' ∉ m.separator) → effective m.dataType = some d →
      kindOf d = kindOfRs t → c.data.length = m.chunkShape.prod → m.chunkShape.prod < 2 ^ 32 →
      (∀ segs, ((codecOf env.codecs m.compressor).encode segs).2 = .ok ()) →
      ((writeChunk env h path m c fs).1 = .ok () ↔
        Writable fs (chunkLoc h path m.separator c.gridPosition))) := by
  have hplA : Plain (h.loc (arrayMetadataKey h.entry path)) := by
    rw [loc_arrayKey hsfx hp]; exact plain_docLoc hb hp (by simp)
  have hplG : Plain (h.loc (groupMetadataKey h.entry path)) := by
    rw [loc_groupKey hsfx hp]; exact plain_docLoc hb hp (by simp)
  have set_iff : ∀ (key : Str) (v : Bytes × Outcome Unit), Plain (h.loc key) → v.2 = .ok () →
      ((storeSet h key v fs).1 = .ok () ↔ Writable fs (h.loc key)) := by
    intro key v hpl hv
    obtain ⟨s1, s2⟩ := storeSet_spec v hwf hpl
    by_cases hw : Writable fs (h.loc key)
    · obtain ⟨fs', e, _⟩ := s1 hw
      simp [e, hv, hw]
    · obtain ⟨e, he⟩ := s2 hw
      simp [he, hw]
  refine ⟨?_, ?_, ?_, ?_, ?_⟩
  · rw [createGroup_eq hwf hb hsfx hp]
    cases hA : arrayDoc h fs path with
    | some a => simp
    | none =>
      cases hG : groupDoc h fs path with
      | some g => simp
      | none =>
        simp only [Option.isSome_none, Bool.false_eq_true, if_false, true_and, ne_eq, not_true_eq_false,
          false_or]
        rw [set_iff _ _ hplG rfl, loc_groupKey hsfx hp]
  · intro m hr
    obtain ⟨j, hj⟩ := ArrayMetadata.toJson_total hr
    have hv : (arrayMetadataText env m).2 = .ok () := by unfold arrayMetadataText; rw [hj]
    rw [createArray_eq hwf hb hsfx hp]
    generalize arrayMetadataText env m = v at hv
    cases hA : arrayDoc h fs path with
    | some a => cases hG : groupDoc h fs path <;> simp
    | none =>
      cases hG : groupDoc h fs path with
      | some g => simp
      | none =>
        simp only [Option.isSome_none, Bool.false_eq_true, if_false, true_and]
        rw [set_iff _ _ hplA hv, loc_arrayKey hsfx hp]
  · intro attrs
    have key : ∀ key b, nodeMetadataKey h path fs = (.ok key, fs) → Plain (h.loc key) →
        fs.content (h.loc key) = some b →
        ((setAttributes env h path attrs fs).1 = .ok () ↔ ∃ kvs, env.json.parse b = some (.obj kvs)) := by
      intro key b hk hpl hcont
      have hg := storeGet_eq hwf hpl
      rw [hcont] at hg
      have hwr : Writable fs (h.loc key) := hwf.writable_of_file (Fs.content_eq_some.mp hcont)
      simp only [setAttributes, M.bind_apply, hk, hg, M.lift_apply, Outcome.ofOption]
      cases hparse : env.json.parse b with
      | none => simp
      | some j =>
        cases j with
        | obj kvs =>
          simp only [Json.asObj]
          generalize mergedDoc kvs attrs = md
          simp only [Option.some.injEq, Json.obj.injEq, exists_eq', iff_true]
          split
          · exact (set_iff key _ hpl rfl).mpr hwr
          · rfl
        | _ => simp [Json.asObj]
    have hkey : nodeMetadataKey h path fs =
        if (arrayDoc h fs path).isSome then (.ok (arrayMetadataKey h.entry path), fs)
        else if (groupDoc h fs path).isSome then (.ok (groupMetadataKey h.entry path), fs)
        else (.err .notFound, fs) := by
      simp only [nodeMetadataKey, M.bind_apply, storeExists_array hwf hb hsfx hp]
      cases (arrayDoc h fs path).isSome with
      | true => simp
      | false =>
        simp only [Bool.false_eq_true, if_false, M.bind_apply, storeExists_group hwf hb hsfx hp]
        cases (groupDoc h fs path).isSome <;> simp
    cases hA : arrayDoc h fs path with
    | some a =>
      rw [hA] at hkey
      have := key _ a (by simpa using hkey) hplA (by rw [loc_arrayKey hsfx hp]; exact hA)
      rw [this]
      simp
    | none =>
      cases hG : groupDoc h fs path with
      | some g =>
        rw [hA, hG] at hkey
        have := key _ g (by simpa using hkey) hplG (by rw [loc_groupKey hsfx hp]; exact hG)
        rw [this]
        simp
      | none =>
        rw [hA, hG] at hkey
        simp only [Option.isSome_none, Bool.false_eq_true, if_false] at hkey
        simp [setAttributes, hkey]
  · exact remove_ok_iff hwf hb hsfx hp
  · intro m t c d hs hd hk hlen hsm hcodec
    have hpl : Plain (h.loc (chunkKey path m c.gridPosition)) := by
      rw [loc_chunkKey hs]; exact plain_chunkLoc hb hp hs
    unfold writeChunk
    rw [set_iff _ _ hpl, loc_chunkKey hs]
    obtain ⟨segs, _, hw⟩ := writeChunkBytes_fits (ext := env.codecs) (native := env.native) (c := c) (m := m)
      (effective_iff.mpr hd) ((eqModuloEndian_iff_kind _ _ _).mpr hk)
      (by rw [hlen, Nat.mod_eq_of_lt hsm]; rfl)
    rw [hw]
    exact hcodec segs

theorem Demo.writable_empty {l : Loc} (hl : l ≠ []) : Writable Demo.emptyFs l := by
  refine ⟨fun l' _ _ b hb => ?_, ?_⟩
  · by_cases hn : l' = []
    · subst hn; simp [Demo.emptyFs, Fs.get, Fs.lookup] at hb
    · simp [Demo.emptyFs, Fs.get, Fs.lookup, Ne.symm hn] at hb
  · simp [Demo.emptyFs, Fs.get, Fs.lookup, Ne.symm hl]

/-- In an empty store a group can be created; once there is a group, an array cannot. -/
example : Writable Demo.emptyFs (docLoc Demo.hier str!"group" str!"/a") ∧
    (createGroup Demo.env Demo.hier str!"/a" Demo.emptyFs).1 = .ok () ∧
    (createArray Demo.env Demo.hier str!"/a" Demo.arr
      (createGroup Demo.env Demo.hier str!"/a" Demo.emptyFs).2).1 = .err .alreadyExists :=
  ⟨Demo.writable_empty (by decide), by decide +kernel, by decide +kernel⟩

/-- A directory in the way: the group `/x.group.json/y` has its document below a directory with the name
of the document of the group `/x`. -/
example : (createGroup Demo.env Demo.hier str!"/x"
      (createGroup Demo.env Demo.hier str!"/x.group.json/y" Demo.emptyFs).2).1 = .err .isADirectory := by
  decide +kernel

end Zarr
