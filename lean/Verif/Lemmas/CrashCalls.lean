import Verif.Model.CrashCalls
import Verif.Props.Crash
import Verif.Lemmas.Nodes
/-!
# The states inside the calls of the API
-/

namespace Zarr

open Spec

/-! ## The loop of `erase_prefix` -/

theorem Fs.WF.del_empty {fs : Fs} (h : fs.WF) {l : Loc} (hl : l ≠ []) (he : ∀ s, fs.get (l ++ [s]) = none) :
    (fs.del l).WF where
  nodup := nodup_filter h.nodup _
  root := by rw [Fs.get_del, if_neg (fun e => hl e.symm)]; exact h.root
  parent := by
    intro l' s' n hn'
    rw [Fs.get_del] at hn' ⊢
    split at hn'
    · simp at hn'
    · have hd := h.parent _ _ _ hn'
      split
      · rename_i heq; subst heq; rw [he] at hn'; simp at hn'
      · exact hd

theorem rmEntries_append (a b : List Loc) (fs : Fs) :
    Fs.rmEntries (a ++ b) fs = match Fs.rmEntries a fs with
      | (.ok (), fs') => Fs.rmEntries b fs'
      | r => r := by
  induction a generalizing fs with
  | nil => rfl
  | cons x a ih =>
    simp only [List.cons_append, Fs.rmEntries]
    cases fs.rmEntry x with
    | ok fs' => exact ih fs'
    | err e => rfl
    | panic => rfl

/-- Removing entries contents first never fails, whatever the order of siblings. -/
theorem rmEntries_spec {fs : Fs} (hwf : fs.WF) {l : Loc} (hl : l ≠ []) {es : List Loc} (hes : ContentsFirst fs l es)
    (pre post : List Loc) (he : es = pre ++ post) :
    ∃ s, Fs.rmEntries pre fs = (.ok (), s) ∧ s.WF ∧ ∀ x, s.get x = if x ∈ pre then none else fs.get x := by
  induction pre using Fs.list_concat_induction generalizing post with
  | h0 => exact ⟨fs, rfl, hwf, fun x => by simp⟩
  | h1 pre x ih =>
    obtain ⟨s, h1, h2, h3⟩ := ih (x :: post) (by rw [he]; simp)
    have hmem : x ∈ es := by rw [he]; simp
    obtain ⟨hlx, hex⟩ := (hes.mem x).mp hmem
    have hnot : x ∉ pre := by
      have hn := hes.nodup
      rw [he, List.append_assoc] at hn
      intro hin
      exact (List.nodup_append.mp hn).2.2 x hin x (by simp) rfl
    have hgx : s.get x = fs.get x := by rw [h3, if_neg hnot]
    have hx0 : x ≠ [] := by rintro rfl; exact hl (List.prefix_nil.mp hlx)
    have hkids : ∀ a, s.get (x ++ [a]) = none := by
      intro a
      rw [h3]
      by_cases hn : fs.get (x ++ [a]) = none
      · rw [hn]; simp
      · have hin : x ++ [a] ∈ es := (hes.mem _).mpr ⟨hlx.trans (List.prefix_append _ _), hn⟩
        rw [if_pos (hes.after pre x post (by rw [he]; simp) _ hin (List.prefix_append _ _) (by simp))]
    have hrm : s.rmEntry x = .ok (s.del x) := by
      unfold Fs.rmEntry
      rw [hgx]
      cases hg : fs.get x with
      | none => exact absurd hg hex
      | some n =>
        cases n with
        | file b => rfl
        | dir =>
          have : s.children x = [] := by
            rw [List.eq_nil_iff_forall_not_mem]
            rintro ⟨a, n⟩ hm
            rw [Fs.mem_children h2, hkids] at hm
            simp at hm
          simp [this]
    refine ⟨s.del x, ?_, h2.del_empty hx0 hkids, ?_⟩
    · rw [rmEntries_append, h1]
      simp only [Fs.rmEntries, hrm]
    · intro y
      rw [Fs.get_del, h3]
      by_cases e : y = x
      · simp [e]
      · simp [e]

/-- There is such an order in every tree. -/
theorem contentsFirst_exists {fs : Fs} (hwf : fs.WF) (l : Loc) : ∃ es, ContentsFirst fs l es := by
  -- a list of all entries, the longest paths first
  let ks := (fs.ents.map Prod.fst).filter (fun x => l.isPrefixOf x)
  have hmem : ∀ x, x ∈ ks ↔ l <+: x ∧ fs.get x ≠ none := by
    intro x
    simp only [ks, List.mem_filter, List.mem_map, List.isPrefixOf_iff_prefix]
    constructor
    · rintro ⟨⟨⟨k, n⟩, hm, rfl⟩, hp⟩
      rw [hwf.mem_iff] at hm
      exact ⟨hp, by simp [hm]⟩
    · rintro ⟨hp, hn⟩
      cases hg : fs.get x with
      | none => exact absurd hg hn
      | some n => exact ⟨⟨(x, n), hwf.mem_iff.mpr hg, rfl⟩, hp⟩
  let es := ks.mergeSort (fun a b => decide (b.length ≤ a.length))
  have hperm : es.Perm ks := List.mergeSort_perm _ _
  have hsorted : es.Pairwise (fun a b => b.length ≤ a.length) := by
    have := List.pairwise_mergeSort (le := fun a b : Loc => decide (b.length ≤ a.length))
      (by intro a b c; simp; omega) (by intro a b; simp; omega) ks
    simpa using this
  refine ⟨es, ?_, ?_, ?_⟩
  · exact hperm.nodup_iff.mpr (hwf.nodup.filter _)
  · intro x; rw [hperm.mem_iff]; exact hmem x
  · intro pre x post he y hy hxy hne
    rw [he] at hy hsorted
    rcases List.mem_append.mp hy with h1 | h1
    · exact h1
    · rcases List.mem_cons.mp h1 with h2 | h2
      · exact absurd h2 hne
      · have h3 := (List.pairwise_cons.mp (List.pairwise_append.mp hsorted).2.1).1 y h2
        exact absurd (hxy.eq_of_length_le h3).symm hne

/-- The loop of `erase_prefix` in any such order does what `storeErasePrefix` says. -/
theorem erasePrefix_loop {h : Hier} {key : Str} {fs : Fs} (hwf : fs.WF) (hp : Plain (h.loc key))
    (hne : h.loc key ≠ []) {es : List Loc} (hes : ContentsFirst fs (h.loc key) es) :
    ∃ s, Fs.rmEntries es fs = (.ok (), s) ∧ s.WF ∧ ∀ l, s.get l = (storeErasePrefix h key fs).2.get l := by
  obtain ⟨s, h1, h2, h3⟩ := rmEntries_spec hwf hne hes es [] (by simp)
  obtain ⟨fs', e1, _, e3⟩ := storeErasePrefix_spec (h := h) (key := key) hwf hp hne
  refine ⟨s, h1, h2, fun l => ?_⟩
  rw [e1, h3, e3]
  by_cases hc : h.loc key <+: l
  · rw [if_pos hc]
    by_cases hn : fs.get l = none
    · rw [hn]; simp
    · rw [if_pos ((hes.mem l).mpr ⟨hc, hn⟩)]
  · rw [if_neg hc, if_neg (fun hm => hc ((hes.mem l).mp hm).1)]

/-! ## States of `erase` and `erase_prefix` -/

theorem eraseStates_spec {h : Hier} {key : Str} {fs s : Fs} (hwf : fs.WF) (hp : Plain (h.loc key))
    (hs : s ∈ eraseStates h key fs) :
    s.WF ∧ ∀ l, s.get l = fs.get l ∨ (s.get l = none ∧ l = h.loc key) := by
  simp only [eraseStates, List.mem_cons, List.not_mem_nil, or_false] at hs
  rcases hs with rfl | rfl
  · exact ⟨hwf, fun l => .inl rfl⟩
  · refine ⟨(storeErase_frame hwf hp (Prod.eta _).symm).1, fun l => ?_⟩
    rw [storeErase_spec hwf hp]
    split
    · simp only [Fs.get_del]
      by_cases e : l = h.loc key
      · exact .inr ⟨by rw [if_pos e], e⟩
      · exact .inl (by rw [if_neg e])
    · exact .inl rfl
    · exact .inl rfl

theorem erasePrefixState_spec {h : Hier} {key : Str} {fs s : Fs} (hwf : fs.WF) (hp : Plain (h.loc key))
    (hne : h.loc key ≠ []) (hs : ErasePrefixState h key fs s) :
    s.WF ∧ ∀ l, s.get l = fs.get l ∨ (s.get l = none ∧ h.loc key <+: l) := by
  rcases hs with rfl | ⟨t, l, es, n, h1, h2, h3, rfl⟩
  · exact ⟨hwf, fun l => .inl rfl⟩
  · have hl := locate_key hp h1 h2
    subst hl
    obtain ⟨s, e1, e2, e3⟩ := rmEntries_spec hwf hne h3 (es.take n) (es.drop n) (by simp)
    rw [e1]
    refine ⟨e2, fun x => ?_⟩
    rw [e3]
    by_cases hx : x ∈ es.take n
    · rw [if_pos hx]
      exact .inr ⟨rfl, ((h3.mem x).mp (List.mem_of_mem_take hx)).1⟩
    · rw [if_neg hx]; exact .inl rfl

/-- The call is made of these states: the last one is the state after it. -/
theorem erasePrefixState_last {h : Hier} {key : Str} {fs : Fs} (hwf : fs.WF) (hp : Plain (h.loc key))
    (hne : h.loc key ≠ []) :
    ∃ s, ErasePrefixState h key fs s ∧ ∀ l, s.get l = (storeErasePrefix h key fs).2.get l := by
  obtain ⟨es, hes⟩ := contentsFirst_exists hwf (h.loc key)
  obtain ⟨s, h1, h2, h3⟩ := erasePrefix_loop hwf hp hne hes
  obtain ⟨t, ht, hseg⟩ := getPath_loc hp
  by_cases hn : fs.get (h.loc key) = none
  · refine ⟨fs, .inl rfl, fun l => ?_⟩
    obtain ⟨fs', e1, _, e3⟩ := storeErasePrefix_spec (h := h) (key := key) hwf hp hne
    rw [e1, e3]
    by_cases hc : h.loc key <+: l
    · rw [if_pos hc]; exact hwf.none_below hc hn
    · rw [if_neg hc]
  · refine ⟨s, .inr ⟨t, h.loc key, es, es.length, ht, ?_, hes, by rw [List.take_length, h1]⟩, h3⟩
    rw [hseg]
    cases hg : fs.get (h.loc key) with
    | none => exact absurd hg hn
    | some n => exact Fs.locate_of_get hwf hp hg

/-! ## States of `remove` -/

/-- The result of `remove` if neither document is a directory. -/
theorem remove_spec {h : Hier} {path : Str} {fs : Fs} (hwf : fs.WF) (hb : Plain (segs h.base))
    (hs : GoodSuffix h.entry) (hp : Plain (segs path)) (hg : fs.get (docLoc h str!"group" path) ≠ some .dir)
    (ha : fs.get (docLoc h str!"array" path) ≠ some .dir) :
    ∃ fs', remove h path fs = (.ok (), fs') ∧ fs'.WF ∧ ∀ l, fs'.get l =
      if l = docLoc h str!"group" path ∨ l = docLoc h str!"array" path ∨ dataLoc h path <+: l then none
      else fs.get l := by
  have pg : Plain (h.loc (groupMetadataKey h.entry path)) := by
    rw [loc_groupKey hs hp]; exact plain_docLoc hb hp (by simp)
  have pa : Plain (h.loc (arrayMetadataKey h.entry path)) := by
    rw [loc_arrayKey hs hp]; exact plain_docLoc hb hp (by simp)
  have pd : Plain (h.loc (dataPathKey path)) := by rw [loc_dataKey]; exact plain_dataLoc hb hp
  have er : ∀ (key : Str) (f : Fs), f.WF → Plain (h.loc key) → f.get (h.loc key) ≠ some .dir →
      ∃ f', storeErase h key f = (.ok true, f') ∧ f'.WF ∧
        ∀ l, f'.get l = if l = h.loc key then none else f.get l := by
    intro key f w pl hnd
    have w' := (storeErase_frame w pl (Prod.eta _).symm).1
    rw [storeErase_spec w pl] at w' ⊢
    cases hf : f.get (h.loc key) with
    | none =>
      refine ⟨f, rfl, w, fun l => ?_⟩
      by_cases e : l = h.loc key
      · rw [if_pos e, e, hf]
      · rw [if_neg e]
    | some n =>
      cases n with
      | dir => exact absurd hf hnd
      | file b =>
        rw [hf] at w'
        exact ⟨_, rfl, w', fun l => Fs.get_del _ _ _⟩
  obtain ⟨f1, e1, w1, g1⟩ := er _ fs hwf pg (by rw [loc_groupKey hs hp]; exact hg)
  obtain ⟨f2, e2, w2, g2⟩ := er _ f1 w1 pa (by
    rw [g1, loc_groupKey hs hp, loc_arrayKey hs hp, if_neg docLoc_array_ne_group]; exact ha)
  obtain ⟨f3, e3, w3, g3⟩ := storeErasePrefix_spec (h := h) (key := dataPathKey path) w2 pd
    (by rw [loc_dataKey]; exact dataLoc_ne_nil h path)
  refine ⟨f3, by simp [remove, e1, e2, e3], w3, fun l => ?_⟩
  rw [g3, g2, g1, loc_groupKey hs hp, loc_arrayKey hs hp, loc_dataKey]
  by_cases c1 : dataLoc h path <+: l
  · simp [c1]
  · by_cases c2 : l = docLoc h str!"array" path
    · simp [c2]
    · by_cases c3 : l = docLoc h str!"group" path
      · simp [c3]
      · simp [c1, c2, c3]

theorem removeState_spec {h : Hier} {path : Str} {fs s : Fs} (hwf : fs.WF) (hb : Plain (segs h.base))
    (hs : GoodSuffix h.entry) (hp : Plain (segs path)) (hc : RemoveState h path fs s) :
    s.WF ∧ ∀ l, s.get l = fs.get l ∨ (s.get l = none ∧
      (l = docLoc h str!"group" path ∨ l = docLoc h str!"array" path ∨ dataLoc h path <+: l)) := by
  have pg : Plain (h.loc (groupMetadataKey h.entry path)) := by
    rw [loc_groupKey hs hp]; exact plain_docLoc hb hp (by simp)
  have pa : Plain (h.loc (arrayMetadataKey h.entry path)) := by
    rw [loc_arrayKey hs hp]; exact plain_docLoc hb hp (by simp)
  have pd : Plain (h.loc (dataPathKey path)) := by rw [loc_dataKey]; exact plain_dataLoc hb hp
  have hd : h.loc (dataPathKey path) ≠ [] := by rw [loc_dataKey]; exact dataLoc_ne_nil h path
  unfold RemoveState at hc
  obtain ⟨w1, g1⟩ := eraseStates_spec (s := (storeErase h (groupMetadataKey h.entry path) fs).2) hwf pg
    (by simp [eraseStates])
  obtain ⟨w2, g2⟩ := eraseStates_spec (s := (storeErase h (arrayMetadataKey h.entry path)
    (storeErase h (groupMetadataKey h.entry path) fs).2).2) w1 pa (by simp [eraseStates])
  rw [loc_groupKey hs hp] at g1
  rw [loc_arrayKey hs hp] at g2
  rcases hc with hc | ⟨_, hc | ⟨_, hc⟩⟩
  · obtain ⟨w, g⟩ := eraseStates_spec hwf pg hc
    rw [loc_groupKey hs hp] at g
    exact ⟨w, fun l => (g l).imp id fun e => ⟨e.1, .inl e.2⟩⟩
  · obtain ⟨w, g⟩ := eraseStates_spec w1 pa hc
    rw [loc_arrayKey hs hp] at g
    refine ⟨w, fun l => ?_⟩
    rcases g l with e | ⟨e, e'⟩
    · rw [e]; exact (g1 l).imp id fun e => ⟨e.1, .inl e.2⟩
    · exact .inr ⟨e, .inr (.inl e')⟩
  · obtain ⟨w, g⟩ := erasePrefixState_spec w2 pd hd hc
    rw [loc_dataKey] at g
    refine ⟨w, fun l => ?_⟩
    rcases g l with e | ⟨e, e'⟩
    · rw [e]
      rcases g2 l with e2 | ⟨e2, e2'⟩
      · rw [e2]; exact (g1 l).imp id fun e => ⟨e.1, .inl e.2⟩
      · exact .inr ⟨e2, .inr (.inl e2')⟩
    · exact .inr ⟨e, .inr (.inr e')⟩

end Zarr
