import Verif.Props.Listing
/-!
# What `list_nodes` returns: C42 in general

`C42_partial` needs children without documents. Here is the result of the call for every directory, and
from it the cases with documents in which the claim holds. -/

namespace Zarr

open Spec

theorem truncateBytes_split {n : Nat} {s : Str} (h : n ≤ byteLen s) :
    (∃ u v, s = u ++ v ∧ byteLen u = n ∧ truncateBytes n s = .ok u) ∨
      (truncateBytes n s = .panic ∧ ∀ u v, s = u ++ v → byteLen u ≠ n) := by
  induction s generalizing n with
  | nil =>
    left
    have : n = 0 := by simpa [byteLen] using h
    subst this
    exact ⟨[], [], rfl, rfl, rfl⟩
  | cons c s ih =>
    cases n with
    | zero => exact Or.inl ⟨[], c :: s, rfl, rfl, rfl⟩
    | succ n =>
      rw [byteLen_cons] at h
      by_cases hc : c.utf8Size ≤ n + 1
      · rcases ih (n := n + 1 - c.utf8Size) (by omega) with ⟨u, v, rfl, hu, ht⟩ | ⟨hp, hno⟩
        · refine Or.inl ⟨c :: u, v, rfl, by rw [byteLen_cons]; omega, ?_⟩
          simp only [truncateBytes, if_pos hc, ht]
        · refine Or.inr ⟨by simp only [truncateBytes, if_pos hc, hp], ?_⟩
          intro u v huv hl
          cases u with
          | nil => simp [byteLen] at hl
          | cons d u =>
            simp only [List.cons_append, List.cons.injEq] at huv
            obtain ⟨rfl, huv⟩ := huv
            rw [byteLen_cons] at hl
            exact hno u v huv (by omega)
      · refine Or.inr ⟨by simp only [truncateBytes, if_neg hc], ?_⟩
        intro u v huv hl
        cases u with
        | nil => simp [byteLen] at hl
        | cons d u =>
          simp only [List.cons_append, List.cons.injEq] at huv
          obtain ⟨rfl, huv⟩ := huv
          rw [byteLen_cons] at hl
          omega

theorem drainBytes_short {n : Nat} {s : Str} (h : byteLen s < n) : drainBytes n s = .panic := by
  induction s generalizing n with
  | nil =>
    cases n with
    | zero => omega
    | succ n => rfl
  | cons c s ih =>
    cases n with
    | zero => omega
    | succ n =>
      rw [byteLen_cons] at h
      simp only [drainBytes]
      split
      · exact ih (by omega)
      · rfl

theorem char_utf8Size_pos (c : Char) : 0 < c.utf8Size := Char.utf8Size_pos c

theorem byteLen_lt_of_prefix {a b : Str} (h : a <+: b) (hne : a ≠ b) : byteLen a < byteLen b := by
  obtain ⟨t, rfl⟩ := h
  cases t with
  | nil => simp at hne
  | cons c t => rw [byteLen_append, byteLen_cons]; have := char_utf8Size_pos c; omega

/-- The outcome of `mapOutcome` for a function that never returns an error. -/
theorem mapOutcome_panic {α β : Type} {f : α → Outcome β} {l : List α}
    (hf : ∀ a ∈ l, f a = .panic ∨ ∃ b, f a = .ok b) (hp : ∃ a ∈ l, f a = .panic) :
    mapOutcome f l = .panic := by
  induction l with
  | nil => obtain ⟨a, ha, _⟩ := hp; cases ha
  | cons x xs ih =>
    rcases hf x (List.mem_cons_self ..) with h | ⟨b, h⟩
    · simp [mapOutcome, h]
    · have : ∃ a ∈ xs, f a = .panic := by
        obtain ⟨a, ha, hpa⟩ := hp
        rcases List.mem_cons.mp ha with rfl | ha
        · rw [h] at hpa; cases hpa
        · exact ⟨a, ha, hpa⟩
      simp [mapOutcome, h, ih (fun a ha => hf a (List.mem_cons_of_mem _ ha)) this]

theorem mapOutcome_ok_all {α β : Type} {f : α → Outcome β} {l : List α}
    (hf : ∀ a ∈ l, ∃ b, f a = .ok b) :
    ∃ r, mapOutcome f l = .ok r ∧ ∀ b, b ∈ r ↔ ∃ a ∈ l, f a = .ok b := by
  induction l with
  | nil => exact ⟨[], rfl, by simp⟩
  | cons x xs ih =>
    obtain ⟨b, hb⟩ := hf x (List.mem_cons_self ..)
    obtain ⟨r, hr, hm⟩ := ih fun a ha => hf a (List.mem_cons_of_mem _ ha)
    refine ⟨b :: r, by simp [mapOutcome, hb, hr], ?_⟩
    intro y
    simp only [List.mem_cons, hm, exists_eq_or_imp, hb, Outcome.ok.injEq]
    constructor
    · rintro (rfl | h)
      · exact Or.inl rfl
      · exact Or.inr h
    · rintro (rfl | h)
      · exact Or.inl rfl
      · exact Or.inr h

/-- The name `list_nodes` makes of the document file `s`: the metadata suffix, the kind with its dot,
and as many bytes again as the suffix has are gone. -/
def Spec.Cut (sfx s name : Str) : Prop :=
  ∃ w, s = name ++ w ++ sfx ∧ byteLen w = byteLen sfx + 6

/-- The part of `listNodesOf` that treats the documents (storage.rs:320-341). -/
theorem listNodesOf_docs {env : Env} {sfx pre : Str} {ss : List Str}
    (hov : env.overflowChecks = true ∨ (byteLen sfx ≤ 5 ∧ '/' ∉ sfx ∧ str!"/meta/root/" <+: pre)) :
    (∃ keys, mapOutcome (fun k => truncateBytes (byteLen k - byteLen sfx) k)
        ((ss.map (pre ++ ·)).filter (endsWith · sfx)) = .ok keys ∧
      let docs := keys.filter fun k => endsWith k str!"array" || endsWith k str!"group"
      let f := fun k => do
        let n ← usizeSub env.overflowChecks (byteLen k) (byteLen sfx + 5 + 1)
        truncateBytes n k
      (∀ d ∈ docs, ∃ s ∈ ss, d ++ sfx = pre ++ s ∧
          (str!"array" ++ sfx <:+ pre ++ s ∨ str!"group" ++ sfx <:+ pre ++ s)) ∧
      (∀ s ∈ ss, (str!"array" ++ sfx <:+ pre ++ s ∨ str!"group" ++ sfx <:+ pre ++ s) →
          ∃ d ∈ docs, d ++ sfx = pre ++ s) ∧
      ∀ d ∈ docs, (f d = .panic ∧ ∀ u w, d = u ++ w → byteLen w ≠ byteLen sfx + 6) ∨
        ∃ u w, d = u ++ w ∧ byteLen w = byteLen sfx + 6 ∧ f d = .ok u) := by
  obtain ⟨keys, hk, hkm⟩ := mapOutcome_ok_all
    (f := fun k => truncateBytes (byteLen k - byteLen sfx) k)
    (l := (ss.map (pre ++ ·)).filter (endsWith · sfx)) (by
      intro k hk
      obtain ⟨t, rfl⟩ : ∃ t, t ++ sfx = k := List.isSuffixOf_iff_suffix.mp (List.mem_filter.mp hk).2
      refine ⟨t, ?_⟩
      show truncateBytes (byteLen (t ++ sfx) - byteLen sfx) (t ++ sfx) = .ok t
      have : byteLen (t ++ sfx) - byteLen sfx = byteLen t := by rw [byteLen_append]; omega
      rw [this]; exact truncateBytes_append _ _)
  have hkeys : ∀ t, t ∈ keys ↔ ∃ s ∈ ss, t ++ sfx = pre ++ s := by
    intro t
    rw [hkm]
    constructor
    · rintro ⟨k, hk, ht⟩
      obtain ⟨hk1, hk2⟩ := List.mem_filter.mp hk
      obtain ⟨s, hs, rfl⟩ := List.mem_map.mp hk1
      obtain ⟨t', ht'⟩ : ∃ t', t' ++ sfx = pre ++ s := List.isSuffixOf_iff_suffix.mp hk2
      refine ⟨s, hs, ?_⟩
      have : byteLen (pre ++ s) - byteLen sfx = byteLen t' := by rw [← ht', byteLen_append]; omega
      simp only [this] at ht
      rw [← ht', truncateBytes_append] at ht
      simp only [Outcome.ok.injEq] at ht
      rw [← ht, ht']
    · rintro ⟨s, hs, ht⟩
      refine ⟨pre ++ s, List.mem_filter.mpr ⟨List.mem_map.mpr ⟨s, hs, rfl⟩, List.isSuffixOf_iff_suffix.mpr ⟨t, ht⟩⟩, ?_⟩
      have : byteLen (pre ++ s) - byteLen sfx = byteLen t := by rw [← ht, byteLen_append]; omega
      simp only [this]
      rw [← ht, truncateBytes_append]
  have hends : ∀ t : Str, (endsWith t str!"array" || endsWith t str!"group") = true ↔
      (str!"array" <:+ t ∨ str!"group" <:+ t) := by
    intro t
    rw [Bool.or_eq_true]
    exact or_congr List.isSuffixOf_iff_suffix List.isSuffixOf_iff_suffix
  have happ : ∀ (t kind : Str), kind ++ sfx <:+ t ++ sfx ↔ kind <:+ t := by
    intro t kind
    constructor
    · rintro ⟨u, hu⟩
      rw [← List.append_assoc] at hu
      exact ⟨u, List.append_cancel_right hu⟩
    · rintro ⟨u, hu⟩
      exact ⟨u, by rw [← List.append_assoc, hu]⟩
  refine ⟨keys, hk, ?_, ?_, ?_⟩
  · intro d hd
    obtain ⟨hd1, hd2⟩ := List.mem_filter.mp hd
    obtain ⟨s, hs, he⟩ := (hkeys d).mp hd1
    refine ⟨s, hs, he, ?_⟩
    rw [← he, happ, happ]
    exact (hends d).mp hd2
  · intro s hs hkind
    have hsf : sfx <:+ pre ++ s := by
      rcases hkind with h | h
      · exact (List.suffix_append _ _).trans h
      · exact (List.suffix_append _ _).trans h
    obtain ⟨d, hd⟩ := hsf
    refine ⟨d, List.mem_filter.mpr ⟨(hkeys d).mpr ⟨s, hs, hd⟩, (hends d).mpr ?_⟩, hd⟩
    rw [← hd, happ, happ] at hkind
    exact hkind
  · intro d hd
    obtain ⟨hd1, hd2⟩ := List.mem_filter.mp hd
    obtain ⟨s, hs, he⟩ := (hkeys d).mp hd1
    by_cases hlen : byteLen sfx + 5 + 1 ≤ byteLen d
    · have hu : usizeSub env.overflowChecks (byteLen d) (byteLen sfx + 5 + 1) =
          .ok (byteLen d - (byteLen sfx + 5 + 1)) := by simp only [usizeSub, if_pos hlen]
      rcases truncateBytes_split (n := byteLen d - (byteLen sfx + 5 + 1)) (s := d) (by omega) with
        ⟨u, v, hd', hu', ht⟩ | ⟨hp, hno⟩
      · right
        refine ⟨u, v, hd', ?_, ?_⟩
        · have := congrArg byteLen hd'
          rw [byteLen_append] at this
          omega
        · simp only [hu, Outcome.bind_ok, ht]
      · left
        refine ⟨by simp only [hu, Outcome.bind_ok, hp], ?_⟩
        intro u w hd' hw
        have := congrArg byteLen hd'
        rw [byteLen_append] at this
        exact hno u w hd' (by omega)
    · left
      rcases hov with hov | ⟨h5, hslash, hpre⟩
      · refine ⟨by simp only [usizeSub, if_neg hlen, hov, if_true, Outcome.bind_panic], ?_⟩
        intro u w hd' hw
        have := congrArg byteLen hd'
        rw [byteLen_append] at this
        omega
      · exfalso
        obtain ⟨q, rfl⟩ := hpre
        rw [List.append_assoc] at he
        rcases List.append_eq_append_iff.mp he with ⟨a, ha, hb⟩ | ⟨a, ha, hb⟩
        · -- the text `/meta/root/` reaches into the suffix
          rcases List.eq_nil_or_concat a with rfl | ⟨a', x, rfl⟩
          · rw [List.append_nil] at ha
            have : byteLen d = 11 := by rw [← ha]; decide
            omega
          · have hx : x = '/' := by
              have h1 : (d ++ (a' ++ [x])).getLast? = some x := by
                rw [← List.append_assoc, List.getLast?_concat]
              rw [List.concat_eq_append] at ha
              rw [← ha] at h1
              simpa using h1.symm
            subst hx
            exact hslash (by rw [hb]; simp)
        · have : byteLen d = 11 + byteLen a := by
            rw [ha, byteLen_append]
            have : byteLen str!"/meta/root/" = 11 := by decide
            omega
          omega

/-- The outcome of `listNodesOf` for the files `ss` and the directories `ds` of a directory. -/
theorem listNodesOf_exact {env : Env} {sfx pre : Str} {ss ds : List Str}
    (hov : env.overflowChecks = true ∨ (byteLen sfx ≤ 5 ∧ '/' ∉ sfx ∧ str!"/meta/root/" <+: pre))
    (hds : ∀ d ∈ ds, d ≠ [] ∧ '/' ∉ d) :
    let Doc := fun s => str!"array" ++ sfx <:+ pre ++ s ∨ str!"group" ++ sfx <:+ pre ++ s
    ((∀ s ∈ ss, Doc s → ∃ n, Cut sfx s n) → ∃ names,
        listNodesOf env sfx pre (ss.map (pre ++ ·)) (ds.map (pre ++ ·)) = .ok names ∧
        ∀ n, n ∈ names ↔ n ∈ ds ∨ ∃ s ∈ ss, Doc s ∧ Cut sfx s n) ∧
    ((∃ s ∈ ss, Doc s ∧ ∀ n, ¬ Cut sfx s n) →
        listNodesOf env sfx pre (ss.map (pre ++ ·)) (ds.map (pre ++ ·)) = .panic) := by
  intro Doc
  obtain ⟨keys, hk, hdocs1, hdocs2, hf⟩ := listNodesOf_docs (ss := ss) hov
  generalize hD : keys.filter (fun k => endsWith k str!"array" || endsWith k str!"group") = docs at *
  generalize hF : (fun k => do
        let n ← usizeSub env.overflowChecks (byteLen k) (byteLen sfx + 5 + 1)
        truncateBytes n k : Str → Outcome Str) = f at *
  have hps : (ds.map (pre ++ ·)).map (trimEnd '/') = ds.map (pre ++ ·) := by
    rw [List.map_map]
    refine List.map_congr_left fun d hd => ?_
    exact trimEnd_of_last (hds d hd).1 (hds d hd).2
  have hunf : listNodesOf env sfx pre (ss.map (pre ++ ·)) (ds.map (pre ++ ·)) =
      (mapOutcome f docs >>= fun ks =>
        mapOutcome (drainBytes (byteLen pre)) (dedupStrs (sortStrs (ks ++ ds.map (pre ++ ·))))) := by
    rw [← hps]
    simp only [listNodesOf, hk, Outcome.bind_ok]
    rw [hD, hF, hps]
    simp only [hps]
  rw [hunf]
  -- a document is cut as the specification says
  have hcut : ∀ d ∈ docs, ∀ s, d ++ sfx = pre ++ s → ∀ u w, d = u ++ w → byteLen w = byteLen sfx + 6 →
      (∃ n, u = pre ++ n ∧ Cut sfx s n) ∨ (byteLen u < byteLen pre ∧ ∀ n, ¬ Cut sfx s n) := by
    intro d _ s he u w hd hw
    rw [hd, List.append_assoc] at he
    rcases List.append_eq_append_iff.mp he with ⟨a, ha, hb⟩ | ⟨a, ha, hb⟩
    · -- `pre = u ++ a`
      rcases Decidable.em (a = []) with rfl | hne
      · left
        refine ⟨[], by simpa using ha.symm, w, ?_, hw⟩
        simp only [List.nil_append] at hb ⊢
        exact hb.symm
      · right
        refine ⟨byteLen_lt_of_prefix ⟨a, ha.symm⟩ ?_, ?_⟩
        · rintro rfl
          exact hne (by simpa using ha)
        · rintro n ⟨w', hs, hw'⟩
          have h1 := congrArg byteLen hb
          rw [hs] at h1
          simp only [byteLen_append] at h1
          have h2 : 0 < byteLen a := by
            cases a with
            | nil => exact absurd rfl hne
            | cons c a => rw [byteLen_cons]; have := char_utf8Size_pos c; omega
          omega
    · left
      exact ⟨a, ha, w, by rw [hb, List.append_assoc], hw⟩
  have huniq : ∀ s n n', Cut sfx s n → Cut sfx s n' → n = n' := by
    rintro s n n' ⟨w, rfl, hw⟩ ⟨w', h', hw'⟩
    have h1 : n ++ w = n' ++ w' := List.append_cancel_right h'
    have h2 : byteLen n = byteLen n' := by
      have := congrArg byteLen h1
      simp only [byteLen_append] at this
      omega
    rcases List.append_eq_append_iff.mp h1 with ⟨a, ha, _⟩ | ⟨a, ha, _⟩
    · cases a with
      | nil => simpa using ha.symm
      | cons c a =>
        rw [ha, byteLen_append, byteLen_cons] at h2
        have := char_utf8Size_pos c; omega
    · cases a with
      | nil => simpa using ha
      | cons c a =>
        rw [ha, byteLen_append, byteLen_cons] at h2
        have := char_utf8Size_pos c; omega
  constructor
  · intro hall
    have hfd : ∀ d ∈ docs, ∃ s ∈ ss, d ++ sfx = pre ++ s ∧ Doc s ∧ ∃ n, Cut sfx s n ∧ f d = .ok (pre ++ n) := by
      intro d hd
      obtain ⟨s, hs, he, hdoc⟩ := hdocs1 d hd
      obtain ⟨n, hn⟩ := hall s hs hdoc
      refine ⟨s, hs, he, hdoc, ?_⟩
      rcases hf d hd with ⟨_, hno⟩ | ⟨u, w, hduw, hw, hok⟩
      · exfalso
        obtain ⟨w, hsw, hw⟩ := hn
        have : d = (pre ++ n) ++ w := by
          rw [hsw] at he
          apply List.append_cancel_right (bs := sfx)
          rw [he]; simp [List.append_assoc]
        exact hno _ _ this hw
      · rcases hcut d hd s he u w hduw hw with ⟨n', rfl, hn'⟩ | ⟨_, hno⟩
        · exact ⟨n', hn', hok⟩
        · exact absurd hn (hno n)
    obtain ⟨ks, hks, hksm⟩ := mapOutcome_ok_all (f := f) (l := docs) fun d hd => by
      obtain ⟨_, _, _, _, n, _, hok⟩ := hfd d hd
      exact ⟨_, hok⟩
    rw [hks, Outcome.bind_ok]
    have hmem : ∀ k, k ∈ dedupStrs (sortStrs (ks ++ ds.map (pre ++ ·))) ↔
        ∃ n, k = pre ++ n ∧ (n ∈ ds ∨ ∃ s ∈ ss, Doc s ∧ Cut sfx s n) := by
      intro k
      rw [mem_dedupStrs, mem_sortStrs, List.mem_append, hksm]
      constructor
      · rintro (⟨d, hd, hok⟩ | h)
        · obtain ⟨s, hs, _, hdoc, n, hn, hok'⟩ := hfd d hd
          rw [hok'] at hok
          simp only [Outcome.ok.injEq] at hok
          exact ⟨n, hok.symm, Or.inr ⟨s, hs, hdoc, hn⟩⟩
        · obtain ⟨n, hn, rfl⟩ := List.mem_map.mp h
          exact ⟨n, rfl, Or.inl hn⟩
      · rintro ⟨n, rfl, hn | ⟨s, hs, hdoc, hn⟩⟩
        · exact Or.inr (List.mem_map.mpr ⟨n, hn, rfl⟩)
        · obtain ⟨d, hd, he⟩ := hdocs2 s hs hdoc
          obtain ⟨s', _, he', _, n', hn', hok⟩ := hfd d hd
          have hss : s = s' := List.append_cancel_left (he.symm.trans he')
          subst hss
          rw [huniq s n n' hn hn']
          exact Or.inl ⟨d, hd, hok⟩
    generalize dedupStrs (sortStrs (ks ++ ds.map (pre ++ ·))) = all at *
    obtain ⟨names, hnames, hnm⟩ := mapOutcome_ok_all (f := drainBytes (byteLen pre)) (l := all) fun k hk => by
      obtain ⟨n, rfl, _⟩ := (hmem k).mp hk
      exact ⟨n, drainBytes_append _ _⟩
    refine ⟨names, hnames, fun n => ?_⟩
    rw [hnm]
    constructor
    · rintro ⟨k, hk, hd⟩
      obtain ⟨n', rfl, hn'⟩ := (hmem k).mp hk
      rw [drainBytes_append, Outcome.ok.injEq] at hd
      subst hd
      exact hn'
    · intro hn
      exact ⟨pre ++ n, (hmem _).mpr ⟨n, rfl, hn⟩, drainBytes_append _ _⟩
  · rintro ⟨s, hs, hdoc, hno⟩
    obtain ⟨d, hd, he⟩ := hdocs2 s hs hdoc
    by_cases hpan : ∃ d ∈ docs, f d = .panic
    · rw [mapOutcome_panic (fun d hd => by
        rcases hf d hd with ⟨h, _⟩ | ⟨u, w, _, _, h⟩
        · exact Or.inl h
        · exact Or.inr ⟨u, h⟩) hpan]
      rfl
    · have hok : ∀ d ∈ docs, ∃ u w, d = u ++ w ∧ byteLen w = byteLen sfx + 6 ∧ f d = .ok u := by
        intro d hd
        rcases hf d hd with ⟨h, _⟩ | h
        · exact absurd ⟨d, hd, h⟩ hpan
        · exact h
      obtain ⟨ks, hks, hksm⟩ := mapOutcome_ok_all (f := f) (l := docs) fun d hd => by
        obtain ⟨u, _, _, _, h⟩ := hok d hd
        exact ⟨u, h⟩
      rw [hks, Outcome.bind_ok]
      refine mapOutcome_panic ?_ ?_
      · intro k hk
        rw [mem_dedupStrs, mem_sortStrs, List.mem_append, hksm] at hk
        rcases hk with ⟨d', hd', hu⟩ | hk
        · obtain ⟨u, w, hduw, hw, hok'⟩ := hok d' hd'
          rw [hok', Outcome.ok.injEq] at hu
          subst hu
          obtain ⟨s', _, he', _⟩ := hdocs1 d' hd'
          rcases hcut d' hd' s' he' u w hduw hw with ⟨n, rfl, _⟩ | ⟨hlt, _⟩
          · exact Or.inr ⟨n, drainBytes_append _ _⟩
          · exact Or.inl (drainBytes_short hlt)
        · obtain ⟨n, _, rfl⟩ := List.mem_map.mp hk
          exact Or.inr ⟨n, drainBytes_append _ _⟩
      · obtain ⟨u, w, hduw, hw, hok'⟩ := hok d hd
        refine ⟨u, ?_, ?_⟩
        · rw [mem_dedupStrs, mem_sortStrs, List.mem_append, hksm]
          exact Or.inl ⟨d, hd, hok'⟩
        · rcases hcut d hd s he u w hduw hw with ⟨n, _, hn⟩ | ⟨hlt, _⟩
          · exact absurd hn (hno n)
          · exact drainBytes_short hlt

/-- A file in the directory of the children of `path` that `list_nodes` takes for a document. -/
def Spec.ListedDoc (h : Hier) (path : Str) (fs : Fs) (s : Str) : Prop :=
  (∃ b, fs.get (metaDir h path ++ [s]) = some (.file b)) ∧
    IsDocName h (metaRoot ++ '/' :: canonicalizePath path ++ s)

/-- The result of `list_nodes` where the names of the subdirectories are names. -/
theorem listNodes_exact (env : Env) (h : Hier) (path : Str) (fs : Fs) (hwf : fs.WF)
    (hn : ∀ d, fs.get (metaDir h path ++ [d]) = some .dir → d ≠ [] ∧ '/' ∉ d)
    (hb : Plain (segs h.base)) (hp : Plain (segs path)) (hd : fs.get (metaDir h path) = some .dir)
    (hov : env.overflowChecks = true ∨
      (byteLen h.entry.metadataKeySuffix ≤ 5 ∧ '/' ∉ h.entry.metadataKeySuffix)) :
    ((∀ s, ListedDoc h path fs s → ∃ n, Cut h.entry.metadataKeySuffix s n) →
      ∃ names, listNodes env h path fs = (.ok names, fs) ∧ names.Pairwise (· < ·) ∧
        ∀ n, n ∈ names ↔ fs.get (metaDir h path ++ [n]) = some .dir ∨
          ∃ s, ListedDoc h path fs s ∧ Cut h.entry.metadataKeySuffix s n) ∧
    ((∃ s, ListedDoc h path fs s ∧ ∀ n, ¬ Cut h.entry.metadataKeySuffix s n) →
      listNodes env h path fs = (.panic, fs)) := by
  have hloc : h.loc (metaRoot ++ '/' :: canonicalizePath path) = metaDir h path := by
    rw [Hier.loc, segs_append_sep, segs_canonicalizePath]; rfl
  have hpl : Plain (h.loc (metaRoot ++ '/' :: canonicalizePath path)) := by
    rw [hloc]; exact hb.append (Plain.append (by decide) hp)
  have hls := storeListDir_eq hwf hpl
  rw [hloc, hd] at hls
  simp only at hls
  have hpref : str!"/meta/root/" <+: metaRoot ++ '/' :: canonicalizePath path :=
    ⟨canonicalizePath path, rfl⟩
  generalize hpre : metaRoot ++ '/' :: canonicalizePath path = pre at *
  have hmem : ∀ s n, (s, n) ∈ fs.children (metaDir h path) ↔ fs.get (metaDir h path ++ [s]) = some n :=
    fun s n => Fs.mem_children hwf
  let ss := (fs.children (metaDir h path)).filterMap fun e => if e.2 = .dir then none else some e.1
  let ds := (fs.children (metaDir h path)).filterMap fun e => if e.2 = .dir then some e.1 else none
  have hss : (fs.children (metaDir h path)).filterMap
      (fun e => if e.2 = .dir then none else some (pre ++ e.1)) = ss.map (pre ++ ·) := by
    rw [List.map_filterMap]
    congr 1
    funext e
    by_cases he : e.2 = .dir <;> simp [he]
  have hdseq : (fs.children (metaDir h path)).filterMap
      (fun e => if e.2 = .dir then some (pre ++ e.1) else none) = ds.map (pre ++ ·) := by
    rw [List.map_filterMap]
    congr 1
    funext e
    by_cases he : e.2 = .dir <;> simp [he]
  have hmss : ∀ s, s ∈ ss ↔ ∃ b, fs.get (metaDir h path ++ [s]) = some (.file b) := by
    intro s
    rw [List.mem_filterMap]
    constructor
    · rintro ⟨⟨s', n⟩, he, hk⟩
      cases n with
      | dir => simp at hk
      | file b =>
        have : s' = s := by simpa using hk
        subst this
        exact ⟨b, (hmem _ _).mp he⟩
    · rintro ⟨b, hs⟩
      exact ⟨(s, .file b), (hmem _ _).mpr hs, by simp⟩
  have hmds : ∀ s, s ∈ ds ↔ fs.get (metaDir h path ++ [s]) = some .dir := by
    intro s
    rw [List.mem_filterMap]
    constructor
    · rintro ⟨⟨s', n⟩, he, hk⟩
      cases n with
      | file b => simp at hk
      | dir =>
        have : s' = s := by simpa using hk
        subst this
        exact (hmem _ _).mp he
    · intro hs
      exact ⟨(s, .dir), (hmem _ _).mpr hs, by simp⟩
  have hex := listNodesOf_exact (env := env) (sfx := h.entry.metadataKeySuffix) (pre := pre) (ss := ss) (ds := ds)
    (by rcases hov with h1 | ⟨h1, h2⟩
        · exact Or.inl h1
        · exact Or.inr ⟨h1, h2, hpref⟩)
    (fun d hd => by
      exact hn d ((hmds d).mp hd))
  have hrun : ∀ o, listNodesOf env h.entry.metadataKeySuffix pre (ss.map (pre ++ ·)) (ds.map (pre ++ ·)) = o →
      listNodes env h path fs = (o, fs) := by
    intro o ho
    simp only [listNodes, hpre, M.bind_apply, hls]
    rw [hss, hdseq]
    simp only [ho, M.lift_apply]
  have hld : ∀ s, ListedDoc h path fs s ↔ s ∈ ss ∧
      (str!"array" ++ h.entry.metadataKeySuffix <:+ pre ++ s ∨ str!"group" ++ h.entry.metadataKeySuffix <:+ pre ++ s) := by
    intro s
    rw [ListedDoc, hpre, hmss]; rfl
  constructor
  · intro hall
    obtain ⟨names, h1, h2⟩ := hex.1 fun s hs hdoc => hall s ((hld s).mpr ⟨hs, hdoc⟩)
    refine ⟨names, hrun _ h1, C42_sorted env h path fs names (by rw [hrun _ h1]), fun n => ?_⟩
    rw [h2, hmds]
    refine or_congr Iff.rfl ?_
    constructor
    · rintro ⟨s, hs, hdoc, hc⟩
      exact ⟨s, (hld s).mpr ⟨hs, hdoc⟩, hc⟩
    · rintro ⟨s, hs, hc⟩
      obtain ⟨h1, h2⟩ := (hld s).mp hs
      exact ⟨s, h1, h2, hc⟩
  · rintro ⟨s, hs, hno⟩
    obtain ⟨h1, h2⟩ := (hld s).mp hs
    exact hrun _ (hex.2 ⟨s, h1, h2, hno⟩)

/-- **C42**, the exact result of `list_nodes` on any directory: if every document's name is long enough
to lose the metadata suffix twice (`Cut`), the call returns, sorted and without duplicates, the names of
the subdirectories and the names of the documents' nodes less as many bytes as the suffix has; otherwise
it panics. The hypothesis on the suffix is met by `.json`; a longer one makes the subtraction of lengths
wrap around in a program without overflow checks. -/
theorem C42_exact (env : Env) (h : Hier) (path : Str) (fs : Fs) (hwf : fs.WF) (hn : NamesOk fs)
    (hb : Plain (segs h.base)) (hp : Plain (segs path)) (hd : fs.get (metaDir h path) = some .dir)
    (hov : env.overflowChecks = true ∨
      (byteLen h.entry.metadataKeySuffix ≤ 5 ∧ '/' ∉ h.entry.metadataKeySuffix)) :
    ((∀ s, ListedDoc h path fs s → ∃ n, Cut h.entry.metadataKeySuffix s n) →
      ∃ names, listNodes env h path fs = (.ok names, fs) ∧ names.Pairwise (· < ·) ∧
        ∀ n, n ∈ names ↔ fs.get (metaDir h path ++ [n]) = some .dir ∨
          ∃ s, ListedDoc h path fs s ∧ Cut h.entry.metadataKeySuffix s n) ∧
    ((∃ s, ListedDoc h path fs s ∧ ∀ n, ¬ Cut h.entry.metadataKeySuffix s n) →
      listNodes env h path fs = (.panic, fs)) := by
  exact listNodes_exact env h path fs hwf (fun d hd => ⟨(hn _ _ _ hd).1, (hn _ _ _ hd).2.1⟩) hb hp hd hov

/-- With the default suffix a document `name.array.json` or `name.group.json` whose name ends in five ASCII
characters, or any five bytes that are whole characters, is listed without them. -/
theorem cut_json (n w kind : Str) (hk : kind = str!"array" ∨ kind = str!"group") (hw : byteLen w = 5) :
    Cut str!".json" (n ++ w ++ '.' :: kind ++ str!".json") n := by
  refine ⟨w ++ '.' :: kind, by simp [List.append_assoc], ?_⟩
  rw [byteLen_append, byteLen_cons, hw]
  rcases hk with rfl | rfl <;> decide

/-- A hierarchy with a group, an array in an implicit group and a foreign file. -/
def Demo.docsFs : Fs :=
  let fs1 := (createGroup Demo.envJ Demo.hier str!"temperature" Demo.emptyFs).2
  let fs2 := (createArray Demo.envJ Demo.hier str!"a/y" Demo.arr fs1).2
  (storeSet Demo.hier str!"/meta/root/README" ([1], .ok ()) fs2).2

example : (listNodes Demo.envJ Demo.hier [] Demo.docsFs).1 = .ok [str!"a", str!"temper"] ∧
    Demo.docsFs.get (metaDir Demo.hier []) = some .dir ∧
    (Demo.docsFs.children (metaDir Demo.hier [])).map Prod.fst =
      [str!"temperature.group.json", str!"a", str!"README"] ∧
    byteLen Demo.hier.entry.metadataKeySuffix ≤ 5 := by
  decide +kernel

/-- `Fs.WF` and `NamesOk` of a concrete filesystem can be computed. -/
theorem wf_names_of_check {fs : Fs}
    (h : ((fs.ents.map Prod.fst).Nodup ∧ fs.get [] = some .dir) ∧
      fs.ents.all (fun e => e.1 = [] ∨ (fs.get e.1.dropLast = some .dir ∧ e.1.getLastD [] ≠ [] ∧
        '/' ∉ e.1.getLastD [] ∧ e.1.getLastD [] ≠ str!"." ∧ e.1.getLastD [] ≠ str!"..")) = true) :
    fs.WF ∧ NamesOk fs := by
  obtain ⟨⟨h1, h2⟩, h3⟩ := h
  have key : ∀ l s n, fs.get (l ++ [s]) = some n → fs.get l = some .dir ∧ s ≠ [] ∧ '/' ∉ s ∧ s ≠ str!"." ∧
      s ≠ str!".." := by
    intro l s n hg
    have hm := Fs.mem_of_lookup hg
    have := List.all_eq_true.mp h3 _ hm
    simpa using this
  exact ⟨⟨h1, h2, fun l s n hg => (key l s n hg).1⟩, fun l s n hg => (key l s n hg).2⟩

/-- The hypotheses of `C42_exact` hold there. -/
example : Demo.docsFs.WF ∧ NamesOk Demo.docsFs := wf_names_of_check (by decide +kernel)

/-- So do those of `C42_partial` in the other example. -/
example : Demo.implicitFs.WF ∧ NamesOk Demo.implicitFs := wf_names_of_check (by decide +kernel)

/-- Both cases of `C42_exact` occur: the document of `temperature` can be cut, that of `x` cannot. -/
example : Cut str!".json" str!"temperature.group.json" str!"temper" ∧
    ∀ n, ¬ Cut str!".json" str!"x.group.json" n := by
  refine ⟨⟨str!"ature.group", by decide, by decide⟩, ?_⟩
  rintro n ⟨w, h, hw⟩
  have h1 := congrArg byteLen h
  simp only [byteLen_append, hw] at h1
  have h2 : byteLen str!"x.group.json" = 12 := by decide
  have h3 : byteLen str!".json" = 5 := by decide
  omega

end Zarr
