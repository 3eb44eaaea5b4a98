import Verif.Lemmas.Store
/-! Sorting, deduplication, truncation and draining of strings. -/

namespace Zarr

theorem byteLen_cons (c : Char) (s : Str) : byteLen (c :: s) = c.utf8Size + byteLen s := by
  simp [byteLen]

theorem byteLen_append (s t : Str) : byteLen (s ++ t) = byteLen s + byteLen t := by
  simp [byteLen]

theorem truncateBytes_prefix {n : Nat} {s t : Str} (h : truncateBytes n s = .ok t) : t <+: s := by
  induction s generalizing n t with
  | nil => cases n <;> (simp [truncateBytes] at h; subst h; exact List.nil_prefix)
  | cons c s ih =>
    cases n with
    | zero => simp [truncateBytes] at h; subst h; exact List.nil_prefix
    | succ n =>
      simp only [truncateBytes] at h
      split at h
      · split at h
        · rename_i r hr
          simp only [Outcome.ok.injEq] at h
          subst h
          exact (List.cons_prefix_cons).mpr ⟨rfl, ih hr⟩
        · simp at h
        · simp at h
      · simp at h

theorem truncateBytes_append (s t : Str) : truncateBytes (byteLen s) (s ++ t) = .ok s := by
  induction s with
  | nil => simp [byteLen, truncateBytes]
  | cons c s ih =>
    rw [byteLen_cons]
    have hp := Char.utf8Size_pos c
    obtain ⟨n, hn⟩ : ∃ n, c.utf8Size + byteLen s = n + 1 := ⟨c.utf8Size + byteLen s - 1, by omega⟩
    rw [hn, List.cons_append, truncateBytes, if_pos (by omega), show n + 1 - c.utf8Size = byteLen s by omega, ih]

theorem drainBytes_append (p r : Str) : drainBytes (byteLen p) (p ++ r) = .ok r := by
  induction p with
  | nil => simp [byteLen, drainBytes]
  | cons c s ih =>
    rw [byteLen_cons]
    have hp := Char.utf8Size_pos c
    obtain ⟨n, hn⟩ : ∃ n, c.utf8Size + byteLen s = n + 1 := ⟨c.utf8Size + byteLen s - 1, by omega⟩
    rw [hn, List.cons_append, drainBytes, if_pos (by omega), show n + 1 - c.utf8Size = byteLen s by omega, ih]

theorem drainBytes_prefix {p k x r : Str} (hk : k <+: p ++ x) (h : drainBytes (byteLen p) k = .ok r) :
    k = p ++ r := by
  induction p generalizing k with
  | nil => simpa [byteLen, drainBytes] using h
  | cons c s ih =>
    rw [byteLen_cons] at h
    have hp := Char.utf8Size_pos c
    obtain ⟨n, hn⟩ : ∃ n, c.utf8Size + byteLen s = n + 1 := ⟨c.utf8Size + byteLen s - 1, by omega⟩
    cases k with
    | nil => rw [hn, drainBytes] at h; simp at h
    | cons d k =>
      simp only [List.cons_append, List.cons_prefix_cons] at hk
      rw [hn, drainBytes] at h
      rw [hk.1] at h ⊢
      rw [if_pos (by omega), show n + 1 - c.utf8Size = byteLen s by omega] at h
      rw [ih hk.2 h]; rfl

/-! ## Order -/

theorem strLt_iff (a b : Str) : strLt a b = true ↔ a < b := by
  induction a generalizing b with
  | nil => cases b <;> simp [strLt]
  | cons c a ih =>
    cases b with
    | nil => simp [strLt]
    | cons d b =>
      simp only [strLt, List.cons_lt_cons_iff]
      have hcd : c.toNat < d.toNat ↔ c < d := by
        rw [Char.lt_def, UInt32.lt_iff_toNat_lt]; rfl
      rw [← hcd, ← ih]
      by_cases h1 : c.toNat < d.toNat
      · simp [h1]
      · by_cases h2 : c = d
        · simp [h2]
        · simp [h1, h2]

theorem str_lt_irrefl (a : Str) : ¬ a < a := by
  induction a with
  | nil => simp
  | cons c a ih => simp only [List.cons_lt_cons_iff, not_or]; exact ⟨by
      rw [Char.lt_def]; exact UInt32.lt_irrefl _, fun h => ih h.2⟩

theorem str_lt_trans {a b c : Str} (h1 : a < b) (h2 : b < c) : a < c := by
  induction a generalizing b c with
  | nil =>
    cases b with
    | nil => simp at h1
    | cons y b => cases c with
      | nil => simp at h2
      | cons z c => simp
  | cons x a ih =>
    cases b with
    | nil => simp at h1
    | cons y b => cases c with
      | nil => simp at h2
      | cons z c =>
        simp only [List.cons_lt_cons_iff] at h1 h2 ⊢
        rcases h1 with h1 | ⟨rfl, h1⟩
        · rcases h2 with h2 | ⟨rfl, h2⟩
          · left; rw [Char.lt_def] at *; exact UInt32.lt_trans h1 h2
          · left; exact h1
        · rcases h2 with h2 | ⟨rfl, h2⟩
          · left; exact h2
          · right; exact ⟨rfl, ih h1 h2⟩

theorem str_lt_total (a b : Str) : a < b ∨ a = b ∨ b < a := by
  induction a generalizing b with
  | nil => cases b <;> simp
  | cons x a ih =>
    cases b with
    | nil => simp
    | cons y b =>
      simp only [List.cons_lt_cons_iff, List.cons.injEq]
      have hx : x < y ∨ x = y ∨ y < x := by
        rw [Char.lt_def, Char.lt_def, UInt32.lt_iff_toNat_lt, UInt32.lt_iff_toNat_lt]
        rcases Nat.lt_trichotomy x.val.toNat y.val.toNat with h | h | h
        · exact Or.inl h
        · exact Or.inr (Or.inl (Char.ext (UInt32.toNat_inj.mp h)))
        · exact Or.inr (Or.inr h)
      rcases hx with h | rfl | h
      · exact Or.inl (Or.inl h)
      · rcases ih b with h | h | h
        · exact Or.inl (Or.inr ⟨rfl, h⟩)
        · exact Or.inr (Or.inl ⟨rfl, h⟩)
        · exact Or.inr (Or.inr (Or.inr ⟨rfl, h⟩))
      · exact Or.inr (Or.inr (Or.inl h))

theorem str_lt_append (p a b : Str) : p ++ a < p ++ b ↔ a < b := by
  induction p with
  | nil => rfl
  | cons c p ih =>
    simp only [List.cons_append, List.cons_lt_cons_iff, ih]
    constructor
    · rintro (h | h)
      · exact absurd h (by rw [Char.lt_def]; exact UInt32.lt_irrefl _)
      · exact h.2
    · exact fun h => Or.inr ⟨trivial, h⟩

theorem mem_sortInsert (x y : Str) (l : List Str) : y ∈ sortInsert x l ↔ y = x ∨ y ∈ l := by
  induction l with
  | nil => simp [sortInsert]
  | cons z l ih =>
    simp only [sortInsert]
    split
    · simp only [List.mem_cons, ih]
      constructor <;> (intro h; rcases h with h | h | h <;> simp [h])
    · simp

theorem mem_sortStrs (y : Str) (l : List Str) : y ∈ sortStrs l ↔ y ∈ l := by
  induction l with
  | nil => simp [sortStrs]
  | cons z l ih => simp [sortStrs, mem_sortInsert, ih]

theorem sortInsert_sorted (x : Str) {l : List Str} (h : l.Pairwise fun a b => ¬ b < a) :
    (sortInsert x l).Pairwise fun a b => ¬ b < a := by
  induction l with
  | nil => simp [sortInsert]
  | cons z l ih =>
    rw [List.pairwise_cons] at h
    simp only [sortInsert]
    split
    · rename_i hz
      rw [strLt_iff] at hz
      rw [List.pairwise_cons]
      refine ⟨fun a ha => ?_, ih h.2⟩
      rw [mem_sortInsert] at ha
      rcases ha with rfl | ha
      · exact fun h' => str_lt_irrefl _ (str_lt_trans hz h')
      · exact h.1 a ha
    · rename_i hz
      rw [strLt_iff] at hz
      rw [List.pairwise_cons, List.pairwise_cons]
      refine ⟨fun a ha => ?_, h.1, h.2⟩
      rcases List.mem_cons.mp ha with rfl | ha
      · exact hz
      · intro h'
        rcases str_lt_total z a with h1 | rfl | h1
        · exact hz (str_lt_trans h1 h')
        · exact hz h'
        · exact h.1 a ha h1

theorem sortStrs_sorted (l : List Str) : (sortStrs l).Pairwise fun a b => ¬ b < a := by
  induction l with
  | nil => simp [sortStrs]
  | cons z l ih => exact sortInsert_sorted z ih

theorem mem_dedupStrs (y : Str) (l : List Str) : y ∈ dedupStrs l ↔ y ∈ l := by
  fun_induction dedupStrs l with
  | case1 => simp
  | case2 => simp
  | case3 x r ih => rw [ih]; simp
  | case4 x z r h ih => rw [List.mem_cons, ih, List.mem_cons (b := x)]

theorem dedupStrs_sorted {l : List Str} (h : l.Pairwise fun a b => ¬ b < a) :
    (dedupStrs l).Pairwise (· < ·) := by
  fun_induction dedupStrs l with
  | case1 => simp
  | case2 => simp
  | case3 x r ih => rw [List.pairwise_cons] at h; exact ih h.2
  | case4 x z r hne ih =>
    rw [List.pairwise_cons] at h ⊢
    refine ⟨fun a ha => ?_, ih h.2⟩
    rw [mem_dedupStrs] at ha
    have hxz : x < z := by
      rcases str_lt_total x z with h1 | h1 | h1
      · exact h1
      · exact absurd h1 hne
      · exact absurd h1 (h.1 z (List.mem_cons_self ..))
    rcases List.mem_cons.mp ha with rfl | ha
    · exact hxz
    · rcases str_lt_total z a with h1 | rfl | h1
      · exact str_lt_trans hxz h1
      · exact hxz
      · exact absurd h1 ((List.pairwise_cons.mp h.2).1 a ha)

/-- Removing a common prefix keeps the order. -/
theorem mapOutcome_drain {p : Str} {ks rs : List Str} (hp : ∀ k ∈ ks, ∃ x, k <+: p ++ x)
    (h : mapOutcome (drainBytes (byteLen p)) ks = .ok rs) : ks = rs.map (p ++ ·) := by
  induction ks generalizing rs with
  | nil => simp [mapOutcome] at h; subst h; rfl
  | cons k ks ih =>
    simp only [mapOutcome, Outcome.bind_eq_ok, Outcome.pure_def, Outcome.ok.injEq] at h
    obtain ⟨r, hr, rs', hrs, rfl⟩ := h
    obtain ⟨x, hx⟩ := hp k (List.mem_cons_self ..)
    rw [drainBytes_prefix hx hr, ih (fun k hk => hp k (List.mem_cons_of_mem _ hk)) hrs]; simp [drainBytes_prefix hx hr]

theorem mapOutcome_drain_append (p : Str) (rs : List Str) :
    mapOutcome (drainBytes (byteLen p)) (rs.map (p ++ ·)) = .ok rs := by
  induction rs with
  | nil => rfl
  | cons r rs ih => simp [mapOutcome, drainBytes_append, ih]

theorem mapOutcome_all {α β : Type} {f : α → Outcome β} {P : α → Prop} {Q : β → Prop}
    (hf : ∀ a b, P a → f a = .ok b → Q b) {l : List α} {r : List β} (hl : ∀ a ∈ l, P a)
    (h : mapOutcome f l = .ok r) : ∀ b ∈ r, Q b := by
  induction l generalizing r with
  | nil => simp [mapOutcome] at h; subst h; simp
  | cons a l ih =>
    simp only [mapOutcome, Outcome.bind_eq_ok, Outcome.pure_def, Outcome.ok.injEq] at h
    obtain ⟨x, hx, xs, hxs, rfl⟩ := h
    intro b hb
    rcases List.mem_cons.mp hb with rfl | hb
    · exact hf _ _ (hl a (List.mem_cons_self ..)) hx
    · exact ih (fun a ha => hl a (List.mem_cons_of_mem _ ha)) hxs b hb

theorem trimEnd_prefix (c : Char) (s : Str) : trimEnd c s <+: s := by
  unfold trimEnd
  rw [← List.reverse_suffix, List.reverse_reverse]
  exact List.dropWhile_suffix _

/-- Whatever `list_nodes` returns is sorted and without duplicates. -/
theorem listNodesOf_sorted {env : Env} {sfx pre : Str} {keys prefixes names : List Str}
    (h1 : ∀ k ∈ keys, pre <+: k) (h2 : ∀ k ∈ prefixes, pre <+: k)
    (h : listNodesOf env sfx pre keys prefixes = .ok names) : names.Pairwise (· < ·) := by
  simp only [listNodesOf, Outcome.bind_eq_ok] at h
  obtain ⟨k1, hk1, k2, hk2, h⟩ := h
  have a1 : ∀ k ∈ k1, ∃ x, k <+: pre ++ x := by
    refine mapOutcome_all (P := fun k => pre <+: k) ?_ ?_ hk1
    · rintro a b ⟨x, rfl⟩ hb
      exact ⟨x, truncateBytes_prefix hb⟩
    · intro k hk; exact h1 k (List.mem_filter.mp hk).1
  have a2 : ∀ k ∈ k2, ∃ x, k <+: pre ++ x := by
    refine mapOutcome_all (P := fun k => ∃ x, k <+: pre ++ x) ?_ ?_ hk2
    · rintro a b ⟨x, hx⟩ hb
      rw [Outcome.bind_eq_ok] at hb
      obtain ⟨n, _, hb⟩ := hb
      exact ⟨x, (truncateBytes_prefix hb).trans hx⟩
    · intro k hk; exact a1 k (List.mem_filter.mp hk).1
  have a3 : ∀ k ∈ dedupStrs (sortStrs (k2 ++ prefixes.map (trimEnd '/'))), ∃ x, k <+: pre ++ x := by
    intro k hk
    rw [mem_dedupStrs, mem_sortStrs, List.mem_append] at hk
    rcases hk with hk | hk
    · exact a2 k hk
    · obtain ⟨q, hq, rfl⟩ := List.mem_map.mp hk
      obtain ⟨x, rfl⟩ := h2 q hq
      exact ⟨x, trimEnd_prefix _ _⟩
  have := mapOutcome_drain a3 h
  have hs := dedupStrs_sorted (sortStrs_sorted (k2 ++ prefixes.map (trimEnd '/')))
  rw [this, List.pairwise_map] at hs
  exact hs.imp fun h => (str_lt_append _ _ _).mp h

end Zarr
