import Verif.Model.Ndarray
import Verif.Spec.Box
/-!
# Lemmas on boxes and coordinate iterators
-/

namespace Zarr

open Spec

/-! ## Points and boxes -/

theorem Inside.length {s p : List Nat} (h : Inside s p) : p.length = s.length := by
  induction s generalizing p with
  | nil => cases p <;> simp_all [Inside]
  | cons a s ih =>
    cases p with
    | nil => simp [Inside] at h
    | cons b p => simp [ih h.2]

theorem InBox.length {o s p : List Nat} (h : InBox o s p) :
    p.length = o.length ∧ p.length = s.length := by
  induction o generalizing s p with
  | nil => cases s <;> cases p <;> simp_all [InBox]
  | cons a o ih =>
    cases s <;> cases p <;> simp_all [InBox]
    exact ih h.2

theorem Covers.length {k c p : List Nat} (h : Covers k c p) :
    p.length = k.length ∧ c.length = k.length := by
  induction k generalizing c p with
  | nil => cases c <;> cases p <;> simp_all [Covers]
  | cons a k ih =>
    cases c <;> cases p <;> simp_all [Covers]
    exact ih h.2

theorem inside_iff_inBox {s p : List Nat} :
    Inside s p ↔ InBox (List.replicate s.length 0) s p := by
  induction s generalizing p with
  | nil => cases p <;> simp [Inside, InBox]
  | cons a s ih => cases p <;> simp [Inside, InBox, List.replicate_succ, ih]

theorem inside_shift {o s i : List Nat} (h : o.length = s.length) :
    Inside s i ↔ i.length = s.length ∧ InBox o s (shift o i) := by
  induction s generalizing o i with
  | nil => cases o <;> cases i <;> simp_all [Inside, InBox, shift]
  | cons a s ih =>
    cases o with
    | nil => simp at h
    | cons b o =>
      cases i with
      | nil => simp [Inside]
      | cons c i =>
        have := ih (o := o) (i := i) (by simpa using h)
        simp only [Inside, InBox, shift, List.length_cons, this]
        constructor
        · rintro ⟨h1, h2, h3⟩; exact ⟨by omega, ⟨by omega, by omega⟩, h3⟩
        · rintro ⟨h1, ⟨h2, h3⟩, h4⟩; exact ⟨by omega, by omega, h4⟩

theorem shift_rel {o s p : List Nat} (h : InBox o s p) : shift o (rel o p) = p := by
  induction o generalizing s p with
  | nil => cases s <;> cases p <;> simp_all [InBox, shift]
  | cons a o ih =>
    cases s <;> cases p <;> simp_all [InBox, shift, rel]
    exact ih h.2

theorem rel_shift {o i : List Nat} (h : o.length = i.length) : rel o (shift o i) = i := by
  induction o generalizing i with
  | nil => cases i <;> simp_all [rel, shift]
  | cons a o ih =>
    cases i with
    | nil => simp at h
    | cons b i => simp [rel, shift, ih (by simpa using h)]

theorem shift_length {o i : List Nat} (h : o.length = i.length) : (shift o i).length = o.length := by
  induction o generalizing i with
  | nil => simp [shift]
  | cons a o ih =>
    cases i with
    | nil => simp at h
    | cons b i => simp [shift, ih (by simpa using h)]

theorem rel_length {o i : List Nat} (h : o.length = i.length) : (rel o i).length = o.length := by
  induction o generalizing i with
  | nil => simp [rel]
  | cons a o ih =>
    cases i with
    | nil => simp at h
    | cons b i => simp [rel, ih (by simpa using h)]

theorem rel_inside {o s p : List Nat} (h : InBox o s p) : Inside s (rel o p) := by
  have hl := InBox.length h
  rw [inside_shift (o := o) (by omega), rel_length (by omega), shift_rel h]
  exact ⟨by omega, h⟩

/-! ## Chunks -/

theorem covers_iff {k c p : List Nat} (hk : ∀ x ∈ k, x ≠ 0) :
    Covers k c p ↔ p.length = k.length ∧ chunkOf k p = c := by
  induction k generalizing c p with
  | nil =>
    cases c <;> cases p <;> simp [Covers, chunkOf]
  | cons a k ih =>
    have ha : 0 < a := Nat.pos_of_ne_zero (hk a (by simp))
    have ih := fun c p => ih (c := c) (p := p) (fun x hx => hk x (by simp [hx]))
    cases c <;> cases p <;> simp only [Covers, chunkOf, List.length_cons, List.length_nil,
      List.cons.injEq, reduceCtorEq, and_false, false_and, ih]
    · rename_i c cs p ps
      constructor
      · rintro ⟨⟨h1, h2⟩, h3, h4⟩
        refine ⟨by omega, ?_, h4⟩
        rw [Nat.div_eq_iff ha]
        rw [Nat.add_mul] at h2
        omega
      · rintro ⟨h1, h2, h3⟩
        refine ⟨?_, by omega, h3⟩
        rw [← h2]
        have h1 := Nat.div_add_mod p a
        have h2 := Nat.mod_lt p ha
        rw [Nat.mul_comm] at h1
        exact ⟨Nat.div_mul_le_self p a, by rw [Nat.add_mul]; omega⟩

theorem covers_chunkOf {k p : List Nat} (hk : ∀ x ∈ k, x ≠ 0) (hl : p.length = k.length) :
    Covers k (chunkOf k p) p := (covers_iff hk).mpr ⟨hl, rfl⟩

theorem chunkOf_length {k p : List Nat} (hl : p.length = k.length) :
    (chunkOf k p).length = k.length := by
  induction k generalizing p with
  | nil => simp [chunkOf]
  | cons a k ih =>
    cases p with
    | nil => simp at hl
    | cons b p => simp [chunkOf, ih (by simpa using hl)]

theorem within_inside {k p : List Nat} (hk : ∀ x ∈ k, x ≠ 0) (hl : p.length = k.length) :
    Inside k (within k p) := by
  induction k generalizing p with
  | nil => simp [within, Inside]
  | cons a k ih =>
    cases p with
    | nil => simp at hl
    | cons b p =>
      exact ⟨Nat.mod_lt _ (Nat.pos_of_ne_zero (hk a (by simp))),
        ih (fun x hx => hk x (by simp [hx])) (by simpa using hl)⟩

/-- The offset of a chunk. -/
abbrev chunkOffset (c k : List Nat) : List Nat := List.zipWith (· * ·) c k

theorem inBox_chunk {k c p : List Nat} (hl : c.length = k.length) :
    InBox (chunkOffset c k) k p ↔ Covers k c p := by
  induction k generalizing c p with
  | nil => cases c <;> cases p <;> simp_all [InBox, Covers]
  | cons a k ih =>
    cases c with
    | nil => simp at hl
    | cons b c =>
      cases p with
      | nil => simp [InBox, Covers]
      | cons d p =>
        have := ih (c := c) (p := p) (by simpa using hl)
        simp only [chunkOffset] at this
        simp [InBox, Covers, this, Nat.add_mul]

theorem rel_chunk {k p : List Nat} :
    rel (chunkOffset (chunkOf k p) k) p = within k p := by
  induction k generalizing p with
  | nil => simp [rel, within]
  | cons a k ih =>
    cases p with
    | nil => simp [rel, within, chunkOf]
    | cons d p =>
      simp only [chunkOffset] at ih
      simp only [chunkOffset, chunkOf, List.zipWith_cons_cons, rel, within, ih, List.cons.injEq,
        and_true]
      have := Nat.div_add_mod d a
      rw [Nat.mul_comm] at this
      omega

theorem shift_within {k p : List Nat} (hl : p.length = k.length) :
    shift (chunkOffset (chunkOf k p) k) (within k p) = p := by
  induction k generalizing p with
  | nil => cases p <;> simp_all [shift]
  | cons a k ih =>
    cases p with
    | nil => simp at hl
    | cons d p =>
      simp only [chunkOffset] at ih
      simp only [chunkOffset, chunkOf, List.zipWith_cons_cons, shift, within,
        ih (by simpa using hl), List.cons.injEq, and_true]
      have := Nat.div_add_mod d a
      rw [Nat.mul_comm] at this
      omega

theorem chunkOf_shift {k c r : List Nat} (hk : ∀ x ∈ k, x ≠ 0) (hl : c.length = k.length)
    (hr : Inside k r) : chunkOf k (shift (chunkOffset c k) r) = c ∧
      within k (shift (chunkOffset c k) r) = r ∧ (shift (chunkOffset c k) r).length = k.length := by
  have hlen : (shift (chunkOffset c k) r).length = k.length := by
    rw [shift_length] <;> simp [hl, Inside.length hr]
  have hc : Covers k c (shift (chunkOffset c k) r) := by
    rw [← inBox_chunk hl]
    exact ((inside_shift (by simp [hl])).mp hr).2
  have h1 := ((covers_iff hk).mp hc).2
  refine ⟨h1, ?_, hlen⟩
  rw [← rel_chunk, h1]
  exact rel_shift (by simp [hl, Inside.length hr])

/-! ## Intersection, union, difference -/

theorem isectLoop_length {s o s' o' : List Nat} :
    (isectLoop s o s' o').1.length = s.length ∧ (isectLoop s o s' o').2.length = o.length := by
  fun_induction isectLoop s o s' o' with
  | case1 s ss o os s' ss' o' os' newO r ih =>
    obtain ⟨h1, h2⟩ := ih
    simp only [r]
    exact ⟨by simp only [List.length_cons, h1], by simp only [List.length_cons, h2]⟩
  | case2 => simp

theorem inBox_isect {s o s' o' p : List Nat} (h1 : o.length = s.length) (h2 : s'.length = s.length)
    (h3 : o'.length = s.length) :
    InBox (isectLoop s o s' o').2 (isectLoop s o s' o').1 p ↔ InBox o s p ∧ InBox o' s' p := by
  induction s generalizing o s' o' p with
  | nil => cases o <;> cases s' <;> cases o' <;> simp_all [isectLoop]
  | cons a s ih =>
    cases o with
    | nil => simp at h1
    | cons b o =>
      cases s' with
      | nil => simp at h2
      | cons c s' =>
        cases o' with
        | nil => simp at h3
        | cons d o' =>
          cases p with
          | nil => simp [isectLoop, InBox]
          | cons e p =>
            have := ih (o := o) (s' := s') (o' := o') (p := p) (by simpa using h1)
              (by simpa using h2) (by simpa using h3)
            simp only [isectLoop, InBox, this]
            constructor
            · rintro ⟨⟨h1, h2⟩, h3, h4⟩
              exact ⟨⟨by omega, h3⟩, by omega, h4⟩
            · rintro ⟨⟨h1, h2⟩, h3, h4⟩
              exact ⟨by omega, h2, h4⟩

theorem inBox_empty {o s : List Nat} (h : o.length = s.length) :
    s.contains 0 = true ↔ ∀ p, ¬ InBox o s p := by
  induction s generalizing o with
  | nil =>
    cases o with
    | nil => simp only [List.contains_nil, Bool.false_eq_true, false_iff]; exact fun h => h [] trivial
    | cons => simp at h
  | cons a s ih =>
    cases o with
    | nil => simp at h
    | cons b o =>
      have ih := ih (o := o) (by simpa using h)
      simp only [List.contains_cons, Bool.or_eq_true, ih]
      constructor
      · rintro (h1 | h1) p
        · cases p with
          | nil => simp [InBox]
          | cons c p => simp at h1; subst h1; simp only [InBox]; omega
        · cases p with
          | nil => simp [InBox]
          | cons c p => exact fun h => h1 p h.2
      · intro h1
        by_cases ha : a = 0
        · left; simp [ha]
        · right
          intro p hp
          exact h1 (b :: p) ⟨by omega, hp⟩

theorem inBox_union {s o s' o' : List Nat} (h1 : o.length = s.length) (h2 : s'.length = s.length)
    (h3 : o'.length = s.length) (p : List Nat) (h : InBox o s p ∨ InBox o' s' p) :
    InBox (unionLoop s o s' o').2 (unionLoop s o s' o').1 p := by
  induction s generalizing o s' o' p with
  | nil => cases o <;> cases s' <;> cases o' <;> simp_all [unionLoop]
  | cons a s ih =>
    cases o with
    | nil => simp at h1
    | cons b o =>
      cases s' with
      | nil => simp at h2
      | cons c s' =>
        cases o' with
        | nil => simp at h3
        | cons d o' =>
          cases p with
          | nil => simp [InBox] at h
          | cons e p =>
            have := ih (o := o) (s' := s') (o' := o') (by simpa using h1)
              (by simpa using h2) (by simpa using h3) p
            simp only [unionLoop, InBox] at h ⊢
            rcases h with h | h
            · exact ⟨by omega, this (.inl h.2)⟩
            · exact ⟨by omega, this (.inr h.2)⟩

/-- A box that contains two non-empty boxes contains their union. -/
theorem union_least {s o s' o' s'' o'' : List Nat} (h1 : o.length = s.length)
    (h2 : s'.length = s.length) (h3 : o'.length = s.length)
    (hne : ∃ p, InBox o s p) (hne' : ∃ p, InBox o' s' p)
    (hc : ∀ p, InBox o s p ∨ InBox o' s' p → InBox o'' s'' p) (p : List Nat)
    (h : InBox (unionLoop s o s' o').2 (unionLoop s o s' o').1 p) : InBox o'' s'' p := by
  induction s generalizing o s' o' s'' o'' p with
  | nil =>
    cases o <;> cases s' <;> cases o' <;> simp_all [unionLoop]
  | cons a s ih =>
    cases o with
    | nil => simp at h1
    | cons b o =>
      cases s' with
      | nil => simp at h2
      | cons c s' =>
        cases o' with
        | nil => simp at h3
        | cons d o' =>
          obtain ⟨q, hq⟩ := hne
          obtain ⟨q', hq'⟩ := hne'
          cases q with
          | nil => simp [InBox] at hq
          | cons q0 q =>
            cases q' with
            | nil => simp [InBox] at hq'
            | cons q0' q' =>
              cases p with
              | nil => simp [unionLoop, InBox] at h
              | cons e p =>
                have hcq := hc _ (.inl hq)
                cases o'' with
                | nil => cases s'' <;> simp [InBox] at hcq
                | cons u o'' =>
                  cases s'' with
                  | nil => simp [InBox] at hcq
                  | cons v s'' =>
                    simp only [unionLoop, InBox] at h hq hq' ⊢
                    -- the four corner points along the first dimension
                    have c1 := hc (b :: q) (.inl ⟨by omega, hq.2⟩)
                    have c2 := hc ((b + a - 1) :: q) (.inl ⟨by omega, hq.2⟩)
                    have c3 := hc (d :: q') (.inr ⟨by omega, hq'.2⟩)
                    have c4 := hc ((d + c - 1) :: q') (.inr ⟨by omega, hq'.2⟩)
                    simp only [InBox] at c1 c2 c3 c4
                    refine ⟨by omega, ?_⟩
                    refine ih (o := o) (s' := s') (o' := o') (by simpa using h1) (by simpa using h2)
                      (by simpa using h3) ⟨q, hq.2⟩ ⟨q', hq'.2⟩ ?_ p h.2
                    rintro r (hr | hr)
                    · exact (hc (q0 :: r) (.inl ⟨hq.1, hr⟩)).2
                    · exact (hc (q0' :: r) (.inr ⟨hq'.1, hr⟩)).2

theorem zipOutcome_ok {f : Nat → Nat → Outcome Nat} {g : Nat → Nat → Nat} :
    ∀ (as bs : List Nat), (∀ (i a b : Nat), as[i]? = some a → bs[i]? = some b → f a b = .ok (g a b)) →
      zipOutcome f as bs = .ok (List.zipWith g as bs)
  | [], bs, _ => by cases bs <;> rfl
  | a :: as, [], _ => rfl
  | a :: as, b :: bs, h => by
    have ih := zipOutcome_ok as bs (fun i a b ha hb => h (i + 1) a b (by simpa using ha) (by simpa using hb))
    simp [zipOutcome, ih, h 0 a b rfl rfl]

/-- What a successful zip computed. -/
theorem zipOutcome_inv {f : Nat → Nat → Outcome Nat} {g : Nat → Nat → Nat} {P : Nat → Prop}
    (hf : ∀ a b x, f a b = .ok x → x = g a b ∧ P b) :
    ∀ {as bs xs : List Nat}, as.length = bs.length → zipOutcome f as bs = .ok xs →
      xs = List.zipWith g as bs ∧ ∀ b ∈ bs, P b
  | [], bs, xs, hl, h => by cases bs <;> simp_all [zipOutcome]
  | a :: as, [], xs, hl, h => by simp at hl
  | a :: as, b :: bs, xs, hl, h => by
    simp only [zipOutcome, Outcome.bind_eq_ok] at h
    obtain ⟨x, hx, ys, hy, h⟩ := h
    obtain ⟨h1, h2⟩ := zipOutcome_inv hf (by simpa using hl) hy
    obtain ⟨h3, h4⟩ := hf _ _ _ hx
    simp only [Outcome.pure_def, Outcome.ok.injEq] at h
    subst h
    simp [h1, h3, h4]
    exact h2

/-! ## Products of ranges -/

/-- Corresponding entries of two lists of equal length. -/
def All2 {α β : Type} (R : α → β → Prop) : List α → List β → Prop
  | a :: as, b :: bs => R a b ∧ All2 R as bs
  | [], [] => True
  | _, _ => False

theorem mem_cartesian {rs : List (List Nat)} {x : List Nat} :
    x ∈ cartesian rs ↔ All2 (fun r x => x ∈ r) rs x := by
  induction rs generalizing x with
  | nil => cases x <;> simp [cartesian, All2]
  | cons r rs ih =>
    cases x with
    | nil => simp [cartesian, All2]
    | cons a x => simp [cartesian, All2, ih]

theorem cartesian_length {rs : List (List Nat)} : (cartesian rs).length = (rs.map List.length).prod := by
  induction rs with
  | nil => simp [cartesian]
  | cons r rs ih =>
    simp only [cartesian, List.length_flatMap, List.length_map, ih, List.map_cons, List.prod_cons]
    rw [List.map_const', List.sum_replicate_nat]

theorem cartesian_sorted {rs : List (List Nat)} (h : ∀ r ∈ rs, r.Pairwise (· < ·)) :
    (cartesian rs).Pairwise (· < ·) := by
  induction rs with
  | nil => simp [cartesian]
  | cons r rs ih =>
    have ih := ih (fun r' hr' => h r' (by simp [hr']))
    have hr := h r (by simp)
    simp only [cartesian]
    clear h
    induction r with
    | nil => simp
    | cons a r ihr =>
      rw [List.pairwise_cons] at hr
      rw [List.flatMap_cons, List.pairwise_append]
      refine ⟨?_, ihr hr.2, ?_⟩
      · rw [List.pairwise_map]
        exact ih.imp (fun h => List.cons_lt_cons_iff.mpr (.inr ⟨rfl, h⟩))
      · intro x hx y hy
        simp only [List.mem_map, List.mem_flatMap] at hx hy
        obtain ⟨u, _, rfl⟩ := hx
        obtain ⟨b, hb, v, _, rfl⟩ := hy
        exact List.cons_lt_cons_iff.mpr (.inl (hr.1 b hb))

theorem coordRange_sorted (f c : Nat) : (coordRange f c).Pairwise (· < ·) :=
  List.pairwise_lt_range'

theorem mem_coordRange {f c x : Nat} : x ∈ coordRange f c ↔ f ≤ x ∧ x < c := by
  unfold coordRange
  rw [List.mem_range'_1]
  omega

end Zarr

namespace Zarr

open Spec

/-! ## What the coordinate iterators yield -/

theorem ceilDiv_inv {a b x : Nat} (h : ceilDiv a b = .ok x) : x = (a + b - 1) / b ∧ b ≠ 0 := by
  unfold ceilDiv at h
  split at h
  · exact absurd h (by simp)
  · simp at h; exact ⟨h.symm, by assumption⟩

theorem floorDiv_inv {a b x : Nat} (h : floorDiv a b = .ok x) : x = a / b ∧ b ≠ 0 := by
  unfold floorDiv at h
  split at h
  · exact absurd h (by simp)
  · simp at h; exact ⟨h.symm, by assumption⟩

theorem ceilDiv_pos {a b : Nat} (h : b ≠ 0) : ceilDiv a b = .ok ((a + b - 1) / b) := by
  simp [ceilDiv, h]

theorem floorDiv_pos {a b : Nat} (h : b ≠ 0) : floorDiv a b = .ok (a / b) := by
  simp [floorDiv, h]

theorem lt_ceil_iff {c a b : Nat} (hb : b ≠ 0) : c < (a + b - 1) / b ↔ c * b < a := by
  rw [Nat.lt_div_iff_mul_lt (Nat.pos_of_ne_zero hb)]
  omega

theorem div_le_iff_lt {c o b : Nat} (hb : b ≠ 0) : o / b ≤ c ↔ o < (c + 1) * b := by
  rw [← Nat.lt_succ_iff, Nat.div_lt_iff_lt_mul (Nat.pos_of_ne_zero hb)]

/-- Along every dimension the chunk starts before the end of the array. -/
def Starts : List Nat → List Nat → List Nat → Prop
  | s :: ss, k :: ks, c :: cs => c * k < s ∧ Starts ss ks cs
  | [], [], [] => True
  | _, _, _ => False

theorem starts_iff {s k c : List Nat} (hl : s.length = k.length) (hk : ∀ x ∈ k, x ≠ 0) :
    (∃ p, Inside s p ∧ Covers k c p) ↔ Starts s k c := by
  induction s generalizing k c with
  | nil =>
    cases k with
    | nil =>
      cases c with
      | nil => simp only [Starts, iff_true]; exact ⟨[], trivial, trivial⟩
      | cons a c => simp only [Starts, iff_false]; rintro ⟨p, _, h⟩; cases p <;> simp [Covers] at h
    | cons => simp at hl
  | cons a s ih =>
    cases k with
    | nil => simp at hl
    | cons b k =>
      have hb := hk b (by simp)
      cases c with
      | nil => simp only [Starts, iff_false]; rintro ⟨p, _, h⟩; cases p <;> simp [Covers] at h
      | cons d c =>
        have ih := ih (k := k) (c := c) (by simpa using hl) (fun x hx => hk x (by simp [hx]))
        simp only [Starts, ← ih]
        constructor
        · rintro ⟨p, h1, h2⟩
          cases p with
          | nil => simp [Inside] at h1
          | cons e p => exact ⟨Nat.lt_of_le_of_lt h2.1.1 h1.1, p, h1.2, h2.2⟩
        · rintro ⟨h, p, h1, h2⟩
          exact ⟨d * b :: p, ⟨h, h1⟩, ⟨Nat.le_refl _, by rw [Nat.add_mul]; omega⟩, h2⟩

theorem coordIter_ok {m : ArrayMetadata} {it : CoordIter} (hl : m.shape.length = m.chunkShape.length)
    (h : m.coordIter = .ok it) :
    (∀ k ∈ m.chunkShape, k ≠ 0) ∧
    it = CoordIter.new (List.zipWith (fun a b => (a + b - 1) / b) m.shape m.chunkShape) := by
  simp only [ArrayMetadata.coordIter, Outcome.bind_eq_ok, Outcome.pure_def, Outcome.ok.injEq] at h
  obtain ⟨ceil, h1, rfl⟩ := h
  obtain ⟨rfl, hk⟩ := zipOutcome_inv (g := fun a b => (a + b - 1) / b) (P := (· ≠ 0))
    (fun a b x h => ceilDiv_inv h) hl h1
  exact ⟨hk, rfl⟩

theorem coordIter_eq {m : ArrayMetadata} (hk : ∀ k ∈ m.chunkShape, k ≠ 0) :
    m.coordIter = .ok (CoordIter.new
      (List.zipWith (fun a b => (a + b - 1) / b) m.shape m.chunkShape)) := by
  simp only [ArrayMetadata.coordIter]
  rw [zipOutcome_ok (g := fun a b => (a + b - 1) / b)]
  · rfl
  · intro i a b _ hb
    exact ceilDiv_pos (hk b (List.mem_of_getElem? hb))

theorem mem_coord {s k c : List Nat} (hl : s.length = k.length) (hk : ∀ x ∈ k, x ≠ 0) :
    All2 (fun r x => x ∈ r)
      ((List.zipWith (fun a b => (a + b - 1) / b) s k).map (coordRange 0)) c ↔ Starts s k c := by
  induction s generalizing k c with
  | nil => cases k <;> cases c <;> simp_all [All2, Starts]
  | cons a s ih =>
    cases k with
    | nil => simp at hl
    | cons b k =>
      have hb := hk b (by simp)
      cases c with
      | nil => simp [All2, Starts]
      | cons d c =>
        have ih := ih (k := k) (c := c) (by simpa using hl) (fun x hx => hk x (by simp [hx]))
        simp only [List.zipWith_cons_cons, List.map_cons, All2, Starts, ih, mem_coordRange,
          lt_ceil_iff hb, Nat.zero_le, true_and]

/-- The positions yielded by `bounded_coord_iter`, one condition per dimension. -/
def Touches : List Nat → List Nat → List Nat → List Nat → List Nat → Prop
  | s :: ss, k :: ks, o :: os, w :: ws, c :: cs =>
    (o < (c + 1) * k ∧ c * k < max o (min s (o + w))) ∧ Touches ss ks os ws cs
  | [], [], [], [], [] => True
  | _, _, _, _, _ => False

theorem Touches.length {s k o w c : List Nat} (h : Touches s k o w c) : c.length = k.length := by
  induction s generalizing k o w c with
  | nil => cases k <;> cases o <;> cases w <;> cases c <;> simp_all [Touches]
  | cons a s ih =>
    cases k <;> cases o <;> cases w <;> cases c <;> simp_all [Touches]
    exact ih h.2

/-- The list of ranges of `bounded_coord_iter`. -/
def boundedRanges (s k o w : List Nat) : List (List Nat) :=
  let r := isectLoop s (List.replicate s.length 0) w o
  List.zipWith coordRange (List.zipWith (fun a b => a / b) r.2 k)
    (List.zipWith (fun a b => (a + b - 1) / b) (List.zipWith (· + ·) r.2 r.1) k)

theorem mem_bounded {s k o w c : List Nat} (h1 : s.length = k.length) (h2 : o.length = s.length)
    (h3 : w.length = s.length) (hk : ∀ x ∈ k, x ≠ 0) :
    All2 (fun r x => x ∈ r) (boundedRanges s k o w) c ↔ Touches s k o w c := by
  induction s generalizing k o w c with
  | nil => cases k <;> cases o <;> cases w <;> cases c <;> simp_all [All2, Touches, boundedRanges, isectLoop]
  | cons a s ih =>
    cases k with
    | nil => simp at h1
    | cons b k =>
      cases o with
      | nil => simp at h2
      | cons d o =>
        cases w with
        | nil => simp at h3
        | cons e w =>
          have hb := hk b (by simp)
          cases c with
          | nil => simp [All2, Touches, boundedRanges, isectLoop, List.replicate_succ]
          | cons f c =>
            have ih := ih (k := k) (o := o) (w := w) (c := c) (by simpa using h1)
              (by simpa using h2) (by simpa using h3) (fun x hx => hk x (by simp [hx]))
            simp only [boundedRanges] at ih
            simp only [boundedRanges, List.length_cons, List.replicate_succ, isectLoop,
              List.zipWith_cons_cons, All2, ih, Touches, mem_coordRange, lt_ceil_iff hb,
              div_le_iff_lt hb]
            have : max d 0 + (min (a + 0) (d + e) - max d 0) = max d (min a (d + e)) := by omega
            rw [this, show max d 0 = d by omega]

theorem boundedCoordIter_ok {m : ArrayMetadata} {b : BBox} {it : CoordIter}
    (hl : m.shape.length = m.chunkShape.length) (hb : b.offset.length = b.shape.length)
    (h : m.boundedCoordIter b = .ok it) :
    b.offset.length = m.shape.length ∧ (∀ k ∈ m.chunkShape, k ≠ 0) ∧
      it.rest = multiCartesian (boundedRanges m.shape m.chunkShape b.offset b.shape) ∧
      it.accumulator = 0 ∧
      it.total = ((boundedRanges m.shape m.chunkShape b.offset b.shape).map List.length).prod := by
  simp only [ArrayMetadata.boundedCoordIter, Outcome.bind_eq_ok, Outcome.pure_def,
    Outcome.ok.injEq] at h
  obtain ⟨i, h1, floor, h2, ceil, h3, rfl⟩ := h
  simp only [ArrayMetadata.bounds, BBox.intersect, List.length_replicate] at h1
  split at h1
  · rename_i ho
    simp only [Outcome.ok.injEq] at h1
    subst h1
    obtain ⟨hl1, hl2⟩ := isectLoop_length (s := m.shape) (o := List.replicate m.shape.length 0)
      (s' := b.shape) (o' := b.offset)
    obtain ⟨rfl, hk⟩ := zipOutcome_inv (g := fun a b => a / b) (P := (· ≠ 0))
      (fun a b x h => floorDiv_inv h) (by simp only [hl2, List.length_replicate]; exact hl) h2
    obtain ⟨rfl, _⟩ := zipOutcome_inv (g := fun a b => (a + b - 1) / b) (P := (· ≠ 0))
      (fun a b x h => ceilDiv_inv h) (by simp only [BBox.end, List.length_zipWith, hl1, hl2, List.length_replicate]; omega) h3
    refine ⟨ho.symm, hk, rfl, rfl, ?_⟩
    simp only [CoordIter.floorCeil, boundedRanges, BBox.end, List.map_zipWith, coordRange,
      List.length_range']
  · exact absurd h1 (by simp)

theorem boundedCoordIter_exists {m : ArrayMetadata} {b : BBox}
    (ho : b.offset.length = m.shape.length) (hk : ∀ k ∈ m.chunkShape, k ≠ 0) :
    ∃ it, m.boundedCoordIter b = .ok it := by
  simp only [ArrayMetadata.boundedCoordIter, ArrayMetadata.bounds, BBox.intersect,
    List.length_replicate, ho, if_true, Outcome.bind_ok]
  rw [zipOutcome_ok (g := fun a b => a / b) _ _
    (fun i a b _ hb => floorDiv_pos (hk b (List.mem_of_getElem? hb))), Outcome.bind_ok,
    zipOutcome_ok (g := fun a b => (a + b - 1) / b) _ _
    (fun i a b _ hb => ceilDiv_pos (hk b (List.mem_of_getElem? hb)))]
  exact ⟨_, rfl⟩

theorem multiCartesian_eq {rs : List (List Nat)} (h : rs ≠ []) : multiCartesian rs = cartesian rs := by
  simp [multiCartesian, h]

theorem boundedRanges_length {s k o w : List Nat} (h1 : s.length = k.length)
    (h2 : o.length = s.length) (h3 : w.length = s.length) :
    (boundedRanges s k o w).length = s.length := by
  obtain ⟨hl1, hl2⟩ := isectLoop_length (s := s) (o := List.replicate s.length 0)
      (s' := w) (o' := o)
  simp only [boundedRanges, List.length_zipWith, hl1, hl2, List.length_replicate]
  omega

theorem boundedRanges_sorted {s k o w : List Nat} :
    ∀ r ∈ boundedRanges s k o w, r.Pairwise (· < ·) := by
  intro r hr
  simp only [boundedRanges] at hr
  rw [List.mem_iff_getElem?] at hr
  obtain ⟨i, hi⟩ := hr
  rw [List.getElem?_zipWith_eq_some] at hi
  obtain ⟨a, b, _, _, rfl⟩ := hi
  exact coordRange_sorted _ _

theorem mem_boundedCoordIter {m : ArrayMetadata} {b : BBox} {it : CoordIter} {c : List Nat}
    (hl : m.shape.length = m.chunkShape.length) (hb : b.offset.length = b.shape.length)
    (hn : m.shape ≠ []) (h : m.boundedCoordIter b = .ok it) :
    c ∈ it.rest ↔ Touches m.shape m.chunkShape b.offset b.shape c := by
  obtain ⟨h1, h2, h3, _⟩ := boundedCoordIter_ok hl hb h
  have hlen := boundedRanges_length (o := b.offset) (w := b.shape) hl h1 (by omega)
  rw [h3, multiCartesian_eq, mem_cartesian, mem_bounded hl h1 (by omega) h2]
  intro h
  rw [h] at hlen
  exact hn (List.length_eq_zero_iff.mp hlen.symm)

/-- The chunk that covers a point of the box and the array is visited. -/
theorem touches_of_point {s k o w p : List Nat} (hk : ∀ x ∈ k, x ≠ 0) (hl : s.length = k.length)
    (h1 : Inside s p) (h2 : InBox o w p) : Touches s k o w (chunkOf k p) := by
  induction s generalizing k o w p with
  | nil => cases p <;> cases k <;> cases o <;> cases w <;> simp_all [Inside, InBox, chunkOf, Touches]
  | cons a s ih =>
    cases p with
    | nil => simp [Inside] at h1
    | cons x p =>
      cases k with
      | nil => simp at hl
      | cons b k =>
        cases o with
        | nil => simp [InBox] at h2
        | cons d o =>
          cases w with
          | nil => simp [InBox] at h2
          | cons e w =>
            have hb := hk b (by simp)
            refine ⟨?_, ih (fun x hx => hk x (by simp [hx])) (by simpa using hl) h1.2 h2.2⟩
            have h3 := Nat.div_mul_le_self x b
            have h4 := Nat.lt_mul_div_succ x (Nat.pos_of_ne_zero hb)
            rw [Nat.mul_comm] at h4
            have h5 := h1.1
            have h6 := h2.1
            omega

end Zarr
