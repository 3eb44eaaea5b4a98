import Verif.Lemmas.Box
/-!
# Lemmas on arrays: memory layout, slices, assignment
-/

namespace Zarr

open Spec

/-! ## Memory layout -/

theorem rowDot {shape idx : List Nat} :
    (List.zipWith (· * ·) idx (rowStrides shape)).sum = linearRow shape idx := by
  induction shape generalizing idx with
  | nil => cases idx <;> simp [rowStrides, linearRow]
  | cons n shape ih => cases idx <;> simp [rowStrides, linearRow, ih]

theorem colDot {acc : Nat} {shape idx : List Nat} :
    (List.zipWith (· * ·) idx (colStrides acc shape)).sum = acc * linearCol shape idx := by
  induction shape generalizing idx acc with
  | nil => cases idx <;> simp [colStrides, linearCol]
  | cons n shape ih =>
    cases idx with
    | nil => simp [linearCol]
    | cons i idx =>
      simp only [colStrides, List.zipWith_cons_cons, List.sum_cons, ih, linearCol, Nat.mul_add,
        Nat.mul_assoc, Nat.mul_comm i acc]

theorem memOffset_eq {o : Order} {shape idx : List Nat} :
    memOffset o shape idx = linear o shape idx := by
  unfold memOffset linear strides
  cases o with
  | rowMajor => exact rowDot
  | columnMajor => simp only [colDot, Nat.one_mul]

theorem linearRow_lt {shape idx : List Nat} (h : Inside shape idx) :
    linearRow shape idx < shape.prod := by
  induction shape generalizing idx with
  | nil => simp [linearRow]
  | cons n shape ih =>
    cases idx with
    | nil => simp [Inside] at h
    | cons i idx =>
      have h1 := ih h.2
      have h2 : (i + 1) * shape.prod ≤ n * shape.prod := Nat.mul_le_mul_right _ h.1
      rw [Nat.add_mul, Nat.one_mul] at h2
      simp only [linearRow, List.prod_cons]
      omega

theorem linearCol_lt {shape idx : List Nat} (h : Inside shape idx) :
    linearCol shape idx < shape.prod := by
  induction shape generalizing idx with
  | nil => simp [linearCol]
  | cons n shape ih =>
    cases idx with
    | nil => simp [Inside] at h
    | cons i idx =>
      have h1 := ih h.2
      have h2 : n * (linearCol shape idx + 1) ≤ n * shape.prod := Nat.mul_le_mul_left _ h1
      have h3 := h.1
      rw [Nat.mul_add, Nat.mul_one] at h2
      simp only [linearCol, List.prod_cons]
      omega

theorem linear_lt {o : Order} {shape idx : List Nat} (h : Inside shape idx) :
    linear o shape idx < shape.prod := by
  cases o with
  | rowMajor => exact linearRow_lt h
  | columnMajor => exact linearCol_lt h

theorem inside_append {s s' p p' : List Nat} (h : Inside s p) (h' : Inside s' p') :
    Inside (s ++ s') (p ++ p') := by
  induction s generalizing p with
  | nil => cases p <;> simp_all [Inside]
  | cons a s ih =>
    cases p with
    | nil => simp [Inside] at h
    | cons b p => exact ⟨h.1, ih h.2⟩

theorem inside_reverse {s p : List Nat} (h : Inside s p) : Inside s.reverse p.reverse := by
  induction s generalizing p with
  | nil => cases p <;> simp_all [Inside]
  | cons a s ih =>
    cases p with
    | nil => simp [Inside] at h
    | cons b p =>
      simp only [List.reverse_cons]
      exact inside_append (ih h.2) ⟨h.1, trivial⟩

theorem prod_append (a b : List Nat) : (a ++ b).prod = a.prod * b.prod := by
  induction a with
  | nil => simp
  | cons x a ih => simp [ih, Nat.mul_assoc]

theorem prod_reverse (a : List Nat) : a.reverse.prod = a.prod := by
  induction a with
  | nil => rfl
  | cons x a ih => simp [prod_append, ih, Nat.mul_comm]

theorem linearRow_concat {s p : List Nat} {n i : Nat} (h : p.length = s.length) :
    linearRow (s ++ [n]) (p ++ [i]) = linearRow s p * n + i := by
  induction s generalizing p with
  | nil => cases p <;> simp_all [linearRow]
  | cons a s ih =>
    cases p with
    | nil => simp at h
    | cons b p =>
      simp only [List.cons_append, linearRow, ih (by simpa using h), prod_append, List.prod_cons,
        List.prod_nil, Nat.mul_one, Nat.add_mul, Nat.mul_assoc, Nat.add_assoc]

theorem linearRow_reverse {s p : List Nat} (h : p.length = s.length) :
    linearRow s.reverse p.reverse = linearCol s p := by
  induction s generalizing p with
  | nil => cases p <;> simp_all [linearRow, linearCol]
  | cons a s ih =>
    cases p with
    | nil => simp at h
    | cons b p =>
      have hl : p.length = s.length := by simpa using h
      simp only [List.reverse_cons]
      rw [linearRow_concat (by simp [hl]), ih hl]
      simp only [linearCol, Nat.mul_comm a]
      omega

theorem getElem?_flatMap_map {α : Type} (r : List Nat) (xs : List α) (f : Nat → α → List Nat)
    (a : Nat) (i j : Nat) (hj : j < xs.length) (hi : r[i]? = some a) :
    (r.flatMap fun x => xs.map (f x))[i * xs.length + j]? = (xs[j]?).map (f a) := by
  induction r generalizing i with
  | nil => simp at hi
  | cons b r ih =>
    rw [List.flatMap_cons]
    cases i with
    | zero =>
      simp at hi; subst hi
      rw [Nat.zero_mul, Nat.zero_add, List.getElem?_append_left (by simpa using hj)]
      simp
    | succ i =>
      rw [List.getElem?_append_right (by rw [Nat.add_mul]; simp; omega)]
      rw [← ih i (by simpa using hi)]
      congr 1
      rw [Nat.add_mul]; simp; omega

theorem indices_length (shape : List Nat) : (indices shape).length = shape.prod := by
  unfold indices
  rw [cartesian_length, List.map_map]
  congr 1
  apply List.ext_getElem <;> simp

theorem indices_getElem {shape idx : List Nat} (h : Inside shape idx) :
    (indices shape)[linearRow shape idx]? = some idx := by
  induction shape generalizing idx with
  | nil => cases idx <;> simp_all [Inside, indices, cartesian, linearRow]
  | cons n shape ih =>
    cases idx with
    | nil => simp [Inside] at h
    | cons i idx =>
      have ih := ih h.2
      unfold indices at ih ⊢
      simp only [List.map_cons, cartesian, linearRow]
      have hlen : (cartesian (shape.map List.range)).length = shape.prod := indices_length shape
      rw [← hlen, getElem?_flatMap_map _ _ (fun x y => x :: y) i i _
        (by rw [hlen]; exact linearRow_lt h.2) (by simp [h.1]), ih]
      rfl

theorem toVec_length {α : Type} (o : Order) (a : NdArr α) : (a.toVec o).length = a.shape.prod := by
  unfold NdArr.toVec
  cases o with
  | rowMajor => simp [indices_length]
  | columnMajor => simp [indices_length, prod_reverse]

/-- The vector written for a view holds each element at its position in memory. -/
theorem toVec_getElem {α : Type} {o : Order} {a : NdArr α} {idx : List Nat}
    (h : Inside a.shape idx) : (a.toVec o)[linear o a.shape idx]? = some (a.get idx) := by
  unfold NdArr.toVec linear
  cases o with
  | rowMajor => simp [indices_getElem h]
  | columnMajor =>
    simp only [List.getElem?_map]
    rw [← linearRow_reverse (Inside.length h), indices_getElem (inside_reverse h)]
    simp

theorem ofMemory_get {α : Type} {d : α} {o : Order} {shape : List Nat} {v : List α} {idx : List Nat} :
    (NdArr.ofMemory d o shape v).get idx = (v[linear o shape idx]?).getD d := by
  simp only [NdArr.ofMemory, memOffset_eq]

/-! ## Slices of an intersection

`o`, `s` are the offset and shape of a box, `k`, `w` those of another; `isectLoop s o w k` is the
intersection. -/

theorem isect_sub {s o w k : List Nat} (h1 : o.length = s.length) (h2 : w.length = s.length)
    (h3 : k.length = s.length) :
    zipOutcome checkedSub (isectLoop s o w k).2 o
      = .ok (List.zipWith (· - ·) (isectLoop s o w k).2 o) ∧
    zipOutcome checkedSub (isectLoop s o w k).2 k
      = .ok (List.zipWith (· - ·) (isectLoop s o w k).2 k) := by
  induction s generalizing o w k with
  | nil => cases o <;> cases w <;> cases k <;> simp_all [isectLoop, zipOutcome]
  | cons a s ih =>
    cases o with
    | nil => simp at h1
    | cons b o =>
      cases w with
      | nil => simp at h2
      | cons c w =>
        cases k with
        | nil => simp at h3
        | cons d k =>
          obtain ⟨i1, i2⟩ := ih (o := o) (w := w) (k := k) (by simpa using h1) (by simpa using h2)
            (by simpa using h3)
          simp only [isectLoop, zipOutcome, i1, i2, checkedSub, List.zipWith_cons_cons]
          rw [if_pos (by omega), if_pos (by omega)]
          exact ⟨rfl, rfl⟩

/-- The ranges of the intersection relative to an offset. -/
def relRanges (r : List Nat × List Nat) (o : List Nat) : List (Nat × Nat) :=
  (BBox.mk (List.zipWith (· - ·) r.2 o) r.1).toSlice

theorem relRanges_cons (a x : Nat) (r : List Nat × List Nat) (b : Nat) (o : List Nat) :
    relRanges (a :: r.1, x :: r.2) (b :: o) = (x - b, x - b + a) :: relRanges r o := rfl

theorem relRanges_facts {s o w k : List Nat} (h1 : o.length = s.length) (h2 : w.length = s.length)
    (h3 : k.length = s.length) (hne : (isectLoop s o w k).1.contains 0 = false) :
    sliceOk (relRanges (isectLoop s o w k) o) s = true ∧
    sliceOk (relRanges (isectLoop s o w k) k) w = true := by
  induction s generalizing o w k with
  | nil => cases o <;> cases w <;> cases k <;> simp_all [isectLoop, relRanges, sliceOk, BBox.toSlice]
  | cons a s ih =>
    cases o with
    | nil => simp at h1
    | cons b o =>
      cases w with
      | nil => simp at h2
      | cons c w =>
        cases k with
        | nil => simp at h3
        | cons d k =>
          simp only [isectLoop, List.contains_cons, Bool.or_eq_false_iff] at hne
          obtain ⟨i1, i2⟩ := ih (o := o) (w := w) (k := k) (by simpa using h1) (by simpa using h2)
            (by simpa using h3) hne.2
          have hz := hne.1
          simp only [beq_eq_false_iff_ne, ne_eq] at hz
          simp only [isectLoop, relRanges_cons, sliceOk, i1, i2, Bool.and_true,
            decide_eq_true_eq]
          omega

theorem relRanges_shape {r : List Nat × List Nat} {o : List Nat} (h1 : r.2.length = r.1.length)
    (h2 : o.length = r.1.length) : ((relRanges r o).map fun x => x.2 - x.1) = r.1 := by
  obtain ⟨r1, r2⟩ := r
  simp only at h1 h2
  induction r1 generalizing r2 o with
  | nil => cases r2 <;> cases o <;> simp_all [relRanges, BBox.toSlice]
  | cons a r1 ih =>
    cases r2 with
    | nil => simp at h1
    | cons b r2 =>
      cases o with
      | nil => simp at h2
      | cons c o =>
        have := ih (r2 := r2) (o := o) (by simpa using h1) (by simpa using h2)
        rw [show (a :: r1, b :: r2) = (a :: (r1, r2).1, b :: (r1, r2).2) from rfl, relRanges_cons,
          List.map_cons, this]
        simp

/-- The ranges of the intersection relative to the first box hold exactly the indices of the first
box whose points lie in the second. -/
theorem inRanges_isect {s o w k i : List Nat} (h1 : o.length = s.length) (h2 : w.length = s.length)
    (h3 : k.length = s.length) (hi : Inside s i) :
    inRanges (relRanges (isectLoop s o w k) o) i = true ↔ InBox k w (shift o i) := by
  induction s generalizing o w k i with
  | nil =>
    cases o <;> cases w <;> cases k <;> cases i <;>
      simp_all [isectLoop, relRanges, inRanges, BBox.toSlice, InBox, shift, Inside]
  | cons a s ih =>
    cases o with
    | nil => simp at h1
    | cons b o =>
      cases w with
      | nil => simp at h2
      | cons c w =>
        cases k with
        | nil => simp at h3
        | cons d k =>
          cases i with
          | nil => simp [Inside] at hi
          | cons x i =>
            have ih := ih (o := o) (w := w) (k := k) (i := i) (by simpa using h1)
              (by simpa using h2) (by simpa using h3) hi.2
            have hx := hi.1
            simp only [isectLoop, relRanges_cons, inRanges, Bool.and_eq_true, ih, InBox, shift,
              decide_eq_true_eq]
            constructor
            · rintro ⟨⟨h1, h2⟩, h3⟩; exact ⟨by omega, h3⟩
            · rintro ⟨⟨h1, h2⟩, h3⟩; exact ⟨by omega, h3⟩

/-- The index in the second box of a point given by its index in the first. -/
theorem index_isect {s o w k i : List Nat} (h1 : o.length = s.length) (h2 : w.length = s.length)
    (h3 : k.length = s.length) (hi : Inside s i) (hb : InBox k w (shift o i)) :
    List.zipWith (· + ·)
      (List.zipWith (· - ·) i ((relRanges (isectLoop s o w k) o).map (·.1)))
      ((relRanges (isectLoop s o w k) k).map (·.1)) = rel k (shift o i) := by
  induction s generalizing o w k i with
  | nil =>
    cases o <;> cases w <;> cases k <;> cases i <;>
      simp_all [isectLoop, relRanges, BBox.toSlice, rel, Inside]
  | cons a s ih =>
    cases o with
    | nil => simp at h1
    | cons b o =>
      cases w with
      | nil => simp at h2
      | cons c w =>
        cases k with
        | nil => simp at h3
        | cons d k =>
          cases i with
          | nil => simp [Inside] at hi
          | cons x i =>
            have ih := ih (o := o) (w := w) (k := k) (i := i) (by simpa using h1)
              (by simpa using h2) (by simpa using h3) hi.2 hb.2
            have hx := hi.1
            have hb1 := hb.1
            simp only [isectLoop, relRanges_cons, List.map_cons, List.zipWith_cons_cons, ih, shift,
              rel, List.cons.injEq, and_true]
            omega

theorem isect_lengths {s o w k : List Nat} (h1 : o.length = s.length) :
    (isectLoop s o w k).2.length = (isectLoop s o w k).1.length ∧
      o.length = (isectLoop s o w k).1.length := by
  have := isectLoop_length (s := s) (o := o) (s' := w) (o' := k)
  omega

/-- Copying the intersection of two boxes from one array to the other. -/
theorem copy_isect {α : Type} {dst src view dst' : NdArr α} {s o w k : List Nat}
    (h1 : o.length = s.length) (h2 : w.length = s.length) (h3 : k.length = s.length)
    (hd : dst.shape = s)
    (hv : src.slice (relRanges (isectLoop s o w k) k) = .ok view)
    (ha : dst.sliceAssign (relRanges (isectLoop s o w k) o) view = .ok dst') :
    dst'.shape = s ∧ ∀ i, Inside s i →
      (InBox k w (shift o i) → dst'.get i = src.get (rel k (shift o i))) ∧
      (¬ InBox k w (shift o i) → dst'.get i = dst.get i) := by
  unfold NdArr.slice at hv
  split at hv
  · simp only [Outcome.ok.injEq] at hv
    unfold NdArr.sliceAssign at ha
    split at ha
    · simp only [Outcome.ok.injEq] at ha
      subst hv ha
      refine ⟨hd, fun i hi => ?_⟩
      have hr := inRanges_isect (w := w) (k := k) h1 h2 h3 hi
      constructor
      · intro hb
        simp only [hr.mpr hb, if_true]
        rw [index_isect h1 h2 h3 hi hb]
      · intro hb
        rw [← hr] at hb
        simp only
        rw [if_neg hb]
    · exact absurd ha (by simp)
  · exact absurd hv (by simp)

theorem copy_isect_ok {α : Type} {dst src : NdArr α} {s o w k : List Nat}
    (h1 : o.length = s.length) (h3 : k.length = s.length)
    (hd : dst.shape = s) (hs : src.shape = w)
    (hok1 : sliceOk (relRanges (isectLoop s o w k) o) s = true)
    (hok2 : sliceOk (relRanges (isectLoop s o w k) k) w = true) :
    ∃ view dst', src.slice (relRanges (isectLoop s o w k) k) = .ok view ∧
      dst.sliceAssign (relRanges (isectLoop s o w k) o) view = .ok dst' := by
  obtain ⟨hl1, hl2⟩ := isect_lengths (w := w) (k := k) h1
  have hv : src.slice (relRanges (isectLoop s o w k) k) = .ok ⟨(relRanges (isectLoop s o w k) k).map
      fun r => r.2 - r.1, fun i => src.get (List.zipWith (· + ·) i
        ((relRanges (isectLoop s o w k) k).map (·.1)))⟩ := by
    unfold NdArr.slice
    rw [hs, if_pos hok2]
  suffices h : ∃ dst', dst.sliceAssign (relRanges (isectLoop s o w k) o)
      ⟨(relRanges (isectLoop s o w k) k).map fun r => r.2 - r.1, fun i => src.get (List.zipWith
        (· + ·) i ((relRanges (isectLoop s o w k) k).map (·.1)))⟩ = .ok dst' by
    obtain ⟨d, hd⟩ := h
    exact ⟨_, d, hv, hd⟩
  · unfold NdArr.sliceAssign
    rw [hd, if_pos]
    · exact ⟨_, rfl⟩
    refine ⟨hok1, ?_⟩
    simp only
    rw [relRanges_shape hl1 hl2, relRanges_shape hl1 (by omega)]

end Zarr
