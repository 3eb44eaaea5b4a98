import Verif.Lemmas.Box
import Verif.Demo
/-!
# Properties of the chunk grid, bounding boxes and coordinate iterators (C12–C19)
-/

namespace Zarr

open Spec

namespace Spec

/-- A grid position is the position of a chunk of the array: it has one coordinate per dimension and
its chunk covers some point of the array. -/
def OverlapsArray (m : ArrayMetadata) (c : List Nat) : Prop :=
  ∃ p, Inside m.shape p ∧ Covers m.chunkShape c p

/-- Repeated `next` yields `xs` and then `None`. -/
inductive Yields : CoordIter → List (List Nat) → Prop
  | stop {it : CoordIter} : it.next.1 = none → Yields it []
  | step {it : CoordIter} {x : List Nat} {xs : List (List Nat)} :
      it.next.1 = some x → Yields it.next.2 xs → Yields it (x :: xs)

/-- The iterator after `n` calls of `next`. -/
def nextN : Nat → CoordIter → CoordIter
  | 0, it => it
  | n + 1, it => nextN n it.next.2

end Spec

/-- No dimension falls one short of a multiple of the chunk size. -/
def Exact (m : ArrayMetadata) : Prop :=
  ∀ i s k : Nat, m.shape[i]? = some s → m.chunkShape[i]? = some k → s % k ≠ k - 1

theorem u64CeilDiv_spec {s k : Nat} (hk : k ≠ 0) :
    ∃ n, LeastCover s k n ∧
      u64CeilDiv s k = .ok (n + if s % k = k - 1 then 1 else 0) := by
  refine ⟨(s + k - 1) / k, ⟨?_, ?_⟩, ?_⟩
  · rcases Nat.lt_or_ge ((s + k - 1) / k * k) s with h | h
    · exact absurd ((lt_ceil_iff hk).mpr h) (Nat.lt_irrefl _)
    · exact h
  · intro n' hn'
    rcases Nat.lt_or_ge n' ((s + k - 1) / k) with h | h
    · have := (lt_ceil_iff hk).mp h
      omega
    · exact h
  · have hpos := Nat.pos_of_ne_zero hk
    have hdm := Nat.div_add_mod s k
    have hlt := Nat.mod_lt s hpos
    have e1 : (s + k - 1) / k = s / k + (if s % k ≠ 0 then 1 else 0) := by
      rw [Nat.div_eq_iff hpos]
      split
      · rw [Nat.add_mul, Nat.mul_comm (s / k)]; omega
      · rw [Nat.add_mul, Nat.mul_comm (s / k)]; omega
    have e2 : (s + 1) / k = s / k + (if s % k = k - 1 then 1 else 0) := by
      rw [Nat.div_eq_iff hpos]
      split
      · rw [Nat.add_mul, Nat.mul_comm (s / k)]; omega
      · rw [Nat.add_mul, Nat.mul_comm (s / k)]; omega
    simp only [u64CeilDiv, hk, if_false, e1, e2]
    congr 1
    omega

/-- The value `u64_ceil_div` computes. -/
def codeCeil (s k : Nat) : Nat := (s + 1) / k + (if s % k ≠ 0 then 1 else 0)

theorem gridExtent_eq {m : ArrayMetadata} (hk : ∀ k ∈ m.chunkShape, k ≠ 0) :
    m.gridExtent = .ok (List.zipWith codeCeil m.shape m.chunkShape) := by
  unfold ArrayMetadata.gridExtent
  rw [zipOutcome_ok (g := codeCeil)]
  intro i a b _ hb
  simp [u64CeilDiv, hk b (List.mem_of_getElem? hb), codeCeil]

theorem codeCeil_eq {s k : Nat} (hk : k ≠ 0) :
    codeCeil s k = (s + k - 1) / k + if s % k = k - 1 then 1 else 0 := by
  obtain ⟨n, hn, h⟩ := u64CeilDiv_spec (s := s) hk
  have h2 : n = (s + k - 1) / k := by
    apply Nat.le_antisymm
    · apply hn.2
      rcases Nat.lt_or_ge ((s + k - 1) / k * k) s with h | h
      · exact absurd ((lt_ceil_iff hk).mpr h) (Nat.lt_irrefl _)
      · exact h
    · rcases Nat.lt_or_ge n ((s + k - 1) / k) with h | h
      · have := (lt_ceil_iff hk).mp h
        have := hn.1
        omega
      · exact h
  simp only [u64CeilDiv, hk, if_false, Outcome.ok.injEq] at h
  rw [← h2]
  exact h

/-! ## C12 -/

/-- **C12 (partial).** Along each dimension `get_grid_extent` returns the least number of chunks that
cover the array, except that it returns one more when the length is one short of a multiple of the
chunk size. The property holds exactly for the lengths that are not. -/
theorem C12_partial (m : ArrayMetadata) (hl : m.shape.length = m.chunkShape.length)
    (hk : ∀ k ∈ m.chunkShape, k ≠ 0) :
    ∃ e, m.gridExtent = .ok e ∧ e.length = m.shape.length ∧
      ∀ i s k : Nat, m.shape[i]? = some s → m.chunkShape[i]? = some k →
        ∃ n, LeastCover s k n ∧ e[i]? = some (n + if s % k = k - 1 then 1 else 0) := by
  refine ⟨_, gridExtent_eq hk, by simp [hl], ?_⟩
  intro i s k hs hk'
  obtain ⟨n, hn, h⟩ := u64CeilDiv_spec (s := s) (hk k (List.mem_of_getElem? hk'))
  refine ⟨n, hn, ?_⟩
  have hk0 := hk k (List.mem_of_getElem? hk')
  rw [List.getElem?_zipWith, hs, hk']
  simp only [u64CeilDiv, hk0, if_false, Outcome.ok.injEq] at h
  simp only [codeCeil, h]

example : ({ Demo.arr with shape := [101, 4], chunkShape := [50, 3] } : ArrayMetadata).gridExtent
    = .ok [3, 2] ∧ LeastCover 101 50 3 ∧ LeastCover 4 3 2 :=
  ⟨by decide, ⟨by decide, fun n hn => by omega⟩, ⟨by decide, fun n hn => by omega⟩⟩

/-- **C12 (violated).** For a dimension of 99 in chunks of 50 the extent is 3, though 2 chunks cover
it. -/
theorem C12_violated :
    ({ Demo.arr with shape := [99], chunkShape := [50] } : ArrayMetadata).gridExtent = .ok [3] ∧
    LeastCover 99 50 2 := ⟨by decide, by decide, fun n hn => by omega⟩

/-- **C12 (exact).** The claim holds for an array if and only if no length is one short of a multiple of its chunk size;
with chunks of size 1 it never does. -/
theorem C12_exact (m : ArrayMetadata) (hl : m.shape.length = m.chunkShape.length) (hk : ∀ k ∈ m.chunkShape, k ≠ 0) :
    (∃ e, m.gridExtent = .ok e ∧ e.length = m.shape.length ∧
      ∀ i s k : Nat, m.shape[i]? = some s → m.chunkShape[i]? = some k → ∃ n, e[i]? = some n ∧ LeastCover s k n) ↔
    ∀ i s k : Nat, m.shape[i]? = some s → m.chunkShape[i]? = some k → ¬ k ∣ s + 1 := by
  obtain ⟨e, h1, h2, h3⟩ := C12_partial m hl hk
  have hdvd : ∀ s k : Nat, k ≠ 0 → (k ∣ s + 1 ↔ s % k = k - 1) := by
    intro s k h0
    have e := Nat.div_add_mod s k
    have hlt := Nat.mod_lt s (Nat.pos_of_ne_zero h0)
    constructor
    · rintro ⟨c, hc⟩
      have : s = k * (c - 1) + (k - 1) := by
        have hc0 : c ≠ 0 := by rintro rfl; simp at hc
        obtain ⟨c', rfl⟩ := Nat.exists_eq_succ_of_ne_zero hc0
        rw [Nat.mul_succ] at hc
        simp only [Nat.succ_sub_one]
        omega
      rw [this, Nat.mul_add_mod, Nat.mod_eq_of_lt (by omega)]
    · intro h
      exact ⟨s / k + 1, by rw [Nat.mul_add]; omega⟩
  constructor
  · rintro ⟨e', h1', _, h3'⟩ i s k hs hc hd
    rw [h1] at h1'
    cases h1'
    obtain ⟨n, hn, en⟩ := h3 i s k hs hc
    obtain ⟨n', en', hn'⟩ := h3' i s k hs hc
    rw [en, if_pos ((hdvd s k (hk k (List.mem_of_getElem? hc))).mp hd), Option.some.injEq] at en'
    have := hn'.2 n hn.1
    omega
  · intro h
    refine ⟨e, h1, h2, fun i s k hs hc => ?_⟩
    obtain ⟨n, hn, en⟩ := h3 i s k hs hc
    rw [if_neg (fun x => h i s k hs hc ((hdvd s k (hk k (List.mem_of_getElem? hc))).mpr x))] at en
    exact ⟨n, en, hn⟩

/-- Lengths for which the claim holds, and for which it does not. -/
example : (¬ 50 ∣ 101 + 1) ∧ (¬ 3 ∣ 4 + 1) ∧ 50 ∣ 99 + 1 := by decide

/-! ## C13 -/

/-- The comparison of `in_bounds`, dimension by dimension. -/
def Bounded : List Nat → List Nat → List Nat → Prop
  | s :: ss, k :: ks, c :: cs => c < codeCeil s k ∧ Bounded ss ks cs
  | [], [], [] => True
  | _, _, _ => False

theorem allBelow_iff {s k c : List Nat} (h1 : s.length = k.length) (h2 : s.length = c.length) :
    allBelow (List.zipWith codeCeil s k) c = true ↔ Bounded s k c := by
  induction s generalizing k c with
  | nil => cases k <;> cases c <;> simp_all [allBelow, Bounded]
  | cons a s ih =>
    cases k with
    | nil => simp at h1
    | cons b k =>
      cases c with
      | nil => simp at h2
      | cons d c => simp [allBelow, Bounded, ih (k := k) (c := c) (by simpa using h1) (by simpa using h2)]

theorem Bounded.length {s k c : List Nat} (h : Bounded s k c) : s.length = c.length := by
  induction s generalizing k c with
  | nil => cases k <;> cases c <;> simp_all [Bounded]
  | cons a s ih =>
    cases k <;> cases c <;> simp_all [Bounded]
    exact ih h.2

theorem inBounds_iff {m : ArrayMetadata} {c : List Nat} (hl : m.shape.length = m.chunkShape.length)
    (hk : ∀ k ∈ m.chunkShape, k ≠ 0) :
    m.inBounds c = .ok true ↔ Bounded m.shape m.chunkShape c := by
  unfold ArrayMetadata.inBounds
  split
  · rename_i h
    rw [gridExtent_eq hk]
    simp [allBelow_iff hl h]
  · rename_i h
    simp only [Outcome.ok.injEq, Bool.false_eq_true, false_iff]
    exact fun hb => h hb.length

theorem bounded_of_starts {s k c : List Nat} (hk : ∀ x ∈ k, x ≠ 0) (h : Starts s k c) :
    Bounded s k c := by
  induction s generalizing k c with
  | nil => cases k <;> cases c <;> simp_all [Starts, Bounded]
  | cons a s ih =>
    cases k <;> cases c <;> simp only [Starts] at h
    rename_i b k d c
    refine ⟨?_, ih (fun x hx => hk x (by simp [hx])) h.2⟩
    have hb := hk b (by simp)
    rw [codeCeil_eq hb]
    have := (lt_ceil_iff hb).mpr h.1
    omega

theorem inBounds_ok {m : ArrayMetadata} {c : List Nat} (hk : ∀ k ∈ m.chunkShape, k ≠ 0) :
    ∃ b, m.inBounds c = .ok b := by
  unfold ArrayMetadata.inBounds
  rw [gridExtent_eq hk]
  split <;> exact ⟨_, rfl⟩

/-- **C13 (partial).** Every chunk of the array is in bounds; a position with the wrong number of
coordinates is not; and if no dimension is one short of a multiple of its chunk size, the positions
in bounds are exactly the chunks of the array. In general a position in bounds starts at most one
element past the end of the array. Missing: exactness in the remaining case (see `C13_violated`). -/
theorem C13_partial (m : ArrayMetadata) (c : List Nat) (hl : m.shape.length = m.chunkShape.length)
    (hk : ∀ k ∈ m.chunkShape, k ≠ 0) :
    (OverlapsArray m c → m.inBounds c = .ok true) ∧
    (c.length ≠ m.shape.length → m.inBounds c = .ok false) ∧
    (Exact m → (m.inBounds c = .ok true ↔ OverlapsArray m c)) ∧
    (m.inBounds c = .ok true → ∀ i x s k : Nat, c[i]? = some x → m.shape[i]? = some s →
      m.chunkShape[i]? = some k → x * k ≤ s + 1) := by
  refine ⟨?_, ?_, ?_, ?_⟩
  · intro h
    exact (inBounds_iff hl hk).mpr (bounded_of_starts hk ((starts_iff hl hk).mp h))
  · intro h
    unfold ArrayMetadata.inBounds
    rw [if_neg (fun h' => h h'.symm)]
  · intro hex
    rw [inBounds_iff hl hk, OverlapsArray, starts_iff hl hk]
    refine ⟨?_, bounded_of_starts hk⟩
    revert hl hk hex
    unfold Exact
    generalize m.shape = s
    generalize m.chunkShape = k
    intro hl hk hex hb
    induction s generalizing k c with
    | nil => cases k <;> cases c <;> simp_all [Starts, Bounded]
    | cons a s ih =>
      cases k <;> cases c <;> simp only [Bounded] at hb
      rename_i b k d c
      have hb0 := hk b (by simp)
      refine ⟨?_, ih c k (by simpa using hl) (fun x hx => hk x (by simp [hx]))
        (fun i s k hs hk => hex (i + 1) s k (by simpa using hs) (by simpa using hk)) hb.2⟩
      have h1 := hb.1
      rw [codeCeil_eq hb0, if_neg (hex 0 a b rfl rfl)] at h1
      exact (lt_ceil_iff hb0).mp h1
  · rw [inBounds_iff hl hk]
    revert hl hk
    generalize m.shape = s
    generalize m.chunkShape = k
    intro hl hk hb
    induction s generalizing k c with
    | nil => simp
    | cons a s ih =>
      cases k <;> cases c <;> simp only [Bounded] at hb
      rename_i b k d c
      have hb0 := hk b (by simp)
      intro i x s' k' hx hs hk'
      cases i with
      | zero =>
        simp only [List.getElem?_cons_zero, Option.some.injEq] at hx hs hk'
        subst hx hs hk'
        have h1 := hb.1
        rw [codeCeil_eq hb0] at h1
        split at h1
        · rename_i hm
          have h2 : d ≤ (a + b - 1) / b := by omega
          have h3 : d * b ≤ (a + b - 1) / b * b := Nat.mul_le_mul_right _ h2
          have h4 := Nat.div_add_mod a b
          have h5 := Nat.div_mul_le_self (a + b - 1) b
          rcases Nat.lt_or_ge (a / b + 1) d with h6 | h6
          · have h7 : (a / b + 2) * b ≤ d * b := Nat.mul_le_mul_right _ h6
            rw [Nat.add_mul, Nat.mul_comm (a / b)] at h7
            omega
          · have h7 : d * b ≤ (a / b + 1) * b := Nat.mul_le_mul_right _ h6
            rw [Nat.add_mul, Nat.mul_comm (a / b)] at h7
            omega
        · have := (lt_ceil_iff hb0).mp h1
          omega
      | succ i =>
        exact ih c k (by simpa using hl) (fun x hx => hk x (by simp [hx])) hb.2 i x s' k'
          (by simpa using hx) (by simpa using hs) (by simpa using hk')

example : OverlapsArray { Demo.arr with shape := [101, 4], chunkShape := [50, 3] } [2, 1] ∧
    Exact { Demo.arr with shape := [101, 4], chunkShape := [50, 3] } := by
  refine ⟨⟨[100, 3], by simp [Inside], by simp [Covers]⟩, ?_⟩
  intro i s k hs hk
  match i with
  | 0 => simp at hs hk; subst hs hk; decide
  | 1 => simp at hs hk; subst hs hk; decide
  | n + 2 => simp at hs

/-- **C13 (violated).** For a dimension of 99 in chunks of 50, position 2 is in bounds though its
chunk starts at 100. -/
theorem C13_violated :
    ({ Demo.arr with shape := [99], chunkShape := [50] } : ArrayMetadata).inBounds [2] = .ok true ∧
    ¬ OverlapsArray { Demo.arr with shape := [99], chunkShape := [50] } [2] := by
  refine ⟨by decide, ?_⟩
  rintro ⟨p, h1, h2⟩
  match p, h1, h2 with
  | [x], h1, h2 => simp [Inside, Covers] at h1 h2; omega

/-! ## C15 -/

theorem yields_iff {it : CoordIter} {xs : List (List Nat)} : Yields it xs ↔ xs = it.rest := by
  constructor
  · intro h
    induction h with
    | stop h => simp only [CoordIter.next, List.head?_eq_none_iff] at h; exact h.symm
    | @step it x xs h1 h2 ih =>
      simp only [CoordIter.next] at h1 ih
      cases hr : it.rest with
      | nil => simp [hr] at h1
      | cons a r => simp [hr] at h1 ih; rw [h1, ih]
  · rintro rfl
    obtain ⟨rest, acc, tot⟩ := it
    induction rest generalizing acc with
    | nil => exact .stop rfl
    | cons a r ih => exact .step rfl (ih _)

theorem coordIter_spec {m : ArrayMetadata} (hl : m.shape.length = m.chunkShape.length)
    (hk : ∀ k ∈ m.chunkShape, k ≠ 0) (hn : m.shape ≠ []) :
    ∃ it, m.coordIter = .ok it ∧ it.rest.Pairwise (· < ·) ∧
      (∀ c, c ∈ it.rest ↔ OverlapsArray m c) ∧ it.accumulator = 0 ∧ it.total = it.rest.length ∧
      it.rest.length = (List.zipWith (fun a b => (a + b - 1) / b) m.shape m.chunkShape).prod := by
  have hne : (List.zipWith (fun a b => (a + b - 1) / b) m.shape m.chunkShape).map (coordRange 0)
      ≠ [] := by
    intro h
    have := congrArg List.length h
    simp at this
    rcases this with h | h
    · exact hn h
    · rw [h] at hl; exact hn (List.length_eq_zero_iff.mp hl)
  have hlen : (multiCartesian ((List.zipWith (fun a b => (a + b - 1) / b) m.shape m.chunkShape).map
      (coordRange 0))).length
      = (List.zipWith (fun a b => (a + b - 1) / b) m.shape m.chunkShape).prod := by
    rw [multiCartesian_eq hne, cartesian_length, List.map_map]
    congr 1
    apply List.ext_getElem <;> simp [coordRange]
  refine ⟨_, coordIter_eq hk, ?_, ?_, rfl, hlen.symm, hlen⟩
  · simp only [CoordIter.new]
    rw [multiCartesian_eq hne]
    apply cartesian_sorted
    intro r hr
    simp only [List.mem_map] at hr
    obtain ⟨c, _, rfl⟩ := hr
    exact coordRange_sorted _ _
  · intro c
    simp only [CoordIter.new]
    rw [multiCartesian_eq hne, mem_cartesian, mem_coord hl hk, OverlapsArray, starts_iff hl hk]

/-- **C15 (partial).** With at least one dimension, `coord_iter` yields, in strictly increasing
lexicographic order (so each once, the last dimension fastest), exactly the positions of the chunks
of the array. Missing: arrays without dimensions (see `C15_violated`). -/
theorem C15_partial (m : ArrayMetadata) (hl : m.shape.length = m.chunkShape.length)
    (hk : ∀ k ∈ m.chunkShape, k ≠ 0) (hn : m.shape ≠ []) :
    ∃ it xs, m.coordIter = .ok it ∧ Yields it xs ∧ xs.Pairwise (· < ·) ∧
      ∀ c, c ∈ xs ↔ OverlapsArray m c := by
  obtain ⟨it, h1, h2, h3, _⟩ := coordIter_spec hl hk hn
  exact ⟨it, it.rest, h1, yields_iff.mpr rfl, h2, h3⟩

example : ∃ it, ({ Demo.arr with shape := [99, 4], chunkShape := [50, 3] } : ArrayMetadata).coordIter
    = .ok it ∧ Yields it [[0, 0], [0, 1], [1, 0], [1, 1]] :=
  ⟨_, rfl, yields_iff.mpr (by decide)⟩

/-- **C15 (violated).** For an array without dimensions, which has one element and one chunk, nothing
is yielded. -/
theorem C15_violated : ∃ it,
    ({ Demo.arr with shape := [], chunkShape := [] } : ArrayMetadata).coordIter = .ok it ∧
    Yields it [] ∧ OverlapsArray { Demo.arr with shape := [], chunkShape := [] } [] :=
  ⟨_, rfl, yields_iff.mpr rfl, [], trivial, trivial⟩

/-! ## C14 -/

theorem prod_le_prod {s k : List Nat} (hk : ∀ x ∈ k, x ≠ 0) :
    (List.zipWith (fun a b => (a + b - 1) / b) s k).prod ≤ (List.zipWith codeCeil s k).prod := by
  induction s generalizing k with
  | nil => simp
  | cons a s ih =>
    cases k with
    | nil => simp
    | cons b k =>
      simp only [List.zipWith_cons_cons, List.prod_cons]
      refine Nat.mul_le_mul ?_ (ih (fun x hx => hk x (by simp [hx])))
      rw [codeCeil_eq (hk b (by simp))]
      omega

/-- **C14 (partial).** With at least one dimension, `get_num_chunks` is at least the number of
positions `coord_iter` yields, and equal to it if no dimension is one short of a multiple of its
chunk size. Missing: equality in the remaining case (see `C14_violated`). -/
theorem C14_partial (m : ArrayMetadata) (hl : m.shape.length = m.chunkShape.length)
    (hk : ∀ k ∈ m.chunkShape, k ≠ 0) (hn : m.shape ≠ []) :
    ∃ it xs n, m.coordIter = .ok it ∧ Yields it xs ∧ m.numChunks = .ok n ∧ xs.length ≤ n ∧
      (Exact m → n = xs.length) := by
  obtain ⟨it, h1, _, _, _, _, h2⟩ := coordIter_spec hl hk hn
  refine ⟨it, it.rest, (List.zipWith codeCeil m.shape m.chunkShape).prod, h1, yields_iff.mpr rfl,
    ?_, ?_, ?_⟩
  · simp [ArrayMetadata.numChunks, gridExtent_eq hk]
  · rw [h2]; exact prod_le_prod hk
  · intro hex
    rw [h2]
    congr 1
    apply List.ext_getElem
    · simp
    · intro i hi1 hi2
      simp only [List.length_zipWith] at hi1
      simp only [List.getElem_zipWith]
      rw [codeCeil_eq (hk _ (List.getElem_mem (by omega))), if_neg, Nat.add_zero]
      exact hex i _ _ (List.getElem?_eq_getElem (by omega)) (List.getElem?_eq_getElem (by omega))

example : ({ Demo.arr with shape := [101, 4], chunkShape := [50, 3] } : ArrayMetadata).numChunks
    = .ok 6 := by decide

/-- **C14 (violated).** For a dimension of 99 in chunks of 50 there are 3 chunks by one count and 2
positions by the other; for an array without dimensions 1 and 0. -/
theorem C14_violated :
    (∃ it, ({ Demo.arr with shape := [99], chunkShape := [50] } : ArrayMetadata).coordIter = .ok it ∧
      Yields it [[0], [1]] ∧
      ({ Demo.arr with shape := [99], chunkShape := [50] } : ArrayMetadata).numChunks = .ok 3) ∧
    (∃ it, ({ Demo.arr with shape := [], chunkShape := [] } : ArrayMetadata).coordIter = .ok it ∧
      Yields it [] ∧
      ({ Demo.arr with shape := [], chunkShape := [] } : ArrayMetadata).numChunks = .ok 1) :=
  ⟨⟨_, rfl, yields_iff.mpr (by decide), by decide⟩, ⟨_, rfl, yields_iff.mpr rfl, by decide⟩⟩

/-! ## C16 -/

/-- The chunk shares a point with both the box and the array. -/
def Spec.OverlapsBoth (m : ArrayMetadata) (b : BBox) (c : List Nat) : Prop :=
  ∃ p, Inside m.shape p ∧ InBox b.offset b.shape p ∧ Covers m.chunkShape c p

/-- The box shares a point with the array. -/
def Spec.BoxMeetsArray (m : ArrayMetadata) (b : BBox) : Prop :=
  ∃ p, Inside m.shape p ∧ InBox b.offset b.shape p

theorem touches_of_overlap {s k o w c p : List Nat} (hk : ∀ x ∈ k, x ≠ 0) (hl : s.length = k.length)
    (h1 : Inside s p) (h2 : InBox o w p) (h3 : Covers k c p) : Touches s k o w c := by
  obtain ⟨_, rfl⟩ := (covers_iff hk).mp h3
  exact touches_of_point hk hl h1 h2

theorem overlap_of_touches {s k o w c : List Nat} (hk : ∀ x ∈ k, x ≠ 0)
    (hne : ∃ p, Inside s p ∧ InBox o w p) (h : Touches s k o w c) :
    ∃ p, Inside s p ∧ InBox o w p ∧ Covers k c p := by
  induction s generalizing k o w c with
  | nil =>
    cases k <;> cases o <;> cases w <;> cases c <;> simp_all [Touches]
    exact ⟨[], trivial, trivial, trivial⟩
  | cons a s ih =>
    cases k <;> cases o <;> cases w <;> cases c <;> simp only [Touches] at h
    rename_i b k d o e w f c
    obtain ⟨q, h1, h2⟩ := hne
    cases q with
    | nil => simp [Inside] at h1
    | cons x q =>
      simp only [Inside, InBox] at h1 h2
      obtain ⟨p, hp1, hp2, hp3⟩ := ih (fun x hx => hk x (by simp [hx])) ⟨q, h1.2, h2.2⟩ h.2
      have hb := Nat.pos_of_ne_zero (hk b (by simp))
      have h3 := h.1
      refine ⟨max d (f * b) :: p, ⟨by omega, hp1⟩, ⟨by omega, hp2⟩, ⟨by omega, ?_⟩, hp3⟩
      have : (f + 1) * b = f * b + b := by rw [Nat.add_mul, Nat.one_mul]
      omega

/-- **C16 (partial).** If the box and the array share a point, `bounded_coord_iter` yields, in
strictly increasing lexicographic order, exactly the chunks that share a point with both; and in
every case it yields all of those, at most once each. Missing: that nothing else is yielded when box
and array do not meet (see `C16_violated`), and arrays without dimensions. -/
theorem C16_partial (m : ArrayMetadata) (b : BBox) (hl : m.shape.length = m.chunkShape.length)
    (hk : ∀ k ∈ m.chunkShape, k ≠ 0) (hn : m.shape ≠ [])
    (hb : b.offset.length = m.shape.length) (hb' : b.shape.length = m.shape.length) :
    ∃ it xs, m.boundedCoordIter b = .ok it ∧ Yields it xs ∧ xs.Pairwise (· < ·) ∧
      (∀ c, OverlapsBoth m b c → c ∈ xs) ∧
      (BoxMeetsArray m b → ∀ c, c ∈ xs ↔ OverlapsBoth m b c) := by
  obtain ⟨it, hit⟩ := boundedCoordIter_exists hb hk
  have hmem := fun c => mem_boundedCoordIter (c := c) hl (by omega) hn hit
  obtain ⟨_, _, hr, _⟩ := boundedCoordIter_ok hl (by omega) hit
  have hlen := boundedRanges_length (o := b.offset) (w := b.shape) hl hb hb'
  have hne : boundedRanges m.shape m.chunkShape b.offset b.shape ≠ [] := by
    intro h
    rw [h] at hlen
    exact hn (List.length_eq_zero_iff.mp hlen.symm)
  refine ⟨it, it.rest, hit, yields_iff.mpr rfl, ?_, ?_, ?_⟩
  · rw [hr, multiCartesian_eq hne]
    exact cartesian_sorted boundedRanges_sorted
  · rintro c ⟨p, h1, h2, h3⟩
    exact (hmem c).mpr (touches_of_overlap hk hl h1 h2 h3)
  · intro hm c
    rw [hmem c]
    exact ⟨overlap_of_touches hk hm, fun ⟨p, h1, h2, h3⟩ => touches_of_overlap hk hl h1 h2 h3⟩

example : ∃ it, ({ Demo.arr with shape := [100, 4], chunkShape := [50, 3] } :
      ArrayMetadata).boundedCoordIter ⟨[49, 3], [10, 100]⟩ = .ok it ∧ Yields it [[0, 1], [1, 1]] ∧
    BoxMeetsArray { Demo.arr with shape := [100, 4], chunkShape := [50, 3] } ⟨[49, 3], [10, 100]⟩ :=
  ⟨_, rfl, yields_iff.mpr (by decide), [49, 3], by simp [Inside], by simp [InBox]⟩

/-- **C16 (violated).** A box that starts beyond the array at an offset that is not a multiple of the
chunk size yields a position outside the grid; so does an empty box inside the array. -/
theorem C16_violated :
    (∃ it, ({ Demo.arr with shape := [100], chunkShape := [50] } : ArrayMetadata).boundedCoordIter
        ⟨[175], [10]⟩ = .ok it ∧ Yields it [[3]]) ∧
    ¬ OverlapsBoth { Demo.arr with shape := [100], chunkShape := [50] } ⟨[175], [10]⟩ [3] ∧
    (∃ it, ({ Demo.arr with shape := [100], chunkShape := [50] } : ArrayMetadata).boundedCoordIter
        ⟨[10], [0]⟩ = .ok it ∧ Yields it [[0]]) ∧
    ¬ OverlapsBoth { Demo.arr with shape := [100], chunkShape := [50] } ⟨[10], [0]⟩ [0] := by
  refine ⟨⟨_, rfl, yields_iff.mpr (by decide)⟩, ?_, ⟨_, rfl, yields_iff.mpr (by decide)⟩, ?_⟩
  · rintro ⟨p, h1, h2, h3⟩
    match p, h1, h2, h3 with
    | [x], h1, h2, h3 => simp [Inside, InBox] at h1 h2; omega
  · rintro ⟨p, h1, h2, h3⟩
    match p, h1, h2, h3 with
    | [x], h1, h2, h3 => simp [InBox] at h2; omega

/-! ## C17 -/

theorem nextN_eq (n : Nat) (it : CoordIter) :
    nextN n it = ⟨it.rest.drop n, it.accumulator + n, it.total⟩ := by
  induction n generalizing it with
  | zero => rfl
  | succ n ih =>
    simp only [nextN, ih, CoordIter.next]
    congr 1
    · simp [List.drop_tail]
    · omega

/-- **C17 (partial).** With at least one dimension, after any number of calls of `next` up to the
exhaustion of the items, `len()` is the number of items still to come, in debug and release builds.
Missing: after `next` has returned `None`, and arrays without dimensions (see `C17_violated`). -/
theorem C17_partial (m : ArrayMetadata) (b : BBox) (checks : Bool)
    (hl : m.shape.length = m.chunkShape.length)
    (hn : m.shape ≠ []) (hb : b.offset.length = b.shape.length) (it : CoordIter)
    (hit : m.coordIter = .ok it ∨ m.boundedCoordIter b = .ok it)
    (xs : List (List Nat)) (hxs : Yields it xs) (n : Nat) (hn' : n ≤ xs.length) :
    ∃ ys, Yields (nextN n it) ys ∧ (nextN n it).len checks = .ok ys.length ∧
      ys.length = xs.length - n := by
  rw [yields_iff] at hxs
  subst hxs
  have key : it.accumulator = 0 ∧ it.total = it.rest.length := by
    rcases hit with hit | hit
    · obtain ⟨hk, _⟩ := coordIter_ok hl hit
      obtain ⟨it', h1, _, _, h2, h3, _⟩ := coordIter_spec hl hk hn
      rw [hit] at h1
      cases h1
      exact ⟨h2, h3⟩
    · obtain ⟨h1, h2, h3, h4, h5⟩ := boundedCoordIter_ok hl hb hit
      have hlen := boundedRanges_length (o := b.offset) (w := b.shape) hl h1 (by omega)
      have hne : boundedRanges m.shape m.chunkShape b.offset b.shape ≠ [] := by
        intro h
        rw [h] at hlen
        exact hn (List.length_eq_zero_iff.mp hlen.symm)
      refine ⟨h4, ?_⟩
      rw [h5, h3, multiCartesian_eq hne, cartesian_length]
  refine ⟨it.rest.drop n, yields_iff.mpr (by rw [nextN_eq]), ?_, by simp⟩
  rw [nextN_eq]
  simp only [CoordIter.len, key.1, key.2, List.length_drop]
  rw [if_pos (by omega)]
  congr 1
  omega

example : ∃ it, ({ Demo.arr with shape := [99, 4], chunkShape := [50, 3] } : ArrayMetadata).coordIter
    = .ok it ∧ (nextN 3 it).len true = .ok 1 := ⟨_, rfl, by decide⟩

/-- **C17 (violated).** Once `next` has returned `None`, `len()` panics in a debug build and is
`usize::MAX` in a release build; for an array without dimensions `len()` is 1 though nothing comes. -/
theorem C17_violated :
    (∃ it, Demo.arr.coordIter = .ok it ∧ (nextN 3 it).next.1 = none ∧
      (nextN 4 it).len true = .panic ∧ (nextN 4 it).len false = .ok (2 ^ 64 - 1)) ∧
    (∃ it, ({ Demo.arr with shape := [], chunkShape := [] } : ArrayMetadata).coordIter = .ok it ∧
      Yields it [] ∧ it.len true = .ok 1) :=
  ⟨⟨_, rfl, by decide, by decide, by decide⟩, ⟨_, rfl, yields_iff.mpr rfl, by decide⟩⟩

/-! ## C18 -/

theorem inBox_sub {ao as o p : List Nat} (ha : ao.length = as.length) (ho : o.length = ao.length)
    (hp : p.length = o.length)
    (hle : ∀ i x y : Nat, o[i]? = some x → ao[i]? = some y → x ≤ y) :
    InBox (List.zipWith (· - ·) ao o) as p ↔ InBox ao as (shift o p) := by
  induction ao generalizing o as p with
  | nil => cases o <;> cases as <;> cases p <;> simp_all [shift]
  | cons x ao ih =>
    cases o with
    | nil => simp at ho
    | cons y o =>
      cases as with
      | nil => simp at ha
      | cons s as =>
        cases p with
        | nil => simp at hp
        | cons q p =>
          have h0 := hle 0 y x rfl rfl
          have := ih (as := as) (o := o) (p := p) (by simpa using ha) (by simpa using ho)
            (by simpa using hp)
            (fun i x y hx hy => hle (i + 1) x y (by simpa using hx) (by simpa using hy))
          simp only [List.zipWith_cons_cons, InBox, shift, this]
          constructor
          · rintro ⟨h1, h2⟩; exact ⟨by omega, h2⟩
          · rintro ⟨h1, h2⟩; exact ⟨by omega, h2⟩

theorem sub_panics {ao o : List Nat} {i x y : Nat} (hx : o[i]? = some x) (hy : ao[i]? = some y)
    (hlt : y < x) : zipOutcome checkedSub ao o = .panic := by
  induction ao generalizing o i with
  | nil => simp at hy
  | cons z ao ih =>
    cases o with
    | nil => simp at hx
    | cons w o =>
      simp only [zipOutcome]
      cases i with
      | zero =>
        simp at hx hy
        subst hx hy
        simp [checkedSub, Nat.not_le.mpr hlt]
      | succ i =>
        rw [ih (by simpa using hx) (by simpa using hy)]
        simp only [checkedSub]
        split <;> rfl

/-- **C18.** Intersection, emptiness and difference of boxes in terms of points. -/
theorem C18 (a b : BBox) (ha : BBox.new a.offset a.shape = .ok a)
    (hb : BBox.new b.offset b.shape = .ok b) (hab : a.offset.length = b.offset.length) :
    (∃ c, a.intersect b = .ok c ∧
      ∀ p, InBox c.offset c.shape p ↔ InBox a.offset a.shape p ∧ InBox b.offset b.shape p) ∧
    (a.isEmpty = true ↔ ∀ p, ¬ InBox a.offset a.shape p) ∧
    (∀ o : List Nat, o.length = a.offset.length →
      ((∀ i x y : Nat, o[i]? = some x → a.offset[i]? = some y → x ≤ y) →
        ∃ d, a.sub o = .ok d ∧ ∀ p, p.length = o.length →
          (InBox d.offset d.shape p ↔ InBox a.offset a.shape (shift o p))) ∧
      ((∃ i x y : Nat, o[i]? = some x ∧ a.offset[i]? = some y ∧ y < x) → a.sub o = .panic)) := by
  replace ha : a.offset.length = a.shape.length := by
    unfold BBox.new at ha; split at ha <;> simp_all
  have hb : b.offset.length = b.shape.length := by
    unfold BBox.new at hb; split at hb <;> simp_all
  refine ⟨?_, ?_, ?_⟩
  · refine ⟨_, by simp only [BBox.intersect]; rw [if_pos hab], ?_⟩
    intro p
    exact inBox_isect ha (by omega) (by omega)
  · exact inBox_empty ha
  · intro o ho
    obtain ⟨ao, as⟩ := a
    simp only at ho ha ⊢
    clear hab
    constructor
    · intro hle
      refine ⟨⟨List.zipWith (· - ·) ao o, as⟩, ?_, ?_⟩
      · simp only [BBox.sub]
        rw [zipOutcome_ok (g := (· - ·))]
        · rfl
        · intro i x y hx hy
          have := hle i y x hy hx
          simp [checkedSub, this]
      · intro p hp
        exact inBox_sub ha ho hp hle
    · rintro ⟨i, x, y, hx, hy, hlt⟩
      simp only [BBox.sub]
      suffices h : zipOutcome checkedSub ao o = .panic by rw [h]; rfl
      exact sub_panics hx hy hlt

example : ∃ c, (BBox.mk [0, 0] [5, 8]).intersect ⟨[3, 3], [5, 3]⟩ = .ok c ∧
    InBox c.offset c.shape [4, 5] ∧ ¬ InBox c.offset c.shape [4, 6] :=
  ⟨_, rfl, by simp [isectLoop, InBox], by simp [isectLoop, InBox]⟩

/-! ## C19 -/

/-- **C19.** The union contains both boxes, and every box that contains both non-empty boxes contains
the union. -/
theorem C19 (a b : BBox) (ha : BBox.new a.offset a.shape = .ok a)
    (hb : BBox.new b.offset b.shape = .ok b) (hab : a.offset.length = b.offset.length)
    (hne : ∃ p, InBox a.offset a.shape p) (hne' : ∃ p, InBox b.offset b.shape p) :
    ∃ c, a.union b = .ok c ∧
      (∀ p, InBox a.offset a.shape p ∨ InBox b.offset b.shape p → InBox c.offset c.shape p) ∧
      ∀ d : BBox, (∀ p, InBox a.offset a.shape p ∨ InBox b.offset b.shape p →
        InBox d.offset d.shape p) → ∀ p, InBox c.offset c.shape p → InBox d.offset d.shape p := by
  have ha : a.offset.length = a.shape.length := by
    unfold BBox.new at ha; split at ha <;> simp_all
  have hb : b.offset.length = b.shape.length := by
    unfold BBox.new at hb; split at hb <;> simp_all
  refine ⟨_, by simp only [BBox.union]; rw [if_pos hab], ?_, ?_⟩
  · exact inBox_union ha (by omega) (by omega)
  · intro d hd p hp
    exact union_least ha (by omega) (by omega) hne hne' hd p hp

example : ∃ c, (BBox.mk [0, 0] [5, 8]).union ⟨[3, 3], [5, 3]⟩ = .ok c ∧ c = ⟨[0, 0], [8, 8]⟩ ∧
    InBox [0, 0] [5, 8] [1, 1] ∧ InBox [3, 3] [5, 3] [3, 3] :=
  ⟨_, rfl, by decide, by simp [InBox], by simp [InBox]⟩

end Zarr
