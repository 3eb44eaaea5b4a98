import Verif.Props.ChunkMap
/-!
# Which separators keep the chunk keys of an array apart: C04
-/

namespace Zarr

open Spec

/-- The characters that are not digits. -/
theorem isDigit_false {c : Char} : isDigit c = false ↔ c.toNat < 48 ∨ 57 < c.toNat := by
  unfold isDigit
  rw [Bool.eq_false_iff]
  simp
  omega

/-- With a non-digit anywhere in the separator, coordinates of a known number can be read back. -/
theorem joinCoords_injective_length {sep : Str} {x : Char} (hx : x ∈ sep) (hd : isDigit x = false) :
    ∀ (pos pos' : List Nat), pos.length = pos'.length → joinCoords sep pos = joinCoords sep pos' → pos = pos' := by
  obtain ⟨d, y, r, hsep, hdig, hy⟩ : ∃ d y r, sep = d ++ y :: r ∧ (∀ c ∈ d, isDigit c = true) ∧ isDigit y = false := by
    induction sep with
    | nil => simp at hx
    | cons a as ih =>
      by_cases ha : isDigit a = true
      · have : x ∈ as := by
          rcases List.mem_cons.mp hx with rfl | h
          · rw [ha] at hd; simp at hd
          · exact h
        obtain ⟨d, y, r, e, h1, h2⟩ := ih this
        refine ⟨a :: d, y, r, by rw [e]; rfl, ?_, h2⟩
        intro c hc
        rcases List.mem_cons.mp hc with rfl | h
        · exact ha
        · exact h1 c h
      · exact ⟨[], a, as, rfl, by simp, by simpa using ha⟩
  have cut : ∀ (n : Nat) (t : Str), (dec n ++ sep ++ t).takeWhile isDigit = dec n ++ d ∧
      (dec n ++ sep ++ t).dropWhile isDigit = y :: (r ++ t) := by
    intro n t
    have e : dec n ++ sep ++ t = (dec n ++ d) ++ y :: (r ++ t) := by rw [hsep]; simp
    have hall : ∀ c ∈ dec n ++ d, isDigit c = true := by
      intro c hc
      rcases List.mem_append.mp hc with h | h
      · exact dec_digits n c h
      · exact hdig c h
    rw [e, List.takeWhile_append_of_pos hall, List.dropWhile_append_of_pos hall]
    simp [hy]
  intro pos
  induction pos with
  | nil => intro pos' hl _; cases pos' with
    | nil => rfl
    | cons c cs => simp at hl
  | cons c cs ih =>
    intro pos' hl h
    cases pos' with
    | nil => simp at hl
    | cons c' cs' =>
      have hl : cs.length = cs'.length := by simpa using hl
      cases cs with
      | nil =>
        cases cs' with
        | nil => rw [dec_injective (show dec c = dec c' from h)]
        | cons _ _ => simp at hl
      | cons b bs =>
        cases cs' with
        | nil => simp at hl
        | cons b' bs' =>
          simp only [joinCoords] at h
          have t1 := cut c (joinCoords sep (b :: bs))
          have t2 := cut c' (joinCoords sep (b' :: bs'))
          rw [h] at t1
          have e1 := List.append_cancel_right (t1.1.symm.trans t2.1)
          have e2 := (List.cons.inj (t1.2.symm.trans t2.2)).2
          rw [dec_injective e1, ih _ hl (List.append_cancel_left e2)]

theorem decAux_fuel (f n : Nat) (h : n < f) : decAux f n = dec n := by
  have : ∀ f g n, n < f → n < g → decAux f n = decAux g n := by
    intro f
    induction f with
    | zero => intro g n h; omega
    | succ f ih =>
      intro g n h h'
      cases g with
      | zero => omega
      | succ g =>
        unfold decAux
        split
        · rfl
        · rw [ih g (n / 10) (by omega) (by omega)]
  exact this f (n + 1) n h (by omega)

theorem dec_snoc {n d : Nat} (hn : 0 < n) (hd : d < 10) : dec (n * 10 + d) = dec n ++ [digitChar d] := by
  rw [show dec (n * 10 + d) = decAux (n * 10 + d + 1) (n * 10 + d) from rfl, decAux, if_neg (by omega),
    show (n * 10 + d) / 10 = n by omega, show (n * 10 + d) % 10 = d by omega, decAux_fuel _ _ (by omega)]

theorem digitChar_of_isDigit {c : Char} (h : isDigit c = true) : ∃ d, d < 10 ∧ c = digitChar d := by
  simp only [isDigit, Bool.and_eq_true, decide_eq_true_eq] at h
  refine ⟨c.toNat - 48, by omega, ?_⟩
  rw [digitChar, show 48 + (c.toNat - 48) = c.toNat by omega, Char.ofNat_toNat]

/-- Digits after a positive number are the digits of a number. -/
theorem dec_append {n : Nat} (hn : 0 < n) (s : Str) (hs : ∀ c ∈ s, isDigit c = true) :
    ∃ k, dec k = dec n ++ s ∧ n ≤ k ∧ k < (n + 1) * 10 ^ s.length := by
  induction s generalizing n with
  | nil => exact ⟨n, by simp, Nat.le_refl _, by simp⟩
  | cons c cs ih =>
    obtain ⟨d, hd, rfl⟩ := digitChar_of_isDigit (hs c (by simp))
    obtain ⟨k, h1, h2, h3⟩ := ih (n := n * 10 + d) (by omega) (fun c hc => hs c (by simp [hc]))
    refine ⟨k, by rw [h1, dec_snoc hn hd]; simp, by omega, ?_⟩
    refine Nat.lt_of_lt_of_le h3 ?_
    rw [List.length_cons, Nat.pow_succ, ← Nat.mul_assoc, Nat.mul_right_comm]
    exact Nat.mul_le_mul_right _ (by omega)

/-- **C04** (one array). Chunks of an array of two or more dimensions have different keys if and only if the separator has a
character in it that is not a digit. (Of separators longer than 17 bytes, which also fail when they are periodic, only one
direction.) -/
theorem C04_exact (path : Str) (m : ArrayMetadata) (n : Nat) (hn : 2 ≤ n) :
    ((∃ c ∈ m.separator, c.toNat < 48 ∨ 57 < c.toNat) → ∀ pos pos' : List Nat, pos.length = n → pos'.length = n →
      chunkKey path m pos = chunkKey path m pos' → pos = pos') ∧
    ((∀ c ∈ m.separator, 48 ≤ c.toNat ∧ c.toNat ≤ 57) → m.separator.length ≤ 17 → ∃ pos pos' : List Nat,
      pos.length = n ∧ pos'.length = n ∧ (∀ c ∈ pos ++ pos', c < 2 ^ 64) ∧
      chunkKey path m pos = chunkKey path m pos' ∧ pos ≠ pos') := by
  constructor
  · rintro ⟨c, hc, hd⟩ pos pos' h1 h2 hk
    rw [chunkKey_eq, chunkKey_eq] at hk
    have hk := List.append_cancel_left hk
    exact joinCoords_injective_length hc (isDigit_false.mpr hd) pos pos' (h1.trans h2.symm) (by simpa using hk)
  · intro hall hlen
    have hdig : ∀ c ∈ m.separator, isDigit c = true := by
      intro c hc
      have := hall c hc
      simp [isDigit, this.1, this.2]
    obtain ⟨k, hk, hk1, hk2⟩ := dec_append (n := 1) (by omega) (m.separator ++ dec 1) (by
      intro c hc
      rcases List.mem_append.mp hc with h | h
      · exact hdig c h
      · exact dec_digits 1 c h)
    have hklt : k < 2 ^ 64 := by
      refine Nat.lt_of_lt_of_le hk2 ?_
      have h1 : (dec 1).length = 1 := by decide
      rw [List.length_append, h1]
      have : 10 ^ (m.separator.length + 1) ≤ 10 ^ 18 := Nat.pow_le_pow_right (by omega) (by omega)
      have h2 : (1 + 1) * 10 ^ 18 ≤ 2 ^ 64 := by decide
      exact Nat.le_trans (Nat.mul_le_mul_left _ this) h2
    have hkne : k ≠ 1 := by
      rintro rfl
      have := congrArg List.length hk
      simp [show (dec 1).length = 1 by decide] at this
    have hjoin : ∀ a b, joinCoords m.separator (a :: b :: List.replicate (n - 2) 0) =
        dec a ++ m.separator ++ dec b ++ (List.replicate (n - 2) (m.separator ++ dec 0)).flatten := by
      have : ∀ (j b : Nat), joinCoords m.separator (b :: List.replicate j 0) =
          dec b ++ (List.replicate j (m.separator ++ dec 0)).flatten := by
        intro j
        induction j with
        | zero => intro b; simp [joinCoords]
        | succ j ih =>
          intro b
          rw [List.replicate_succ, joinCoords, ih 0, List.replicate_succ, List.flatten_cons]
          simp
          simp
      intro a b
      rw [joinCoords, this]
      · simp
      · simp
    refine ⟨1 :: k :: List.replicate (n - 2) 0, k :: 1 :: List.replicate (n - 2) 0, by simp; omega, by simp; omega, ?_, ?_, ?_⟩
    · intro c hc
      simp only [List.mem_append, List.mem_cons, List.mem_replicate] at hc
      have : (0 : Nat) < 2 ^ 64 := by decide
      have : (1 : Nat) < 2 ^ 64 := by decide
      rcases hc with (rfl | rfl | ⟨_, rfl⟩) | (rfl | rfl | ⟨_, rfl⟩) <;> assumption
    · rw [chunkKey_eq, chunkKey_eq, hjoin, hjoin, hk]
      simp
    · intro e
      exact hkne (List.cons.inj e).1.symm

/-- A separator that begins with a digit: no two chunks share a key. -/
example (path : Str) (pos pos' : List Nat) (h : pos.length = 3) (h' : pos'.length = 3)
    (hk : chunkKey path { Demo.arr with separator := str!"1.0" } pos = chunkKey path { Demo.arr with separator := str!"1.0" } pos') :
    pos = pos' :=
  (C04_exact path _ 3 (by decide)).1 ⟨'.', by decide, by decide⟩ pos pos' h h' hk

/-- The separator `0`: chunks 1, 101 and 101, 1 share a key. -/
example : chunkKey str!"a" { Demo.arr with separator := str!"0" } [1, 101] =
    chunkKey str!"a" { Demo.arr with separator := str!"0" } [101, 1] := by decide +kernel

end Zarr
