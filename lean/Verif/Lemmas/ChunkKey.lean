import Verif.Lemmas.Path
/-! Lemmas on decimal numbers and chunk keys. -/

namespace Zarr

/-- A decimal digit character. -/
def isDigit (c : Char) : Bool := 48 ≤ c.toNat && c.toNat ≤ 57

theorem digitChar_toNat (d : Nat) (h : d < 10) : (digitChar d).toNat = 48 + d := by
  have : d = 0 ∨ d = 1 ∨ d = 2 ∨ d = 3 ∨ d = 4 ∨ d = 5 ∨ d = 6 ∨ d = 7 ∨ d = 8 ∨ d = 9 := by omega
  rcases this with rfl | rfl | rfl | rfl | rfl | rfl | rfl | rfl | rfl | rfl <;> rfl

theorem isDigit_digitChar (d : Nat) (h : d < 10) : isDigit (digitChar d) = true := by
  simp [isDigit, digitChar_toNat d h]; omega

theorem digitVal_digitChar (d : Nat) (h : d < 10) : digitVal (digitChar d) = some d := by
  simp [digitVal, digitChar_toNat d h]; omega

theorem parseDigits_append (a b : Str) (acc n : Nat) (h : parseDigits acc a = some n) :
    parseDigits acc (a ++ b) = parseDigits n b := by
  induction a generalizing acc with
  | nil => simp [parseDigits] at h; simp [h]
  | cons c cs ih =>
    simp only [parseDigits] at h
    simp only [List.cons_append, parseDigits]
    split at h
    · exact ih _ h
    · simp at h

theorem parseDigits_decAux (f n : Nat) (h : n < f) : parseDigits 0 (decAux f n) = some n := by
  induction f generalizing n with
  | zero => omega
  | succ f ih =>
    unfold decAux
    split
    · rename_i h10
      simp [parseDigits, digitVal_digitChar n h10]
    · rename_i h10
      have h1 := ih (n / 10) (by omega)
      rw [parseDigits_append _ _ _ _ h1]
      simp only [parseDigits, digitVal_digitChar (n % 10) (by omega)]
      congr 1; omega

theorem parseDigits_dec (n : Nat) : parseDigits 0 (dec n) = some n := parseDigits_decAux _ n (by omega)

theorem dec_injective {a b : Nat} (h : dec a = dec b) : a = b := by
  have h1 := parseDigits_dec a
  rw [h, parseDigits_dec b] at h1
  exact (Option.some.inj h1).symm

theorem decAux_digits (f n : Nat) : ∀ c ∈ decAux f n, isDigit c = true := by
  induction f generalizing n with
  | zero => simp [decAux]
  | succ f ih =>
    unfold decAux
    split
    · rename_i h; intro c hc; simp at hc; rw [hc]; exact isDigit_digitChar n h
    · intro c hc
      rcases List.mem_append.mp hc with hc | hc
      · exact ih _ c hc
      · simp at hc; rw [hc]; exact isDigit_digitChar _ (by omega)

theorem dec_digits (n : Nat) : ∀ c ∈ dec n, isDigit c = true := decAux_digits _ n

theorem dec_ne_nil (n : Nat) : dec n ≠ [] := by
  unfold dec decAux
  split <;> simp

theorem notMem_dec (n : Nat) (c : Char) (h : isDigit c = false) : c ∉ dec n := by
  intro hc
  rw [dec_digits n c hc] at h
  exact absurd h (by simp)

theorem dec_cons (n : Nat) : ∃ c r, dec n = c :: r ∧ isDigit c = true := by
  cases h : dec n with
  | nil => exact absurd h (dec_ne_nil n)
  | cons c r => exact ⟨c, r, rfl, dec_digits n c (by simp [h])⟩

/-- A separator that starts with a character other than a digit. -/
def NonDigitSep (sep : Str) : Prop := ∃ c r, sep = c :: r ∧ isDigit c = false

theorem takeWhile_digits (n : Nat) (r : Str) (hr : ∀ c s, r = c :: s → isDigit c = false) :
    (dec n ++ r).takeWhile isDigit = dec n ∧ (dec n ++ r).dropWhile isDigit = r := by
  rw [List.takeWhile_append_of_pos (dec_digits n), List.dropWhile_append_of_pos (dec_digits n)]
  cases r with
  | nil => simp
  | cons c s => simp [hr c s rfl]

/-- The coordinates can be read back from their text. -/
theorem joinCoords_injective {sep : Str} (hs : NonDigitSep sep) {pos pos' : List Nat}
    (h : joinCoords sep pos = joinCoords sep pos') : pos = pos' := by
  obtain ⟨s0, sr, hsep, hs0⟩ := hs
  have key : ∀ c cs, ∃ r, joinCoords sep (c :: cs) = dec c ++ r ∧
      (∀ x s, r = x :: s → isDigit x = false) ∧
      ((cs = [] ∧ r = []) ∨ (cs ≠ [] ∧ r = sep ++ joinCoords sep cs)) := by
    intro c cs
    cases cs with
    | nil => exact ⟨[], by simp [joinCoords], by simp, by simp⟩
    | cons d ds =>
      refine ⟨sep ++ joinCoords sep (d :: ds), by simp [joinCoords], ?_, by simp⟩
      intro x s hx
      rw [hsep] at hx
      simp at hx
      rw [← hx.1]; exact hs0
  induction pos generalizing pos' with
  | nil =>
    cases pos' with
    | nil => rfl
    | cons c cs =>
      obtain ⟨r, hr, _⟩ := key c cs
      rw [hr] at h
      simp [joinCoords, dec_ne_nil] at h
  | cons c cs ih =>
    cases pos' with
    | nil =>
      obtain ⟨r, hr, _⟩ := key c cs
      rw [hr] at h
      simp [joinCoords, dec_ne_nil] at h
    | cons c' cs' =>
      obtain ⟨r, hr, hr1, hr2⟩ := key c cs
      obtain ⟨r', hr', hr1', hr2'⟩ := key c' cs'
      rw [hr, hr'] at h
      have t1 := takeWhile_digits c r hr1
      have t2 := takeWhile_digits c' r' hr1'
      rw [h] at t1
      have e1 : dec c = dec c' := t1.1.symm.trans t2.1
      have e2 : r = r' := t1.2.symm.trans t2.2
      have hc := dec_injective e1
      subst hc
      rcases hr2 with ⟨hcs, hrn⟩ | ⟨hcs, hrn⟩ <;> rcases hr2' with ⟨hcs', hrn'⟩ | ⟨hcs', hrn'⟩
      · rw [hcs, hcs']
      · rw [hrn, hrn', hsep] at e2; simp at e2
      · rw [hrn, hrn', hsep] at e2; simp at e2
      · rw [hrn, hrn'] at e2
        rw [ih (List.append_cancel_left e2)]

theorem mem_joinCoords {sep : Str} {pos : List Nat} {c : Char} (h : c ∈ joinCoords sep pos) :
    isDigit c = true ∨ c ∈ sep := by
  induction pos with
  | nil => simp [joinCoords] at h
  | cons a as ih =>
    cases as with
    | nil => left; simp [joinCoords] at h; exact dec_digits a c h
    | cons b bs =>
      simp only [joinCoords, List.mem_append] at h
      rcases h with (h | h) | h
      · left; exact dec_digits a c h
      · right; exact h
      · exact ih h

/-! ## `/c` in strings -/

/-- Whether `/c` occurs in the string. -/
def hasSlashC : Str → Bool
  | '/' :: 'c' :: _ => true
  | _ :: r => hasSlashC r
  | [] => false

theorem hasSlashC_cons (a : Char) (r : Str) :
    hasSlashC (a :: r) = ((decide (a = '/') && decide (r.head? = some 'c')) || hasSlashC r) := by
  cases r with
  | nil => rw [hasSlashC.eq_def]; split <;> simp_all
  | cons b bs =>
    by_cases h : a = '/' ∧ b = 'c'
    · obtain ⟨rfl, rfl⟩ := h; simp [hasSlashC]
    · rw [hasSlashC.eq_def]
      split
      · rename_i heq; simp at heq; exact absurd ⟨heq.1, heq.2.1⟩ h
      · rename_i heq; simp at heq
        obtain ⟨rfl, rfl⟩ := heq
        have : (decide (a = '/') && decide ((b :: bs).head? = some 'c')) = false := by
          simp only [List.head?_cons, Option.some.injEq, Bool.and_eq_false_iff, decide_eq_false_iff_not]
          by_cases ha : a = '/'
          · right; intro hb; exact h ⟨ha, hb⟩
          · left; exact ha
        rw [this, Bool.false_or]
      · rename_i heq; simp at heq

theorem hasSlashC_append_false {a b : Str} (ha : hasSlashC a = false) (hb : hasSlashC b = false)
    (hj : b.head? ≠ some 'c' ∨ a.getLast? ≠ some '/') : hasSlashC (a ++ b) = false := by
  induction a with
  | nil => simpa using hb
  | cons x xs ih =>
    rw [hasSlashC_cons, Bool.or_eq_false_iff] at ha
    rw [List.cons_append, hasSlashC_cons, Bool.or_eq_false_iff]
    constructor
    · cases xs with
      | nil =>
        simp at hj
        simp
        intro hx
        rcases hj with hj | hj
        · exact hj
        · exact absurd hx hj
      | cons y ys => simpa using ha.1
    · apply ih ha.2
      rcases hj with hj | hj
      · left; exact hj
      · cases xs with
        | nil => simp
        | cons y ys => right; simpa using hj

theorem hasSlashC_of_slash_notMem {a : Str} (h : '/' ∉ a) : hasSlashC a = false := by
  induction a with
  | nil => rfl
  | cons x xs ih =>
    simp only [List.mem_cons, not_or] at h
    rw [hasSlashC_cons, ih h.2]
    simp [Ne.symm h.1]

theorem hasSlashC_infix (a b : Str) : hasSlashC (a ++ '/' :: 'c' :: b) = true := by
  induction a with
  | nil => simp [hasSlashC]
  | cons x xs ih => rw [List.cons_append, hasSlashC_cons, ih]; simp

theorem hasSlashC_joinCoords {sep : Str} (hs : hasSlashC sep = false) (pos : List Nat) :
    hasSlashC (joinCoords sep pos) = false ∧ (joinCoords sep pos).head? ≠ some 'c' := by
  have hdec : ∀ n, hasSlashC (dec n) = false :=
    fun n => hasSlashC_of_slash_notMem (notMem_dec n '/' (by decide))
  have hhead : ∀ n r, (dec n ++ r).head? ≠ some 'c' := by
    intro n r
    obtain ⟨c, s, h, hd⟩ := dec_cons n
    rw [h]; simp
    intro hc; rw [hc] at hd; exact absurd hd (by decide)
  have hlast : ∀ n, (dec n).getLast? ≠ some '/' := by
    intro n h
    exact notMem_dec n '/' (by decide) (List.mem_of_getLast? h)
  induction pos with
  | nil => simp [joinCoords, hasSlashC]
  | cons a as ih =>
    cases as with
    | nil =>
      simp only [joinCoords]
      exact ⟨hdec a, by simpa using hhead a []⟩
    | cons b bs =>
      simp only [joinCoords, List.append_assoc]
      refine ⟨hasSlashC_append_false (hdec a) ?_ (Or.inr (hlast a)), hhead a _⟩
      exact hasSlashC_append_false hs ih.1 (Or.inl ih.2)

/-- The last `/c` of a string splits it in one way. -/
theorem split_at_last_slashC {a a' b b' : Str} (hb : hasSlashC b = false)
    (hb' : hasSlashC b' = false) (h : a ++ '/' :: 'c' :: b = a' ++ '/' :: 'c' :: b') :
    a = a' ∧ b = b' := by
  have aux : ∀ (a a' b b' : Str), hasSlashC b = false →
      a ++ '/' :: 'c' :: b = a' ++ '/' :: 'c' :: b' → a.length ≤ a'.length → a = a' ∧ b = b' := by
    intro a a' b b' hb h hl
    obtain ⟨t, ht⟩ : ∃ t, a' = a ++ t := by
      have := List.prefix_of_prefix_length_le (List.prefix_append a ('/' :: 'c' :: b))
        (h ▸ List.prefix_append a' ('/' :: 'c' :: b')) hl
      obtain ⟨t, ht⟩ := this
      exact ⟨t, ht.symm⟩
    rw [ht, List.append_assoc] at h
    have h := List.append_cancel_left h
    cases t with
    | nil => simp at h; simp [ht, h]
    | cons x xs =>
      cases xs with
      | nil => simp at h
      | cons y ys =>
        simp at h
        rw [h.2.2] at hb
        rw [hasSlashC_infix] at hb
        simp at hb
  rcases Nat.le_total a.length a'.length with hl | hl
  · exact aux a a' b b' hb h hl
  · have := aux a' a b' b hb' h.symm hl
    exact ⟨this.1.symm, this.2.symm⟩

/-- The part of a chunk key before `/c`. -/
def chunkDir (path : Str) : Str :=
  dataRoot ++ (if (canonicalizePath path).isEmpty then [] else '/' :: canonicalizePath path)

theorem chunkKey_eq (path : Str) (m : ArrayMetadata) (pos : List Nat) :
    chunkKey path m pos = chunkDir path ++ '/' :: 'c' :: joinCoords m.separator pos := by
  simp only [chunkKey, chunkDir]
  split <;> simp

theorem segs_chunkDir (path : Str) :
    segs (chunkDir path) = str!"data" :: str!"root" :: segs path := by
  unfold chunkDir
  split
  · rename_i h
    have h0 : segs path = [] := by
      rw [← segs_canonicalizePath]; simp at h; rw [h]; rfl
    rw [h0]; rfl
  · rw [segs_append_sep, segs_canonicalizePath]; rfl

/-! ## Locations of chunks -/

/-- The separators for which chunk locations are proved unambiguous: `/`, or a string without `/`
that starts with a character other than a digit. -/
def GoodSep (sep : Str) : Prop := sep = str!"/" ∨ (NonDigitSep sep ∧ '/' ∉ sep)

/-- The components of a chunk's location below its array's data directory. -/
def chunkTail (sep : Str) (pos : List Nat) : List Str := segs ('c' :: joinCoords sep pos)

theorem segs_chunkKey (path : Str) (m : ArrayMetadata) (pos : List Nat) :
    segs (chunkKey path m pos)
      = str!"data" :: str!"root" :: (segs path ++ chunkTail m.separator pos) := by
  rw [chunkKey_eq, segs_append_sep, segs_chunkDir]; rfl

theorem segs_joinCoords_slash (c : Nat) (cs : List Nat) :
    segs (joinCoords str!"/" (c :: cs)) = dec c :: cs.map dec := by
  have hdec : ∀ n, segs (dec n) = [dec n] := by
    intro n
    refine segs_single _ (notMem_dec n '/' (by decide)) (dec_ne_nil n) ?_
    intro h
    have : '.' ∈ dec n := by rw [h]; simp
    exact notMem_dec n '.' (by decide) this
  induction cs generalizing c with
  | nil => simp [joinCoords, hdec]
  | cons d ds ih =>
    rw [joinCoords, List.append_assoc, List.singleton_append, segs_append_sep, hdec, ih]
    · simp
    · simp

theorem chunkTail_slash (pos : List Nat) :
    chunkTail str!"/" pos = match pos with
      | [] => [str!"c"]
      | c :: cs => ('c' :: dec c) :: cs.map dec := by
  cases pos with
  | nil => rfl
  | cons c cs =>
    unfold chunkTail
    have hd : segs ('c' :: dec c) = ['c' :: dec c] := by
      refine segs_single _ ?_ (by simp) (by simp)
      simp; exact notMem_dec c '/' (by decide)
    cases cs with
    | nil => simp [joinCoords, hd]
    | cons d ds =>
      have : 'c' :: joinCoords str!"/" (c :: d :: ds)
          = ('c' :: dec c) ++ '/' :: joinCoords str!"/" (d :: ds) := by simp [joinCoords]
      rw [this, segs_append_sep, hd, segs_joinCoords_slash]
      simp

theorem chunkTail_noslash {sep : Str} (h : '/' ∉ sep) (pos : List Nat) :
    chunkTail sep pos = ['c' :: joinCoords sep pos] := by
  unfold chunkTail
  refine segs_single _ ?_ (by simp) (by simp)
  simp only [List.mem_cons, not_or]
  refine ⟨by decide, fun hm => ?_⟩
  rcases mem_joinCoords hm with h1 | h1
  · exact absurd h1 (by decide)
  · exact h h1

/-- A chunk's components: one that starts with `c`, then some that do not. -/
theorem chunkTail_shape {sep : Str} (hs : GoodSep sep) (pos : List Nat) :
    ∃ h t, chunkTail sep pos = ('c' :: h) :: t ∧ ∀ x ∈ t, x.head? ≠ some 'c' := by
  rcases hs with rfl | ⟨_, hs⟩
  · rw [chunkTail_slash]
    cases pos with
    | nil => exact ⟨[], [], rfl, by simp⟩
    | cons c cs =>
      refine ⟨dec c, cs.map dec, rfl, ?_⟩
      intro x hx
      obtain ⟨n, _, rfl⟩ := List.mem_map.mp hx
      obtain ⟨a, r, h, hd⟩ := dec_cons n
      rw [h]; simp
      intro hc; rw [hc] at hd; exact absurd hd (by decide)
  · exact ⟨_, [], chunkTail_noslash hs pos, by simp⟩

theorem chunkTail_injective {sep : Str} (hs : GoodSep sep) {pos pos' : List Nat}
    (h : chunkTail sep pos = chunkTail sep pos') : pos = pos' := by
  rcases hs with rfl | ⟨hnd, hs⟩
  · rw [chunkTail_slash, chunkTail_slash] at h
    cases pos with
    | nil =>
      cases pos' with
      | nil => rfl
      | cons c cs => simp [Ne.symm (dec_ne_nil _)] at h
    | cons c cs =>
      cases pos' with
      | nil => simp [dec_ne_nil] at h
      | cons d ds =>
        simp at h
        rw [dec_injective h.1]
        congr 1
        exact (List.map_inj_right (fun _ _ => dec_injective)).mp h.2
  · rw [chunkTail_noslash hs, chunkTail_noslash hs] at h
    simp at h
    exact joinCoords_injective hnd h

theorem chunkTail_split {sep sep' : Str} (hs : GoodSep sep) (hs' : GoodSep sep')
    {P P' : List Str} {pos pos' : List Nat}
    (h : P ++ chunkTail sep pos = P' ++ chunkTail sep' pos') :
    P = P' ∧ chunkTail sep pos = chunkTail sep' pos' := by
  have aux : ∀ (P P' : List Str) (x x' : Str) (t t' : List Str),
      (∀ y ∈ t, y.head? ≠ some 'c') →
      P ++ ('c' :: x) :: t = P' ++ ('c' :: x') :: t' → P.length ≤ P'.length →
      P = P' ∧ ('c' :: x) :: t = ('c' :: x') :: t' := by
    intro P P' x x' t t' ht h hl
    obtain ⟨u, hu⟩ : ∃ u, P' = P ++ u := by
      have := List.prefix_of_prefix_length_le (List.prefix_append P (('c' :: x) :: t))
        (h ▸ List.prefix_append P' (('c' :: x') :: t')) hl
      obtain ⟨u, hu⟩ := this
      exact ⟨u, hu.symm⟩
    rw [hu, List.append_assoc] at h
    have h := List.append_cancel_left h
    cases u with
    | nil => simp at h; simp [hu, h]
    | cons a as =>
      simp at h
      exact absurd (by simp : ('c' :: x').head? = some 'c') (ht ('c' :: x') (by rw [h.2]; simp))
  obtain ⟨x, t, e, ht⟩ := chunkTail_shape hs pos
  obtain ⟨x', t', e', ht'⟩ := chunkTail_shape hs' pos'
  rw [e, e'] at h ⊢
  rcases Nat.le_total P.length P'.length with hl | hl
  · exact aux P P' x x' t t' ht h hl
  · have := aux P' P x' x t' t ht' h.symm hl
    exact ⟨this.1.symm, this.2.symm⟩

theorem plain_chunkTail {sep : Str} (hs : GoodSep sep) (pos : List Nat) :
    Plain (chunkTail sep pos) := by
  rcases hs with rfl | ⟨_, hs⟩
  · rw [chunkTail_slash]
    unfold Plain
    cases pos with
    | nil => decide
    | cons c cs =>
      simp [dotdot]
      intro n _ h
      exact notMem_dec n '.' (by decide) (by rw [h]; simp)
  · rw [chunkTail_noslash hs]
    unfold Plain; simp [dotdot]

theorem plain_segs_chunkKey {path : Str} {m : ArrayMetadata} (hp : Plain (segs path))
    (hs : GoodSep m.separator) (pos : List Nat) : Plain (segs (chunkKey path m pos)) := by
  rw [segs_chunkKey]
  have := (hp.append (plain_chunkTail hs pos))
  unfold Plain at *
  simp [dotdot] at *
  exact this

end Zarr
