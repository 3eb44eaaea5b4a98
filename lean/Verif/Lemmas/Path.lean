import Verif.Model.Path
/-! Lemmas on strings, paths and keys. -/

namespace Zarr

/-! ## Splitting -/

theorem splitOn_ne_nil (c : Char) (s : Str) : splitOn c s ≠ [] := by
  cases s with
  | nil => simp [splitOn]
  | cons x xs => 
    unfold splitOn; split
    · simp
    · split <;> simp

theorem splitOn_append_sep (c : Char) (a b : Str) :
    splitOn c (a ++ c :: b) = splitOn c a ++ splitOn c b := by
  induction a with
  | nil => simp [splitOn]
  | cons x xs ih =>
    simp only [List.cons_append, splitOn, ih]
    by_cases h : (x == c) = true
    · simp [h]
    · simp only [h]
      cases hs : splitOn c xs with
      | nil => exact absurd hs (splitOn_ne_nil c xs)
      | cons p ps => simp

theorem splitOn_of_notMem (c : Char) (s : Str) (h : c ∉ s) : splitOn c s = [s] := by
  induction s with
  | nil => rfl
  | cons x xs ih =>
    simp only [List.mem_cons, not_or] at h
    have hx : (x == c) = false := by simp [Ne.symm h.1]
    simp [splitOn, hx, ih h.2]

theorem notMem_of_mem_splitOn (c : Char) (s p : Str) (h : p ∈ splitOn c s) : c ∉ p := by
  induction s generalizing p with
  | nil => simp [splitOn] at h; simp [h]
  | cons x xs ih =>
    unfold splitOn at h
    split at h
    · rcases List.mem_cons.mp h with rfl | h
      · simp
      · exact ih p h
    · rename_i hx
      split at h
      · simp at h; subst h; simp at hx; simp [Ne.symm hx]
      · rename_i q qs hq
        rcases List.mem_cons.mp h with rfl | h
        · have := ih q (by simp [hq])
          simp at hx
          simp [this, Ne.symm hx]
        · exact ih p (by simp [hq, h])

/-- Keep a piece of a path as a component? -/
theorem segs_append_sep (a b : Str) : segs (a ++ '/' :: b) = segs a ++ segs b := by
  simp [segs, splitOn_append_sep]

@[simp] theorem segs_nil : segs [] = [] := rfl

@[simp] theorem segs_slash_cons (b : Str) : segs ('/' :: b) = segs b := by
  simpa using segs_append_sep [] b

@[simp] theorem segs_append_slash (a : Str) : segs (a ++ ['/']) = segs a := by
  simpa using segs_append_sep a []

theorem segs_of_notMem (s : Str) (h : '/' ∉ s) :
    segs s = if s = [] ∨ s = str!"." then [] else [s] := by
  unfold segs
  rw [splitOn_of_notMem _ _ h]
  by_cases h1 : s = [] <;> by_cases h2 : s = str!"." <;> simp_all

theorem segs_single (s : Str) (h : '/' ∉ s) (h1 : s ≠ []) (h2 : s ≠ str!".") : segs s = [s] := by
  rw [segs_of_notMem s h, if_neg (by simp [h1, h2])]

theorem mem_segs {s p : Str} (h : s ∈ segs p) : '/' ∉ s ∧ s ≠ [] ∧ s ≠ str!"." := by
  unfold segs at h
  rw [List.mem_filter] at h
  exact ⟨notMem_of_mem_splitOn _ _ _ h.1, by simpa using h.2⟩

/-! ## Trimming -/

theorem segs_trimStart (p : Str) : segs (trimStart '/' p) = segs p := by
  induction p with
  | nil => rfl
  | cons x xs ih =>
    by_cases h : x = '/'
    · subst h; simpa [trimStart] using ih
    · simp [trimStart, h]

theorem dropWhile_rev_segs (r : Str) : segs (r.dropWhile (· == '/')).reverse = segs r.reverse := by
  induction r with
  | nil => rfl
  | cons x xs ih =>
    by_cases h : x = '/'
    · subst h; simpa using ih
    · simp [h]

theorem segs_trimEnd (p : Str) : segs (trimEnd '/' p) = segs p := by
  rw [trimEnd, dropWhile_rev_segs, List.reverse_reverse]

@[simp] theorem segs_canonicalizePath (p : Str) : segs (canonicalizePath p) = segs p := by
  rw [canonicalizePath, segs_trimEnd, segs_trimStart]

theorem segs_stripTailRev (r : Str) : segs (stripTailRev r).reverse = segs r.reverse := by
  fun_induction stripTailRev r with
  | case1 r ih => simp [ih]
  | case2 r ih =>
    have : ('.' :: '/' :: r).reverse = r.reverse ++ '/' :: ['.'] := by simp
    rw [ih, this, segs_append_sep]; simp [segs, splitOn]
  | case3 => rfl

@[simp] theorem segs_stripTail (p : Str) : segs (stripTail p) = segs p := by
  rw [stripTail, segs_stripTailRev, List.reverse_reverse]

@[simp] theorem segs_stripHead (p : Str) : segs (stripHead p) = segs p := by
  fun_induction stripHead p with
  | case1 r ih => simp [ih]
  | case2 r ih =>
    rw [ih, show ('.' :: '/' :: r) = ['.'] ++ '/' :: r from rfl, segs_append_sep]
    simp [segs, splitOn]
  | case3 => rfl
  | case4 => rfl

/-! ## Joining -/

/-- The first character of a path is not `/`. -/
def Rel (p : Str) : Prop := ∀ r, p ≠ '/' :: r

theorem segs_joinPath (base p : Str) (h : Rel p) : segs (joinPath base p) = segs base ++ segs p := by
  unfold joinPath
  split
  · exact absurd rfl (h _)
  · split
    · rename_i hb
      rcases hb with hb | hb
      · simp at hb; simp [hb]
      · obtain ⟨b, rfl⟩ : ∃ b, base = b ++ ['/'] := by
          obtain ⟨b, hb'⟩ := List.getLast?_eq_some_iff.mp hb
          exact ⟨b, hb'⟩
        rw [List.append_assoc]
        simp [segs_append_sep]
    · exact segs_append_sep _ _

theorem rel_stripHead (p : Str) : Rel (stripHead p) := by
  fun_induction stripHead p with
  | case1 r ih => exact ih
  | case2 r ih => exact ih
  | case3 => intro r; simp
  | case4 s h1 h2 h3 => intro r hr; exact h1 r hr

theorem stripTailRev_suffix (r : Str) : stripTailRev r <:+ r := by
  fun_induction stripTailRev r with
  | case1 r ih => exact ih.trans (List.suffix_cons _ _)
  | case2 r ih => exact ih.trans ((List.suffix_cons _ _).trans (List.suffix_cons _ _))
  | case3 => exact List.suffix_refl _

theorem stripTail_prefix (p : Str) : stripTail p <+: p := by
  have h := stripTailRev_suffix p.reverse
  rw [← List.reverse_prefix] at h
  simpa [stripTail] using h

theorem rel_stripTail {p : Str} (h : Rel p) : Rel (stripTail p) := by
  intro r hr
  obtain ⟨t, ht⟩ := stripTail_prefix p
  rw [hr] at ht
  exact h (r ++ t) ht.symm

theorem rel_canonicalizePath (p : Str) : Rel (canonicalizePath p) := by
  intro r hr
  have h1 : Rel (trimStart '/' p) := by
    intro r hr
    unfold trimStart at hr
    have := List.head?_dropWhile_not (· == '/') p
    rw [hr] at this
    simp at this
  have h2 : trimEnd '/' (trimStart '/' p) <+: trimStart '/' p := by
    have h := List.dropWhile_suffix (l := (trimStart '/' p).reverse) (· == '/')
    rw [← List.reverse_prefix] at h
    simpa [trimEnd] using h
  obtain ⟨t, ht⟩ := h2
  unfold canonicalizePath at hr
  rw [hr] at ht
  exact h1 (r ++ t) ht.symm

theorem rel_unroot (k : Str) : Rel (unroot k) := by
  unfold unroot
  split
  · exact rel_stripTail (rel_stripHead _)
  · rename_i h; exact rel_stripTail (fun r hr => h r hr)

@[simp] theorem segs_unroot (k : Str) : segs (unroot k) = segs k := by
  unfold unroot
  split <;> simp

/-! ## Plain paths -/

/-- A list of components without `..`. -/
def Plain (ss : List Str) : Prop := dotdot ∉ ss

instance (ss : List Str) : Decidable (Plain ss) := inferInstanceAs (Decidable (_ ∉ _))

theorem Plain.append {a b : List Str} (ha : Plain a) (hb : Plain b) : Plain (a ++ b) := by
  unfold Plain at *; simp [ha, hb]

theorem plain_append {a b : List Str} : Plain (a ++ b) ↔ Plain a ∧ Plain b := by
  unfold Plain; simp

theorem nest_plain {ss : List Str} (h : Plain ss) : nest ss = ss.length := by
  induction ss with
  | nil => rfl
  | cons s ss ih =>
    unfold Plain at h
    simp only [List.mem_cons, not_or] at h
    simp [nest, Ne.symm h.1, ih h.2]; omega

theorem getPath_plain {base key : Str} (h : Plain (segs key)) :
    ∃ p, getPath base key = .ok p ∧ segs p = segs base ++ segs key := by
  refine ⟨joinPath base (unroot key), ?_, ?_⟩
  · unfold getPath
    rw [if_neg]
    rw [segs_unroot, nest_plain h]; omega
  · rw [segs_joinPath _ _ (rel_unroot key), segs_unroot]

/-- In general `get_path` succeeds or fails depending on the components, and the result's
components are those of the base followed by those of the key. -/
theorem getPath_eq (base key : Str) :
    getPath base key = if nest (segs key) < 0 then .err .notFound
      else .ok (joinPath base (unroot key)) := by
  simp [getPath]

theorem segs_joinPath_unroot (base key : Str) :
    segs (joinPath base (unroot key)) = segs base ++ segs key := by
  rw [segs_joinPath _ _ (rel_unroot key), segs_unroot]

/-! ## Extensions -/

/-- Append `x` to the last component. -/
def extLast (x : Str) : List Str → List Str
  | [] => []
  | [a] => [a ++ x]
  | a :: b :: r => a :: extLast x (b :: r)

theorem extLast_append_singleton (x : Str) (init : List Str) (a : Str) :
    extLast x (init ++ [a]) = init ++ [a ++ x] := by
  induction init with
  | nil => rfl
  | cons b r ih =>
    cases r with
    | nil => rfl
    | cons c r => simpa [extLast] using ih

theorem extLast_append {x : Str} {a b : List Str} (hb : b ≠ []) :
    extLast x (a ++ b) = a ++ extLast x b := by
  obtain ⟨init, l, rfl⟩ : ∃ init l, b = init ++ [l] :=
    ⟨b.dropLast, b.getLast hb, (List.dropLast_concat_getLast hb).symm⟩
  rw [← List.append_assoc, extLast_append_singleton, extLast_append_singleton, List.append_assoc]

theorem extLast_length (x : Str) (l : List Str) : (extLast x l).length = l.length := by
  fun_induction extLast x l with
  | case1 => rfl
  | case2 => rfl
  | case3 a b r ih => simp [ih]

theorem extLast_injective {x : Str} {l l' : List Str} (h : extLast x l = extLast x l') : l = l' := by
  have hl := congrArg List.length h
  simp only [extLast_length] at hl
  cases hn : l' with
  | nil => rw [hn] at hl; simpa using hl
  | cons b r =>
    have hne' : l' ≠ [] := by simp [hn]
    have hne : l ≠ [] := by intro h0; rw [h0, hn] at hl; simp at hl
    rw [← hn]
    have e1 := (List.dropLast_concat_getLast hne).symm
    have e2 := (List.dropLast_concat_getLast hne').symm
    rw [e1, e2, extLast_append_singleton, extLast_append_singleton] at h
    have := List.append_inj' h rfl
    rw [e1, e2, this.1]
    have h2 := this.2
    simp only [List.cons.injEq, and_true] at h2
    rw [List.append_cancel_right h2]

/-- Extensions of equal length that differ give different locations. -/
theorem extLast_ne {x y : Str} {l l' : List Str} (hxy : x ≠ y) (hlen : x.length = y.length)
    (hl : l ≠ []) : extLast x l ≠ extLast y l' := by
  intro h
  have hlen' := congrArg List.length h
  simp only [extLast_length] at hlen'
  have hl' : l' ≠ [] := by
    intro h0; rw [h0] at hlen'; simp at hlen'; exact hl hlen'
  rw [(List.dropLast_concat_getLast hl).symm, (List.dropLast_concat_getLast hl').symm,
    extLast_append_singleton, extLast_append_singleton] at h
  have := (List.append_inj' h rfl).2
  simp only [List.cons.injEq, and_true] at this
  exact hxy (List.append_inj' this hlen).2

theorem splitLast_append (p : Str) : (splitLast p).1 ++ (splitLast p).2 = stripTail p := by
  simp only [splitLast, stripTail]
  rw [← List.reverse_append, List.takeWhile_append_dropWhile]

theorem mem_takeWhile_pos {α : Type} {p : α → Bool} {l : List α} {x : α}
    (h : x ∈ l.takeWhile p) : p x = true := by
  induction l with
  | nil => simp at h
  | cons a as ih =>
    rw [List.takeWhile_cons] at h
    split at h
    · rename_i ha
      rcases List.mem_cons.mp h with rfl | h
      · exact ha
      · exact ih h
    · simp at h

theorem splitLast_name (p : Str) : '/' ∉ (splitLast p).2 := by
  simp only [splitLast, List.mem_reverse]
  intro h
  have := mem_takeWhile_pos h
  simp at this

theorem splitLast_dir (p : Str) : (splitLast p).1 = [] ∨ ∃ d, (splitLast p).1 = d ++ ['/'] := by
  simp only [splitLast]
  cases h : List.dropWhile (· ≠ '/') (stripTailRev p.reverse) with
  | nil => simp
  | cons x xs =>
    right
    have hx : x = '/' := by
      have := List.head?_dropWhile_not (fun x => decide (x ≠ '/')) (stripTailRev p.reverse)
      rw [h] at this; simpa using this
    refine ⟨xs.reverse, ?_⟩
    simp [hx]

theorem stripTailRev_head (r : Str) :
    (∀ x, stripTailRev r ≠ '/' :: x) ∧ (∀ x, stripTailRev r ≠ '.' :: '/' :: x) := by
  fun_induction stripTailRev r with
  | case1 r ih => exact ih
  | case2 r ih => exact ih
  | case3 s h1 h2 => exact ⟨fun x hx => h1 x hx, fun x hx => h2 x hx⟩

/-- The last component of a path that is rooted or has several components, and the directory part before
it. -/
theorem splitLast_spec' {p : Str} (hroot : (∃ q, p = '/' :: q) ∨ 2 ≤ (segs p).length) (hne : segs p ≠ []) :
    ∃ d n, splitLast p = (d ++ ['/'], n) ∧ '/' ∉ n ∧ n ≠ [] ∧ n ≠ str!"." ∧
      segs p = segs d ++ [n] ∧ fileName p = if n = str!".." then none else some n := by
  have happ := splitLast_append p
  have hname := splitLast_name p
  have hs : segs (stripTail p) = segs p := segs_stripTail p
  -- the name is not empty
  have hn0 : (splitLast p).2 ≠ [] := by
    intro h0
    rw [h0, List.append_nil] at happ
    rcases splitLast_dir p with h | ⟨d, h⟩
    · rw [h] at happ; rw [← happ] at hs; simp at hs; exact hne hs
    · rw [h] at happ
      have : stripTailRev p.reverse = '/' :: d.reverse := by
        have := congrArg List.reverse happ
        simpa [stripTail] using this.symm
      exact (stripTailRev_head p.reverse).1 _ this
  -- the directory part is not empty
  obtain ⟨d, hd⟩ : ∃ d, (splitLast p).1 = d ++ ['/'] := by
    rcases splitLast_dir p with h | h
    · exfalso
      rw [h, List.nil_append] at happ
      rcases hroot with ⟨q, hq⟩ | hroot
      case inr =>
        rw [← hs, ← happ] at hroot
        by_cases hd : (splitLast p).2 = str!"."
        · rw [hd] at hroot; revert hroot; decide
        · rw [segs_single _ hname hn0 hd] at hroot; simp at hroot
      obtain ⟨t, ht⟩ := stripTail_prefix p
      rw [← happ] at ht
      cases hn : (splitLast p).2 with
      | nil => exact hn0 hn
      | cons a as =>
        rw [hn, hq] at ht
        simp at ht
        exact hname (by rw [hn, ht.1]; simp)
    · exact h
  have hdot : (splitLast p).2 ≠ str!"." := by
    intro h
    rw [h, hd] at happ
    have : stripTailRev p.reverse = '.' :: '/' :: d.reverse := by
      have := congrArg List.reverse happ
      simpa [stripTail] using this.symm
    exact (stripTailRev_head p.reverse).2 _ this
  refine ⟨d, (splitLast p).2, by rw [← hd], hname, hn0, hdot, ?_, ?_⟩
  · rw [← hs, ← happ, hd, List.append_assoc, List.singleton_append, segs_append_sep,
      segs_single _ hname hn0 hdot]
  · simp [fileName, hn0]

theorem splitLast_spec {p : Str} (hroot : ∃ q, p = '/' :: q) (hne : segs p ≠ []) :
    ∃ d n, splitLast p = (d ++ ['/'], n) ∧ '/' ∉ n ∧ n ≠ [] ∧ n ≠ str!"." ∧
      segs p = segs d ++ [n] ∧ fileName p = if n = str!".." then none else some n :=
  splitLast_spec' (.inl hroot) hne

theorem stemExt_spec (n : Str) :
    (stemExt n = (n, none)) ∨ (∃ st e, stemExt n = (st, some e) ∧ n = st ++ '.' :: e ∧ st ≠ []) := by
  unfold stemExt
  have h := List.takeWhile_append_dropWhile (p := fun x : Char => decide (x ≠ '.')) (l := n.reverse)
  simp only
  cases hd : List.dropWhile (fun x : Char => decide (x ≠ '.')) n.reverse with
  | nil => left; rfl
  | cons x before =>
    have hx : x = '.' := by
      have := List.head?_dropWhile_not (fun x => decide (x ≠ '.')) n.reverse
      rw [hd] at this; simpa using this
    by_cases hb : before = []
    · left; simp [hb]
    · right
      refine ⟨before.reverse, (List.takeWhile (fun x : Char => decide (x ≠ '.')) n.reverse).reverse,
        by simp [hb], ?_, by simp [hb]⟩
      rw [hd, hx] at h
      have := congrArg List.reverse h
      simp only [List.reverse_append, List.reverse_reverse, List.reverse_cons,
        List.append_assoc, List.singleton_append] at this
      exact this.symm

theorem stemExt_append (n e : Str) (hn : n ≠ []) (he : '.' ∉ e) :
    stemExt (n ++ '.' :: e) = (n, some e) := by
  unfold stemExt
  have h1 : (n ++ '.' :: e).reverse = e.reverse ++ '.' :: n.reverse := by simp
  have hall : ∀ x ∈ e.reverse, decide (x ≠ '.') = true := by
    intro x hx
    simp at hx
    simp only [ne_eq, decide_eq_true_eq]
    intro h; exact he (h ▸ hx)
  have h2 : List.takeWhile (fun x : Char => decide (x ≠ '.')) (e.reverse ++ '.' :: n.reverse)
      = e.reverse := by
    rw [List.takeWhile_append_of_pos hall]; simp
  have h3 : List.dropWhile (fun x : Char => decide (x ≠ '.')) (e.reverse ++ '.' :: n.reverse)
      = '.' :: n.reverse := by
    rw [List.dropWhile_append_of_pos hall]; simp
  simp only [h1, h2, h3]
  simp [hn]

/-- `add_extension` appends to the last component. -/
theorem addExtension_spec {p d n ext : Str} (hsl : splitLast p = (d ++ ['/'], n))
    (hfn : fileName p = some n) (hext : ext ≠ []) :
    addExtension p ext = d ++ '/' :: n ++ '.' :: ext := by
  unfold addExtension extension setExtension
  rw [hfn, hsl]
  rcases stemExt_spec n with h | ⟨st, e, h, hn, _⟩
  · simp [h, hext]
  · simp only [Option.bind_some, h]
    simp [hn]

theorem splitLast_append_name (d n : Str) (hn : '/' ∉ n) (h0 : n ≠ []) (h1 : n ≠ str!".") :
    splitLast (d ++ '/' :: n) = (d ++ ['/'], n) := by
  have hrev : (d ++ '/' :: n).reverse = n.reverse ++ '/' :: d.reverse := by simp
  have hst : stripTailRev (n.reverse ++ '/' :: d.reverse) = n.reverse ++ '/' :: d.reverse := by
    have hnr : '/' ∉ n.reverse := by simpa using hn
    have h0r : n.reverse ≠ [] := by simpa using h0
    have h1r : n.reverse ≠ ['.'] := by
      intro h; apply h1; have := congrArg List.reverse h; simpa using this
    cases hr : n.reverse with
    | nil => exact absurd hr h0r
    | cons a as =>
      rw [hr] at hnr h1r
      simp only [List.mem_cons, not_or] at hnr
      rw [List.cons_append, stripTailRev.eq_def]
      split
      · rename_i heq; simp at heq; exact absurd heq.1.symm hnr.1
      · rename_i heq
        simp only [List.cons.injEq] at heq
        obtain ⟨ha, has⟩ := heq
        cases as with
        | nil => exact absurd (by rw [ha]) h1r
        | cons b bs =>
          simp only [List.cons_append, List.cons.injEq] at has
          exact absurd (by rw [has.1]; simp) hnr.2
      · rfl
  have hall : ∀ x ∈ n.reverse, decide (x ≠ '/') = true := by
    intro x hx
    simp at hx
    simp only [ne_eq, decide_eq_true_eq]
    intro h; exact hn (h ▸ hx)
  unfold splitLast
  rw [hrev, hst]
  simp only
  rw [List.takeWhile_append_of_pos hall, List.dropWhile_append_of_pos hall]
  simp

/-- The metadata extension: `.array.json` or `.group.json` for the default suffix. -/
def metaExt (kind suffix : Str) : Str := '.' :: kind ++ '.' :: stripDot suffix

/-- A metadata key suffix that does not contain a path separator. -/
def GoodSuffix (e : EntryPointMetadata) : Prop := '/' ∉ e.metadataKeySuffix

theorem notMem_stripDot {s : Str} (h : '/' ∉ s) : '/' ∉ stripDot s := by
  unfold stripDot
  split
  · simp at h; exact h
  · exact h

theorem metaKey_spec {p kind sfx : Str} (hroot : ∃ q, p = '/' :: q) (hne : segs p ≠ [])
    (hplain : Plain (segs p)) (hk : kind ≠ []) (hk1 : '.' ∉ kind) (hk2 : '/' ∉ kind)
    (hsfx : '/' ∉ sfx) :
    segs (addExtension (addExtension p kind) sfx) = extLast ('.' :: kind ++ '.' :: sfx) (segs p) ∧
    ∃ q, addExtension (addExtension p kind) sfx = '/' :: q := by
  obtain ⟨d, n, hsl, hn1, hn2, hn3, hseg, hfn⟩ := splitLast_spec hroot hne
  have hndd : n ≠ str!".." := by
    intro h
    apply hplain
    rw [hseg, h]; simp [dotdot]
  rw [if_neg hndd] at hfn
  have e1 : addExtension p kind = d ++ '/' :: (n ++ '.' :: kind) := by
    rw [addExtension_spec hsl hfn hk]; simp
  have hn' : '/' ∉ n ++ '.' :: kind := by simp [hn1, hk2]
  have hsl' : splitLast (d ++ '/' :: (n ++ '.' :: kind)) = (d ++ ['/'], n ++ '.' :: kind) := by
    apply splitLast_append_name _ _ hn' (by simp)
    cases n with
    | nil => exact absurd rfl hn2
    | cons a as => simp
  have hfn' : fileName (d ++ '/' :: (n ++ '.' :: kind)) = some (n ++ '.' :: kind) := by
    unfold fileName
    rw [hsl']
    have : n ++ '.' :: kind ≠ str!".." := by
      intro h
      cases n with
      | nil => exact absurd rfl hn2
      | cons a as =>
        cases as with
        | nil => simp at h; exact hk h.2
        | cons b bs => cases bs <;> simp at h
    simp [this]
  have e2 : addExtension (addExtension p kind) sfx
      = d ++ '/' :: (n ++ '.' :: kind ++ '.' :: sfx) := by
    rw [e1]
    unfold addExtension extension setExtension
    rw [hfn', hsl']
    simp [stemExt_append n kind hn2 hk1]
  rw [e2]
  constructor
  · rw [segs_append_sep, hseg, extLast_append_singleton,
      segs_single (n ++ '.' :: kind ++ '.' :: sfx)]
    · simp
    · simp [hn1, hk2, hsfx]
    · simp
    · cases n with
      | nil => exact absurd rfl hn2
      | cons a as => simp
  · obtain ⟨q, hq⟩ := hroot
    have hp := stripTail_prefix p
    rw [← splitLast_append, hsl, hq] at hp
    cases d with
    | nil => exact ⟨_, rfl⟩
    | cons a as =>
      obtain ⟨t, ht⟩ := hp
      simp at ht
      exact ⟨_, by rw [ht.1]; rfl⟩

theorem joinPath_root (r c : Str) (h : Rel c) (h0 : ∃ q, r = '/' :: q) :
    ∃ q, joinPath r c = '/' :: q := by
  obtain ⟨q, rfl⟩ := h0
  unfold joinPath
  split
  · exact absurd rfl (h _)
  · split <;> exact ⟨_, rfl⟩

/-- Components of the location of array metadata, below the base directory. -/
theorem segs_arrayMetadataKey {e : EntryPointMetadata} (he : GoodSuffix e) {path : Str}
    (hp : Plain (segs path)) :
    segs (arrayMetadataKey e path) =
      extLast (metaExt str!"array" e.metadataKeySuffix) (str!"meta" :: str!"root" :: segs path) := by
  have hj : segs (joinPath metaRoot (canonicalizePath path))
      = str!"meta" :: str!"root" :: segs path := by
    rw [segs_joinPath _ _ (rel_canonicalizePath path), segs_canonicalizePath]; rfl
  have := (metaKey_spec (p := joinPath metaRoot (canonicalizePath path)) (kind := str!"array")
    (sfx := stripDot e.metadataKeySuffix)
    (joinPath_root _ _ (rel_canonicalizePath path) ⟨_, rfl⟩) (by rw [hj]; simp)
    (by rw [hj]; unfold Plain at *; simp [dotdot, hp] at *; exact hp)
    (by simp) (by decide) (by decide) (notMem_stripDot he)).1
  rw [hj] at this
  exact this

theorem segs_groupMetadataKey {e : EntryPointMetadata} (he : GoodSuffix e) {path : Str}
    (hp : Plain (segs path)) :
    segs (groupMetadataKey e path) =
      extLast (metaExt str!"group" e.metadataKeySuffix) (str!"meta" :: str!"root" :: segs path) := by
  have hj : segs (joinPath metaRoot (canonicalizePath path))
      = str!"meta" :: str!"root" :: segs path := by
    rw [segs_joinPath _ _ (rel_canonicalizePath path), segs_canonicalizePath]; rfl
  have := (metaKey_spec (p := joinPath metaRoot (canonicalizePath path)) (kind := str!"group")
    (sfx := stripDot e.metadataKeySuffix)
    (joinPath_root _ _ (rel_canonicalizePath path) ⟨_, rfl⟩) (by rw [hj]; simp)
    (by rw [hj]; unfold Plain at *; simp [dotdot, hp] at *; exact hp)
    (by simp) (by decide) (by decide) (notMem_stripDot he)).1
  rw [hj] at this
  exact this

theorem segs_dataPathKey (path : Str) :
    segs (dataPathKey path) = str!"data" :: str!"root" :: segs path := by
  rw [dataPathKey, segs_joinPath _ _ (rel_canonicalizePath path), segs_canonicalizePath]; rfl

theorem plain_extLast_meta {kind sfx : Str} {ss : List Str} (h : Plain ss) (hk : kind ≠ []) :
    Plain (extLast (metaExt kind sfx) (str!"meta" :: str!"root" :: ss)) := by
  have hne : (str!"meta" :: str!"root" :: ss) ≠ [] := by simp
  have hp : Plain (str!"meta" :: str!"root" :: ss) := by
    unfold Plain at *; simp [dotdot] at *; exact h
  rw [(List.dropLast_concat_getLast hne).symm] at hp ⊢
  rw [extLast_append_singleton]
  rw [plain_append] at hp ⊢
  refine ⟨hp.1, ?_⟩
  unfold Plain
  simp only [List.mem_singleton]
  intro h
  have hge : 3 ≤ (metaExt kind sfx).length := by
    have : 0 < kind.length := List.length_pos_iff.mpr hk
    simp [metaExt]; omega
  have hl := congrArg List.length h
  rw [List.length_append] at hl
  have : dotdot.length = 2 := rfl
  omega

end Zarr
