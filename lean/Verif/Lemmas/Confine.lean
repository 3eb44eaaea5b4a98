import Verif.Lemmas.Store
import Verif.Lemmas.ReadOnly
/-! Calls that neither look nor write outside a directory. -/

namespace Zarr

/-- The entries at or below a location, in order. -/
def Spec.below (b : Loc) (fs : Fs) : List (Loc × Node) := fs.ents.filter fun e => b.isPrefixOf e.1
/-- The entries not at or below a location, in order. -/
def Spec.outside (b : Loc) (fs : Fs) : List (Loc × Node) := fs.ents.filter fun e => !b.isPrefixOf e.1

/-- A location and all the ones above it are directories. -/
def Spec.Rooted (b : Loc) (fs : Fs) : Prop := ∀ l, l <+: b → fs.get l = some .dir

/-- Following the components from `n` levels below a directory never goes above that directory. -/
def Spec.Stays : Nat → List Str → Prop
  | _, [] => True
  | n, s :: ss => if s = dotdot then 1 ≤ n ∧ Stays (n - 1) ss else Stays (n + 1) ss

/-- Two filesystems that hold the same below `b`, where there is a directory. -/
structure Spec.Sim (b : Loc) (fs fs' : Fs) : Prop where
  left : Rooted b fs
  right : Rooted b fs'
  same : below b fs = below b fs'

/-- The call returns the same and leaves the same below `b` whatever there is outside, and changes
nothing outside. -/
def Spec.Confined {α : Type} (b : Loc) (x : M Fs α) : Prop := ∀ fs fs', Sim b fs fs' →
  (x fs).1 = (x fs').1 ∧ below b (x fs).2 = below b (x fs').2 ∧
    outside b (x fs).2 = outside b fs ∧ outside b (x fs').2 = outside b fs'

open Spec

theorem stays_of_plain {ss : List Str} (h : Plain ss) (n : Nat) : Stays n ss := by
  induction ss generalizing n with
  | nil => trivial
  | cons s ss ih =>
    have h1 : s ≠ dotdot := fun e => h (by rw [e]; exact List.mem_cons_self ..)
    have h2 : Plain ss := fun e => h (List.mem_cons_of_mem _ e)
    simp only [Stays]
    rw [if_neg h1]
    exact ih h2 _

theorem stays_prefix {n : Nat} {p q : List Str} (h : Stays n (p ++ q)) : Stays n p := by
  induction p generalizing n with
  | nil => trivial
  | cons s p ih =>
    simp only [List.cons_append, Stays] at h ⊢
    split
    · rename_i hs; rw [if_pos hs] at h; exact ⟨h.1, ih h.2⟩
    · rename_i hs; rw [if_neg hs] at h; exact ih h

theorem get_below {b l : Loc} (h : b <+: l) (fs : Fs) : fs.get l = Fs.lookup (below b fs) l := by
  unfold below Fs.get
  rw [Fs.lookup_filter fs.ents (fun k => b.isPrefixOf k)]
  simp [List.isPrefixOf_iff_prefix.mpr h]

theorem get_outside {b l : Loc} (h : ¬ b <+: l) (fs : Fs) : fs.get l = Fs.lookup (outside b fs) l := by
  unfold outside Fs.get
  rw [Fs.lookup_filter fs.ents (fun k => !b.isPrefixOf k)]
  have : b.isPrefixOf l = false := by
    cases hc : b.isPrefixOf l with
    | false => rfl
    | true => exact absurd (List.isPrefixOf_iff_prefix.mp hc) h
  simp [this]

theorem Spec.Sim.get {b : Loc} {fs fs' : Fs} (h : Sim b fs fs') {l : Loc} (hl : b <+: l) :
    fs.get l = fs'.get l := by rw [get_below hl, get_below hl, h.same]

theorem filter_insert_of_pos {p : Loc → Bool} (es : List (Loc × Node)) {l : Loc} (n : Node) (h : p l = true) :
    (Fs.insert es l n).filter (fun e => p e.1) = Fs.insert (es.filter fun e => p e.1) l n := by
  induction es with
  | nil => simp [Fs.insert, h]
  | cons e r ih =>
    obtain ⟨k, m⟩ := e
    simp only [Fs.insert]
    by_cases hk : k = l
    · subst hk
      simp [Fs.insert, h]
    · rw [if_neg hk]
      by_cases hp : p k = true
      · simp [hp, ih, Fs.insert, hk]
      · simp [hp, ih]

theorem filter_insert_of_neg {p : Loc → Bool} (es : List (Loc × Node)) {l : Loc} (n : Node) (h : p l = false) :
    (Fs.insert es l n).filter (fun e => p e.1) = es.filter fun e => p e.1 := by
  induction es with
  | nil => simp [Fs.insert, h]
  | cons e r ih =>
    obtain ⟨k, m⟩ := e
    simp only [Fs.insert]
    by_cases hk : k = l
    · subst hk
      simp [h]
    · rw [if_neg hk]
      simp [List.filter_cons, ih]

/-- States reached from similar ones without a change outside. -/
structure Reach (b : Loc) (fs fs' g g' : Fs) : Prop where
  sim : Sim b g g'
  left : outside b g = outside b fs
  right : outside b g' = outside b fs'

theorem Reach.refl {b : Loc} {fs fs' : Fs} (h : Sim b fs fs') : Reach b fs fs' fs fs' := ⟨h, rfl, rfl⟩

theorem Reach.trans {b : Loc} {fs fs' g g' k k' : Fs} (h : Reach b fs fs' g g') (h' : Reach b g g' k k') :
    Reach b fs fs' k k' := ⟨h'.sim, h'.left.trans h.left, h'.right.trans h.right⟩

theorem below_put {b l : Loc} (h : b <+: l) (fs : Fs) (n : Node) :
    below b (fs.put l n) = Fs.insert (below b fs) l n :=
  filter_insert_of_pos (p := fun k => b.isPrefixOf k) _ n (List.isPrefixOf_iff_prefix.mpr h)

theorem outside_put {b l : Loc} (h : b <+: l) (fs : Fs) (n : Node) :
    outside b (fs.put l n) = outside b fs :=
  filter_insert_of_neg (p := fun k => !b.isPrefixOf k) _ n (by simp [List.isPrefixOf_iff_prefix.mpr h])

theorem Reach.put {b l : Loc} {fs fs' : Fs} (hs : Sim b fs fs') (h : b <+: l) {n : Node} (hn : l = b → n = .dir) :
    Reach b fs fs' (fs.put l n) (fs'.put l n) := by
  have hr : ∀ f, Rooted b f → Rooted b (f.put l n) := by
    intro f hf k hk
    rw [Fs.get_put]
    split
    · rename_i e
      have : l = b := by
        refine List.IsPrefix.eq_of_length (by rw [← e]; exact hk) ?_
        have := h.length_le; have := hk.length_le; rw [e] at this; omega
      rw [hn this]
    · exact hf k hk
  exact ⟨⟨hr _ hs.left, hr _ hs.right, by rw [below_put h, below_put h, hs.same]⟩, outside_put h _ _, outside_put h _ _⟩

/-! ## Path resolution -/

theorem walk_through {fs : Fs} {cur : Loc} (p q : List Str) (hp : Plain p)
    (hd : ∀ l, l <+: p → fs.get (cur ++ l) = some .dir) : fs.walk cur (p ++ q) = fs.walk (cur ++ p) q := by
  induction p generalizing cur with
  | nil => simp
  | cons s p ih =>
    have h1 : s ≠ dotdot := fun e => hp (by rw [e]; exact List.mem_cons_self ..)
    have h2 : Plain p := fun e => hp (List.mem_cons_of_mem _ e)
    have h0 := hd [] List.nil_prefix
    rw [List.append_nil] at h0
    simp only [List.cons_append, Fs.walk, h0]
    rw [if_neg h1, ih h2]
    · simp
    · intro l hl
      have := hd (s :: l) (by simpa using hl)
      simpa using this

theorem walk_below {fs : Fs} {b : Loc} (q : List Str) (t : Loc) (hq : Stays t.length q) {l : Loc}
    (h : fs.walk (b ++ t) q = .ok l) : b <+: l := by
  induction q generalizing t with
  | nil => simp only [Fs.walk, Outcome.ok.injEq] at h; rw [← h]; exact List.prefix_append _ _
  | cons s q ih =>
    simp only [Fs.walk] at h
    cases hg : fs.get (b ++ t) with
    | none => rw [hg] at h; simp at h
    | some n =>
      rw [hg] at h
      cases n with
      | file c => simp at h
      | dir =>
        simp only at h
        simp only [Stays] at hq
        by_cases hs : s = dotdot
        · rw [if_pos hs] at h hq
          have hne : t ≠ [] := by rintro rfl; simp at hq
          rw [List.dropLast_append_of_ne_nil hne] at h
          exact ih t.dropLast (by simpa using hq.2) h
        · rw [if_neg hs] at h hq
          rw [List.append_assoc] at h
          exact ih (t ++ [s]) (by simpa using hq) h

theorem walk_sim {fs fs' : Fs} {b : Loc} (hs : Sim b fs fs') (q : List Str) (t : Loc) (hq : Stays t.length q) :
    fs.walk (b ++ t) q = fs'.walk (b ++ t) q := by
  induction q generalizing t with
  | nil => rfl
  | cons s q ih =>
    simp only [Fs.walk]
    rw [← hs.get (List.prefix_append b t)]
    cases fs.get (b ++ t) with
    | none => rfl
    | some n =>
      cases n with
      | file c => rfl
      | dir =>
        simp only [Stays] at hq ⊢
        by_cases hss : s = dotdot
        · rw [if_pos hss] at hq ⊢
          have hne : t ≠ [] := by rintro rfl; simp at hq
          rw [List.dropLast_append_of_ne_nil hne]
          exact ih t.dropLast (by simpa using hq.2)
        · rw [if_neg hss] at hq ⊢
          rw [List.append_assoc]
          exact ih (t ++ [s]) (by simpa using hq)

theorem locate_rooted {fs : Fs} {b : Loc} (hb : Plain b) (hr : Rooted b fs) (q : List Str) :
    fs.locate (b ++ q) = fs.walk b q := by
  have := walk_through (fs := fs) (cur := []) b q hb (fun l hl => by simpa using hr l hl)
  simpa [Fs.locate] using this

theorem locate_below {fs : Fs} {b : Loc} (hb : Plain b) (hr : Rooted b fs) {q : List Str} (hq : Stays 0 q)
    {l : Loc} (h : fs.locate (b ++ q) = .ok l) : b <+: l := by
  rw [locate_rooted hb hr] at h
  exact walk_below q [] hq (by simpa using h)

theorem locate_sim {fs fs' : Fs} {b : Loc} (hb : Plain b) (hs : Sim b fs fs') {q : List Str} (hq : Stays 0 q) :
    fs.locate (b ++ q) = fs'.locate (b ++ q) := by
  rw [locate_rooted hb hs.left, locate_rooted hb hs.right]
  simpa using walk_sim hs q [] hq

theorem node_sim {fs fs' : Fs} {b : Loc} (hb : Plain b) (hs : Sim b fs fs') {q : List Str} (hq : Stays 0 q) :
    fs.node (b ++ q) = fs'.node (b ++ q) := by
  unfold Fs.node
  rw [← locate_sim hb hs hq]
  cases hl : fs.locate (b ++ q) with
  | ok l => exact hs.get (locate_below hb hs.left hq hl)
  | err e => rfl
  | panic => rfl

theorem isFile_sim {fs fs' : Fs} {b : Loc} (hb : Plain b) (hs : Sim b fs fs') {q : List Str} (hq : Stays 0 q) :
    fs.isFile (b ++ q) = fs'.isFile (b ++ q) := by
  unfold Fs.isFile; rw [node_sim hb hs hq]

theorem isDir_sim {fs fs' : Fs} {b : Loc} (hb : Plain b) (hs : Sim b fs fs') {q : List Str} (hq : Stays 0 q) :
    fs.isDir (b ++ q) = fs'.isDir (b ++ q) := by
  unfold Fs.isDir; rw [node_sim hb hs hq]

theorem pathExists_sim {fs fs' : Fs} {b : Loc} (hb : Plain b) (hs : Sim b fs fs') {q : List Str} (hq : Stays 0 q) :
    fs.pathExists (b ++ q) = fs'.pathExists (b ++ q) := by
  unfold Fs.pathExists; rw [node_sim hb hs hq]

theorem readFile_sim {fs fs' : Fs} {b : Loc} (hb : Plain b) (hs : Sim b fs fs') {q : List Str} (hq : Stays 0 q) :
    fs.readFile (b ++ q) = fs'.readFile (b ++ q) := by
  unfold Fs.readFile
  rw [← locate_sim hb hs hq]
  cases hl : fs.locate (b ++ q) with
  | ok l => simp only; rw [hs.get (locate_below hb hs.left hq hl)]
  | err e => rfl
  | panic => rfl

/-! ## Creating -/

/-- Two outcomes that agree and reach corresponding states. -/
inductive OutRel (b : Loc) (fs fs' : Fs) : Outcome Fs → Outcome Fs → Prop
  | ok {g g' : Fs} (h : Reach b fs fs' g g') : OutRel b fs fs' (.ok g) (.ok g')
  | err (e : ErrKind) : OutRel b fs fs' (.err e) (.err e)
  | panic : OutRel b fs fs' .panic .panic

theorem mkdir_sim {fs fs' : Fs} {b : Loc} (hb : Plain b) (hs : Sim b fs fs') {q : List Str} (hq : Stays 0 q) :
    OutRel b fs fs' (fs.mkdir (b ++ q)) (fs'.mkdir (b ++ q)) := by
  unfold Fs.mkdir
  rw [← locate_sim hb hs hq]
  cases hl : fs.locate (b ++ q) with
  | ok l =>
    have hbl := locate_below hb hs.left hq hl
    simp only
    rw [← hs.get hbl]
    cases fs.get l with
    | some n => exact .err _
    | none => exact .ok (Reach.put hs hbl fun _ => rfl)
  | err e => exact .err _
  | panic => exact .panic

theorem mkdirAllRev_sim {b : Loc} (hb : Plain b) (q : List Str) {fs fs' : Fs} (hs : Sim b fs fs') (hq : Stays 0 q) :
    (Fs.mkdirAllRev (b ++ q).reverse fs).1 = (Fs.mkdirAllRev (b ++ q).reverse fs').1 ∧
    Reach b fs fs' (Fs.mkdirAllRev (b ++ q).reverse fs).2 (Fs.mkdirAllRev (b ++ q).reverse fs').2 := by
  induction q using Fs.list_concat_induction generalizing fs fs' with
  | h0 =>
    have hm : ∀ f, Rooted b f → Fs.mkdirAllRev (b ++ []).reverse f = (.ok (), f) := by
      intro f hf
      have hl : f.locate b = .ok b := by
        have := locate_rooted hb hf []
        simpa [Fs.walk] using this
      have hd : f.isDir b = true := by
        simp [Fs.isDir, Fs.node, hl, hf b (List.prefix_refl _)]
      have hmk : f.mkdir b = .err .alreadyExists := by
        simp [Fs.mkdir, hl, hf b (List.prefix_refl _)]
      rw [List.append_nil]
      generalize hr : b.reverse = r
      cases r with
      | nil =>
        have : b = [] := by simpa using hr
        subst this
        simp [Fs.mkdirAllRev, hd]
      | cons s r =>
        have hbr : (s :: r).reverse = b := by rw [← hr]; simp
        unfold Fs.mkdirAllRev
        rw [hbr, hmk]
        simp [hd]
    rw [hm fs hs.left, hm fs' hs.right]
    exact ⟨rfl, Reach.refl hs⟩
  | h1 q s ih =>
    have hq' := stays_prefix hq
    have e : (b ++ (q ++ [s])).reverse = s :: (b ++ q).reverse := by simp
    have e2 : (s :: (b ++ q).reverse).reverse = b ++ (q ++ [s]) := by simp
    rw [e]
    unfold Fs.mkdirAllRev
    rw [e2]
    have h1 := mkdir_sim hb hs hq
    generalize fs.mkdir (b ++ (q ++ [s])) = o at h1
    generalize fs'.mkdir (b ++ (q ++ [s])) = o' at h1
    cases h1 with
    | ok h => exact ⟨rfl, h⟩
    | panic => exact ⟨rfl, Reach.refl hs⟩
    | err er =>
      simp only
      by_cases hne : er = .notFound
      · rw [if_pos hne, if_pos hne]
        obtain ⟨i1, i2⟩ := ih hs hq'
        generalize Fs.mkdirAllRev (b ++ q).reverse fs = r at i1 i2 ⊢
        generalize Fs.mkdirAllRev (b ++ q).reverse fs' = r' at i1 i2 ⊢
        obtain ⟨a, g⟩ := r
        obtain ⟨a', g'⟩ := r'
        simp only at i1 i2
        subst i1
        cases a with
        | err e => exact ⟨rfl, i2⟩
        | panic => exact ⟨rfl, i2⟩
        | ok u =>
          simp only
          have h2 := mkdir_sim hb i2.sim hq
          rw [isDir_sim hb i2.sim hq]
          generalize g.mkdir (b ++ (q ++ [s])) = o at h2 ⊢
          generalize g'.mkdir (b ++ (q ++ [s])) = o' at h2 ⊢
          cases h2 with
          | ok h => exact ⟨rfl, i2.trans h⟩
          | panic => exact ⟨rfl, i2⟩
          | err er => simp only; split <;> exact ⟨rfl, i2⟩
      · rw [if_neg hne, if_neg hne, isDir_sim hb hs hq]
        split <;> exact ⟨rfl, Reach.refl hs⟩

/-- A confined call after which the directory is still there. -/
def Kept {α : Type} (b : Loc) (x : M Fs α) : Prop := ∀ fs fs', Sim b fs fs' →
  (x fs).1 = (x fs').1 ∧ Reach b fs fs' (x fs).2 (x fs').2

theorem Kept.confined {α : Type} {b : Loc} {x : M Fs α} (h : Kept b x) : Confined b x := by
  intro fs fs' hs
  obtain ⟨h1, h2⟩ := h fs fs' hs
  exact ⟨h1, h2.sim.same, h2.left, h2.right⟩

theorem Kept.bind {α β : Type} {b : Loc} {x : M Fs α} {f : α → M Fs β} (hx : Kept b x)
    (hf : ∀ a, Kept b (f a)) : Kept b (x >>= f) := by
  intro fs fs' hs
  rw [M.bind_apply, M.bind_apply]
  obtain ⟨h1, h2⟩ := hx fs fs' hs
  generalize x fs = r at h1 h2 ⊢
  generalize x fs' = r' at h1 h2 ⊢
  obtain ⟨a, g⟩ := r
  obtain ⟨a', g'⟩ := r'
  simp only at h1 h2
  subst h1
  cases a with
  | err e => exact ⟨rfl, h2⟩
  | panic => exact ⟨rfl, h2⟩
  | ok a =>
    obtain ⟨h3, h4⟩ := hf a g g' h2.sim
    exact ⟨h3, h2.trans h4⟩

theorem Kept.bind_confined {α β : Type} {b : Loc} {x : M Fs α} {f : α → M Fs β} (hx : Kept b x)
    (hf : ∀ a, Confined b (f a)) : Confined b (x >>= f) := by
  intro fs fs' hs
  rw [M.bind_apply, M.bind_apply]
  obtain ⟨h1, h2⟩ := hx fs fs' hs
  generalize x fs = r at h1 h2 ⊢
  generalize x fs' = r' at h1 h2 ⊢
  obtain ⟨a, g⟩ := r
  obtain ⟨a', g'⟩ := r'
  simp only at h1 h2
  subst h1
  cases a with
  | err e => exact ⟨rfl, h2.sim.same, h2.left, h2.right⟩
  | panic => exact ⟨rfl, h2.sim.same, h2.left, h2.right⟩
  | ok a =>
    obtain ⟨h3, h4, h5, h6⟩ := hf a g g' h2.sim
    exact ⟨h3, h4, h5.trans h2.left, h6.trans h2.right⟩

theorem Spec.Confined.bind_pure {α β : Type} {b : Loc} {x : M Fs α} {f : α → β} (hx : Confined b x) :
    Confined b (x >>= fun a => Pure.pure (f a)) := by
  intro fs fs' hs
  rw [M.bind_apply, M.bind_apply]
  obtain ⟨h1, h2, h3, h4⟩ := hx fs fs' hs
  generalize x fs = r at h1 h2 h3 h4 ⊢
  generalize x fs' = r' at h1 h2 h3 h4 ⊢
  obtain ⟨a, g⟩ := r
  obtain ⟨a', g'⟩ := r'
  simp only at h1 h2 h3 h4
  subst h1
  cases a <;> exact ⟨rfl, h2, h3, h4⟩

theorem Kept.lift {α : Type} {b : Loc} (o : Outcome α) : Kept b (M.lift o : M Fs α) :=
  fun _ _ hs => ⟨rfl, Reach.refl hs⟩

theorem Kept.pure {α : Type} {b : Loc} (a : α) : Kept b (Pure.pure a : M Fs α) :=
  fun _ _ hs => ⟨rfl, Reach.refl hs⟩

theorem Kept.read {α : Type} {b : Loc} {f : Fs → Outcome α} (h : ∀ fs fs', Sim b fs fs' → f fs = f fs') :
    Kept b (M.read f) := fun fs fs' hs => ⟨h fs fs' hs, Reach.refl hs⟩

theorem Kept.ite {α : Type} {b : Loc} {c : Prop} [Decidable c] {x y : M Fs α} (hx : Kept b x)
    (hy : Kept b y) : Kept b (if c then x else y) := by
  split <;> assumption

/-! ## The store calls -/

theorem segs_target {base key t : Str} (h : getPath base key = .ok t) : segs t = segs base ++ segs key := by
  rw [getPath_eq] at h
  split at h
  · simp at h
  · simp only [Outcome.ok.injEq] at h
    rw [← h, segs_joinPath_unroot]

variable {h : Hier}

theorem storeExists_kept (hb : Plain (segs h.base)) {key : Str} (hk : Stays 0 (segs key)) :
    Kept (segs h.base) (storeExists h key) := by
  refine Kept.read fun fs fs' hs => ?_
  cases hp : getPath h.base key with
  | ok t => simp only [Outcome.bind_ok]; rw [segs_target hp, isFile_sim hb hs hk]
  | err e => rfl
  | panic => rfl

theorem storeGet_kept (hb : Plain (segs h.base)) {key : Str} (hk : Stays 0 (segs key)) :
    Kept (segs h.base) (storeGet h key) := by
  refine Kept.read fun fs fs' hs => ?_
  cases hp : getPath h.base key with
  | ok t =>
    simp only [Outcome.bind_ok]
    rw [segs_target hp, isFile_sim hb hs hk, readFile_sim hb hs hk]
  | err e => rfl
  | panic => rfl

theorem storeUri_kept (b : Loc) (key : Str) : Kept b (storeUri h key) :=
  Kept.read fun _ _ _ => rfl

theorem filterMap_filter_of {α β : Type} {f : α → Option β} {p : α → Bool}
    (hf : ∀ a, p a = false → f a = none) (l : List α) : (l.filter p).filterMap f = l.filterMap f := by
  induction l with
  | nil => rfl
  | cons a l ih =>
    by_cases hp : p a = true
    · rw [List.filter_cons_of_pos hp, List.filterMap_cons, List.filterMap_cons, ih]
    · rw [List.filter_cons_of_neg hp, List.filterMap_cons, hf a (by simpa using hp), ih]

theorem children_below {b l : Loc} (hl : b <+: l) (fs : Fs) : fs.children l = Fs.children ⟨below b fs⟩ l := by
  unfold Fs.children below
  refine (filterMap_filter_of ?_ _).symm
  intro e hp
  cases hr : e.1.reverse with
  | nil => rfl
  | cons s r =>
    simp only
    rw [if_neg]
    intro e1
    have : e.1 = r.reverse ++ [s] := by
      have := congrArg List.reverse hr
      simpa using this
    rw [this, e1, List.isPrefixOf_iff_prefix.mpr (hl.trans (List.prefix_append _ _))] at hp
    simp at hp

theorem children_sim {b l : Loc} {fs fs' : Fs} (hs : Sim b fs fs') (hl : b <+: l) :
    fs.children l = fs'.children l := by
  rw [children_below hl, children_below hl fs', hs.same]

theorem storeListDir_kept (hb : Plain (segs h.base)) {key : Str} (hk : Stays 0 (segs key)) :
    Kept (segs h.base) (storeListDir h key) := by
  refine Kept.read fun fs fs' hs => ?_
  cases hp : getPath h.base key with
  | ok t =>
    simp only [Outcome.bind_ok]
    rw [segs_target hp, ← locate_sim hb hs hk]
    cases hl : fs.locate (segs h.base ++ segs key) with
    | ok l =>
      have hbl := locate_below hb hs.left hk hl
      simp only
      rw [← hs.get hbl, children_sim hs hbl]
    | err e => rfl
    | panic => rfl
  | err e => rfl
  | panic => rfl

theorem storeSet_kept (hb : Plain (segs h.base)) {key : Str} (hk : Stays 0 (segs key))
    (v : Bytes × Outcome Unit) : Kept (segs h.base) (storeSet h key v) := by
  intro fs fs' hs
  unfold storeSet
  cases hp : getPath h.base key with
  | err e => exact ⟨rfl, Reach.refl hs⟩
  | panic => exact ⟨rfl, Reach.refl hs⟩
  | ok t =>
    simp only
    rw [segs_target hp]
    -- opening and writing
    have hopen : ∀ g g' : Fs, Reach (segs h.base) fs fs' g g' →
        (match Fs.openCreate (segs h.base ++ segs key) g with
          | .err e => (.err e, g)
          | .panic => (.panic, g)
          | .ok (l, fs2) => (v.2, fs2.put l (.file v.1)) : Outcome Unit × Fs).1 =
        (match Fs.openCreate (segs h.base ++ segs key) g' with
          | .err e => (.err e, g')
          | .panic => (.panic, g')
          | .ok (l, fs2) => (v.2, fs2.put l (.file v.1)) : Outcome Unit × Fs).1 ∧
        Reach (segs h.base) fs fs' (match Fs.openCreate (segs h.base ++ segs key) g with
          | .err e => (.err e, g)
          | .panic => (.panic, g)
          | .ok (l, fs2) => (v.2, fs2.put l (.file v.1)) : Outcome Unit × Fs).2
        (match Fs.openCreate (segs h.base ++ segs key) g' with
          | .err e => (.err e, g')
          | .panic => (.panic, g')
          | .ok (l, fs2) => (v.2, fs2.put l (.file v.1)) : Outcome Unit × Fs).2 := by
      intro g g' hg
      unfold Fs.openCreate
      rw [← locate_sim hb hg.sim hk]
      cases hl : g.locate (segs h.base ++ segs key) with
      | err e => exact ⟨rfl, hg⟩
      | panic => exact ⟨rfl, hg⟩
      | ok l =>
        have hbl := locate_below hb hg.sim.left hk hl
        simp only
        rw [← hg.sim.get hbl]
        cases hgl : g.get l with
        | none =>
          have hne : l ≠ segs h.base := by
            rintro rfl; rw [hg.sim.left _ (List.prefix_refl _)] at hgl; simp at hgl
          have h1 := Reach.put (n := .file []) hg.sim hbl (fun e => absurd e hne)
          exact ⟨rfl, (hg.trans h1).trans (Reach.put h1.sim hbl (fun e => absurd e hne))⟩
        | some n =>
          cases n with
          | dir => exact ⟨rfl, hg⟩
          | file c =>
            have hne : l ≠ segs h.base := by
              rintro rfl; rw [hg.sim.left _ (List.prefix_refl _)] at hgl; simp at hgl
            exact ⟨rfl, hg.trans (Reach.put hg.sim hbl (fun e => absurd e hne))⟩
    -- making the parent
    have hmk : ∃ o g g', Reach (segs h.base) fs fs' g g' ∧
        (if (segs h.base ++ segs key).isEmpty ∨ fs.pathExists (segs h.base ++ segs key).dropLast then
          (.ok (), fs) else Fs.mkdirAll (segs h.base ++ segs key).dropLast fs : Outcome Unit × Fs) = (o, g) ∧
        (if (segs h.base ++ segs key).isEmpty ∨ fs'.pathExists (segs h.base ++ segs key).dropLast then
          (.ok (), fs') else Fs.mkdirAll (segs h.base ++ segs key).dropLast fs' : Outcome Unit × Fs) = (o, g') := by
      by_cases hkn : segs key = []
      · rw [hkn, List.append_nil]
        have hx : ∀ f, Rooted (segs h.base) f → ((segs h.base).isEmpty = true ∨
            f.pathExists (segs h.base).dropLast = true) := by
          intro f hf
          by_cases he : segs h.base = []
          · left; simp [he]
          · right
            have hpl : Plain (segs h.base).dropLast := fun hm => hb (List.dropLast_subset _ hm)
            have hr' : Rooted (segs h.base).dropLast f := fun l hl => hf l (hl.trans (List.dropLast_prefix _))
            have := locate_rooted hpl hr' []
            rw [List.append_nil] at this
            simp [Fs.pathExists, Fs.node, this, Fs.walk, hr' _ (List.prefix_refl _)]
        rw [if_pos (hx fs hs.left), if_pos (hx fs' hs.right)]
        exact ⟨_, _, _, Reach.refl hs, rfl, rfl⟩
      · have hne : segs h.base ++ segs key ≠ [] := by simp [hkn]
        rw [List.dropLast_append_of_ne_nil hkn]
        have hk' : Stays 0 (segs key).dropLast := by
          rw [← List.dropLast_concat_getLast hkn] at hk
          exact stays_prefix hk
        rw [← pathExists_sim hb hs hk']
        by_cases hc : (segs h.base ++ segs key).isEmpty = true ∨
            fs.pathExists (segs h.base ++ (segs key).dropLast) = true
        · rw [if_pos hc, if_pos hc]; exact ⟨_, _, _, Reach.refl hs, rfl, rfl⟩
        · rw [if_neg hc, if_neg hc]
          unfold Fs.mkdirAll
          obtain ⟨m1, m2⟩ := mkdirAllRev_sim hb (segs key).dropLast hs hk'
          exact ⟨_, _, _, m2, rfl, Prod.ext m1.symm rfl⟩
    obtain ⟨o, g, g', hr, e1, e2⟩ := hmk
    rw [e1, e2]
    cases o with
    | err e => exact ⟨rfl, hr⟩
    | panic => exact ⟨rfl, hr⟩
    | ok u => exact hopen g g' hr

theorem below_filter (b : Loc) (p : Loc → Bool) (fs : Fs) :
    below b ⟨fs.ents.filter fun e => p e.1⟩ = (below b fs).filter fun e => p e.1 := by
  simp only [below, List.filter_filter]
  congr 1
  funext e
  exact Bool.and_comm _ _

theorem outside_filter {b : Loc} {p : Loc → Bool} (h : ∀ l, ¬ b <+: l → p l = true) (fs : Fs) :
    outside b ⟨fs.ents.filter fun e => p e.1⟩ = outside b fs := by
  simp only [outside, List.filter_filter]
  congr 1
  funext e
  by_cases hp : b <+: e.1
  · simp [List.isPrefixOf_iff_prefix.mpr hp]
  · simp [h _ hp]

theorem storeErase_kept (hb : Plain (segs h.base)) {key : Str} (hk : Stays 0 (segs key)) :
    Kept (segs h.base) (storeErase h key) := by
  intro fs fs' hs
  unfold storeErase
  cases hp : getPath h.base key with
  | err e => exact ⟨rfl, Reach.refl hs⟩
  | panic => exact ⟨rfl, Reach.refl hs⟩
  | ok t =>
    simp only
    rw [segs_target hp, ← locate_sim hb hs hk]
    cases hl : fs.locate (segs h.base ++ segs key) with
    | err e => exact ⟨rfl, Reach.refl hs⟩
    | panic => exact ⟨rfl, Reach.refl hs⟩
    | ok l =>
      have hbl := locate_below hb hs.left hk hl
      simp only
      rw [← hs.get hbl]
      cases hg : fs.get l with
      | none => exact ⟨rfl, Reach.refl hs⟩
      | some n =>
        cases n with
        | dir => exact ⟨rfl, Reach.refl hs⟩
        | file c =>
          have hne : l ≠ segs h.base := by
            rintro rfl; rw [hs.left _ (List.prefix_refl _)] at hg; simp at hg
          have hr : ∀ f, Rooted (segs h.base) f → Rooted (segs h.base) (f.del l) := by
            intro f hf k hk
            rw [Fs.get_del, if_neg, hf k hk]
            rintro rfl
            exact hne (hk.eq_of_length (by have := hbl.length_le; have := hk.length_le; omega))
          have ho : ∀ f : Fs, outside (segs h.base) (f.del l) = outside (segs h.base) f := fun f =>
            outside_filter (p := fun k => decide (k ≠ l)) (fun k hk => by
              simp only [decide_eq_true_eq]; rintro rfl; exact hk hbl) f
          have hre : Reach (segs h.base) fs fs' (fs.del l) (fs'.del l) :=
            ⟨⟨hr _ hs.left, hr _ hs.right, by
              have e := fun f => below_filter (segs h.base) (fun k => decide (k ≠ l)) f
              exact (e fs).trans ((congrArg _ hs.same).trans (e fs').symm)⟩, ho _, ho _⟩
          refine ⟨?_, hre⟩
          simp only
          rw [pathExists_sim hb hre.sim hk]

theorem storeErasePrefix_confined (hb : Plain (segs h.base)) {key : Str} (hk : Plain (segs key)) :
    Confined (segs h.base) (storeErasePrefix h key) := by
  intro fs fs' hs
  have hst := stays_of_plain hk 0
  unfold storeErasePrefix
  cases hp : getPath h.base key with
  | err e => exact ⟨rfl, hs.same, rfl, rfl⟩
  | panic => exact ⟨rfl, hs.same, rfl, rfl⟩
  | ok t =>
    simp only
    rw [segs_target hp, ← locate_sim hb hs hst]
    cases hl : fs.locate (segs h.base ++ segs key) with
    | err e => exact ⟨rfl, hs.same, rfl, rfl⟩
    | panic => exact ⟨rfl, hs.same, rfl, rfl⟩
    | ok l =>
      have hbl := locate_below hb hs.left hst hl
      have hll := Fs.locate_plain_ok (hb.append hk) hl
      simp only
      rw [← hs.get hbl]
      cases hg : fs.get l with
      | none => exact ⟨rfl, hs.same, rfl, rfl⟩
      | some n =>
        have ho : ∀ f : Fs, outside (segs h.base) (f.delTree l) = outside (segs h.base) f := fun f =>
          outside_filter (p := fun k => !l.isPrefixOf k) (fun k hk => by
            have : l.isPrefixOf k = false := by
              cases hc : l.isPrefixOf k with
              | false => rfl
              | true => exact absurd (hbl.trans (List.isPrefixOf_iff_prefix.mp hc)) hk
            simp [this]) f
        have e := fun f => below_filter (segs h.base) (fun k => !l.isPrefixOf k) f
        refine ⟨?_, (e fs).trans ((congrArg _ hs.same).trans (e fs').symm), ho _, ho _⟩
        have hno : ∀ f : Fs, (f.delTree l).pathExists (segs h.base ++ segs key) = false := by
          intro f
          unfold Fs.pathExists Fs.node
          cases hl' : (f.delTree l).locate (segs h.base ++ segs key) with
          | ok l' =>
            have := Fs.locate_plain_ok (hb.append hk) hl'
            simp only
            rw [Fs.get_delTree, if_pos (by rw [this, hll]; exact List.prefix_refl _)]
            rfl
          | err e => rfl
          | panic => rfl
        simp only [hno]

attribute [irreducible] Spec.Stays

end Zarr
