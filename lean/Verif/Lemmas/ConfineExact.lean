import Verif.Lemmas.Confine
import Verif.Lemmas.Moved
/-! Exactly the keys with which a store call stays inside a directory. -/

namespace Zarr

/-- Where a component of a path leads. -/
def Spec.stepTo (cur : Loc) (s : Str) : Loc := if s = dotdot then cur.dropLast else cur ++ [s]

/-- Where a path leads. -/
def Spec.dest : Loc → List Str → Loc
  | cur, [] => cur
  | cur, s :: ss => dest (stepTo cur s) ss

/-- The directories that a path goes through: those in which a component of it is looked up. -/
def Spec.passed : Loc → List Str → List Loc
  | _, [] => []
  | cur, s :: ss => cur :: passed (stepTo cur s) ss

/-- At, above or below a directory. -/
def Spec.InLine (b l : Loc) : Prop := l <+: b ∨ b <+: l

/-- `Confined`, for filesystems that are trees. -/
def Spec.ConfinedTrees {α : Type} (b : Loc) (x : M Fs α) : Prop := ∀ fs fs' : Fs, fs.WF → fs'.WF → Sim b fs fs' →
  (x fs).1 = (x fs').1 ∧ below b (x fs).2 = below b (x fs').2 ∧
    outside b (x fs).2 = outside b fs ∧ outside b (x fs').2 = outside b fs'

open Spec

theorem Spec.Confined.trees {α : Type} {b : Loc} {x : M Fs α} (h : Confined b x) : ConfinedTrees b x :=
  fun fs fs' _ _ hs => h fs fs' hs

theorem prefixes_cmp {a b c : Loc} (h1 : a <+: c) (h2 : b <+: c) : a <+: b ∨ b <+: a :=
  List.prefix_or_prefix_of_prefix h1 h2

theorem passed_append (cur : Loc) (p q : List Str) : passed cur (p ++ q) = passed cur p ++ passed (dest cur p) q := by
  induction p generalizing cur with
  | nil => rfl
  | cons s p ih => simp only [List.cons_append, passed, dest, ih]

theorem dest_append (cur : Loc) (p q : List Str) : dest cur (p ++ q) = dest (dest cur p) q := by
  induction p generalizing cur with
  | nil => rfl
  | cons s p ih => simp only [List.cons_append, dest, ih]

theorem dest_plain {p : List Str} (hp : Plain p) (cur : Loc) : dest cur p = cur ++ p := by
  induction p generalizing cur with
  | nil => simp [dest]
  | cons s p ih =>
    have h1 : s ≠ dotdot := fun e => hp (by rw [e]; exact List.mem_cons_self ..)
    have h2 : Plain p := fun e => hp (List.mem_cons_of_mem _ e)
    rw [dest, ih h2, stepTo, if_neg h1]; simp

theorem passed_plain {p : List Str} (hp : Plain p) (cur : Loc) {l : Loc} (h : l ∈ passed cur p) : l <+: cur ++ p := by
  induction p generalizing cur with
  | nil => simp [passed] at h
  | cons s p ih =>
    have h1 : s ≠ dotdot := fun e => hp (by rw [e]; exact List.mem_cons_self ..)
    have h2 : Plain p := fun e => hp (List.mem_cons_of_mem _ e)
    rw [passed] at h
    rcases List.mem_cons.mp h with h | h
    · rw [h]; exact List.prefix_append _ _
    · have := ih h2 _ h
      rw [stepTo, if_neg h1] at this
      simpa using this

/-- A successful walk goes through directories and ends where the path leads. -/
theorem walk_ok {fs : Fs} {cur : Loc} {p : List Str} {l : Loc} (h : fs.walk cur p = .ok l) :
    l = dest cur p ∧ ∀ m ∈ passed cur p, fs.get m = some .dir := by
  induction p generalizing cur with
  | nil => simp only [Fs.walk, Outcome.ok.injEq] at h; exact ⟨h.symm, by simp [passed]⟩
  | cons s p ih =>
    simp only [Fs.walk] at h
    cases hg : fs.get cur with
    | none => rw [hg] at h; simp at h
    | some n =>
      rw [hg] at h
      cases n with
      | file c => simp at h
      | dir =>
        obtain ⟨h1, h2⟩ := ih h
        refine ⟨h1, ?_⟩
        intro m hm
        rcases List.mem_cons.mp hm with hm | hm
        · rw [hm, hg]
        · exact h2 m hm

theorem walk_dirs {fs : Fs} {cur : Loc} {p : List Str} (h : ∀ m ∈ passed cur p, fs.get m = some .dir) :
    fs.walk cur p = .ok (dest cur p) := by
  induction p generalizing cur with
  | nil => rfl
  | cons s p ih =>
    simp only [Fs.walk]
    rw [h cur (List.mem_cons_self ..)]
    exact ih fun m hm => h m (List.mem_cons_of_mem _ hm)

/-- A walk that goes through a file fails there. -/
theorem walk_file {fs : Fs} {cur : Loc} {p : List Str} {l : Loc} {c : Bytes} (hl : fs.get l = some (.file c))
    (hd : ∀ m ∈ passed cur p, ¬ l <+: m → fs.get m = some .dir) (hc : cur = l ∨ ¬ l <+: cur)
    (h : l ∈ passed cur p) : fs.walk cur p = .err .notADirectory := by
  induction p generalizing cur with
  | nil => simp [passed] at h
  | cons s p ih =>
    simp only [Fs.walk]
    by_cases hcl : cur = l
    · rw [hcl, hl]
    · have hn : ¬ l <+: cur := hc.resolve_left hcl
      rw [hd cur (List.mem_cons_self ..) hn]
      refine ih (fun m hm => hd m (List.mem_cons_of_mem _ hm)) ?_ ?_
      · show stepTo cur s = l ∨ ¬ l <+: stepTo cur s
        unfold stepTo
        split
        · exact .inr fun hp => hn (hp.trans (List.dropLast_prefix _))
        · by_cases he : cur ++ [s] = l
          · exact .inl he
          · refine .inr fun hp => ?_
            rcases List.prefix_concat_iff.mp hp with h1 | h1
            · exact he h1.symm
            · exact hn h1
      · exact (List.mem_cons.mp h).resolve_left fun e => hcl e.symm

/-! ## Keys that stay in line -/

theorem get_line {b : Loc} {fs fs' : Fs} (hs : Sim b fs fs') {l : Loc} (hl : InLine b l) : fs.get l = fs'.get l := by
  rcases hl with h | h
  · rw [hs.left l h, hs.right l h]
  · exact hs.get h

/-- The path leads to and through places in line with `b`. -/
def Line (b : Loc) (p : List Str) : Prop := ∀ l ∈ dest [] p :: passed [] p, InLine b l

theorem Line.concat {b : Loc} {p : List Str} {s : Str} (h : Line b (p ++ [s])) : Line b p := by
  intro l hl
  apply h
  rw [passed_append]
  rcases List.mem_cons.mp hl with hl | hl
  · simp [passed, hl]
  · simp [hl]

theorem walk_line {b : Loc} {fs fs' : Fs} (hs : Sim b fs fs') (p : List Str) (cur : Loc)
    (h : ∀ l ∈ passed cur p, InLine b l) : fs.walk cur p = fs'.walk cur p := by
  induction p generalizing cur with
  | nil => rfl
  | cons s p ih =>
    simp only [Fs.walk]
    rw [← get_line hs (h cur (List.mem_cons_self ..))]
    cases fs.get cur with
    | none => rfl
    | some n =>
      cases n with
      | file c => rfl
      | dir => exact ih _ fun l hl => h l (List.mem_cons_of_mem _ hl)

variable {b : Loc} {fs fs' : Fs} {p : List Str}

theorem locate_line (hs : Sim b fs fs') (h : Line b p) : fs.locate p = fs'.locate p :=
  walk_line hs p [] fun l hl => h l (List.mem_cons_of_mem _ hl)

theorem locate_inLine (h : Line b p) {l : Loc} (hl : fs.locate p = .ok l) : InLine b l := by
  rw [(walk_ok hl).1]; exact h _ (List.mem_cons_self ..)

theorem node_line (hs : Sim b fs fs') (h : Line b p) : fs.node p = fs'.node p := by
  unfold Fs.node
  rw [← locate_line hs h]
  cases hl : fs.locate p with
  | ok l => exact get_line hs (locate_inLine h hl)
  | err e => rfl
  | panic => rfl

theorem pathExists_line (hs : Sim b fs fs') (h : Line b p) : fs.pathExists p = fs'.pathExists p := by
  unfold Fs.pathExists; rw [node_line hs h]

theorem isDir_line (hs : Sim b fs fs') (h : Line b p) : fs.isDir p = fs'.isDir p := by
  unfold Fs.isDir; rw [node_line hs h]

theorem isFile_line (hs : Sim b fs fs') (h : Line b p) : fs.isFile p = fs'.isFile p := by
  unfold Fs.isFile; rw [node_line hs h]

theorem readFile_line (hs : Sim b fs fs') (h : Line b p) : fs.readFile p = fs'.readFile p := by
  unfold Fs.readFile
  rw [← locate_line hs h]
  cases hl : fs.locate p with
  | ok l => simp only; rw [get_line hs (locate_inLine h hl)]
  | err e => rfl
  | panic => rfl

/-- What is in line and is no directory is below. -/
theorem below_of_line (hr : Rooted b fs) {l : Loc} (h : InLine b l) (hd : fs.get l ≠ some .dir) : b <+: l ∧ l ≠ b := by
  rcases h with h | h
  · exact absurd (hr l h) hd
  · exact ⟨h, fun e => hd (e ▸ hr b (List.prefix_refl _))⟩

theorem mkdir_line (hs : Sim b fs fs') (h : Line b p) : OutRel b fs fs' (fs.mkdir p) (fs'.mkdir p) := by
  unfold Fs.mkdir
  rw [← locate_line hs h]
  cases hl : fs.locate p with
  | ok l =>
    have hbl := locate_inLine h hl
    simp only
    rw [← get_line hs hbl]
    cases hg : fs.get l with
    | some n => exact .err _
    | none => exact .ok (Reach.put hs (below_of_line hs.left hbl (by rw [hg]; simp)).1 fun _ => rfl)
  | err e => exact .err _
  | panic => exact .panic

theorem mkdirAllRev_line (q : List Str) {fs fs' : Fs} (hs : Sim b fs fs') (h : Line b q) :
    (Fs.mkdirAllRev q.reverse fs).1 = (Fs.mkdirAllRev q.reverse fs').1 ∧
    Reach b fs fs' (Fs.mkdirAllRev q.reverse fs).2 (Fs.mkdirAllRev q.reverse fs').2 := by
  induction q using Fs.list_concat_induction generalizing fs fs' with
  | h0 =>
    simp only [List.reverse_nil, Fs.mkdirAllRev]
    rw [← isDir_line hs h]
    split <;> exact ⟨rfl, Reach.refl hs⟩
  | h1 q s ih =>
    have hq' := h.concat
    have e : (q ++ [s]).reverse = s :: q.reverse := by simp
    have e2 : (s :: q.reverse).reverse = q ++ [s] := by simp
    rw [e]
    unfold Fs.mkdirAllRev
    rw [e2]
    have h1 := mkdir_line hs h
    generalize fs.mkdir (q ++ [s]) = o at h1
    generalize fs'.mkdir (q ++ [s]) = o' at h1
    cases h1 with
    | ok h => exact ⟨rfl, h⟩
    | panic => exact ⟨rfl, Reach.refl hs⟩
    | err er =>
      simp only
      by_cases hne : er = .notFound
      · rw [if_pos hne, if_pos hne]
        obtain ⟨i1, i2⟩ := ih hs hq'
        generalize Fs.mkdirAllRev q.reverse fs = r at i1 i2 ⊢
        generalize Fs.mkdirAllRev q.reverse fs' = r' at i1 i2 ⊢
        obtain ⟨a, g⟩ := r
        obtain ⟨a', g'⟩ := r'
        simp only at i1 i2
        subst i1
        cases a with
        | err e => exact ⟨rfl, i2⟩
        | panic => exact ⟨rfl, i2⟩
        | ok u =>
          simp only
          have h2 := mkdir_line i2.sim h
          rw [isDir_line i2.sim h]
          generalize g.mkdir (q ++ [s]) = o at h2 ⊢
          generalize g'.mkdir (q ++ [s]) = o' at h2 ⊢
          cases h2 with
          | ok h => exact ⟨rfl, i2.trans h⟩
          | panic => exact ⟨rfl, i2⟩
          | err er => simp only; split <;> exact ⟨rfl, i2⟩
      · rw [if_neg hne, if_neg hne, isDir_line hs h]
        split <;> exact ⟨rfl, Reach.refl hs⟩

variable {h : Hier} {key : Str}

theorem storeExists_line (hk : Line b (segs h.base ++ segs key)) : Kept b (storeExists h key) := by
  refine Kept.read fun fs fs' hs => ?_
  cases hp : getPath h.base key with
  | ok t => simp only [Outcome.bind_ok]; rw [segs_target hp, isFile_line hs hk]
  | err e => rfl
  | panic => rfl

theorem storeGet_line (hk : Line b (segs h.base ++ segs key)) : Kept b (storeGet h key) := by
  refine Kept.read fun fs fs' hs => ?_
  cases hp : getPath h.base key with
  | ok t =>
    simp only [Outcome.bind_ok]
    rw [segs_target hp, isFile_line hs hk, readFile_line hs hk]
  | err e => rfl
  | panic => rfl

theorem storeListDir_line (hk : Line b (segs h.base ++ segs key)) (hd : b <+: dest [] (segs h.base ++ segs key)) :
    Kept b (storeListDir h key) := by
  refine Kept.read fun fs fs' hs => ?_
  cases hp : getPath h.base key with
  | ok t =>
    simp only [Outcome.bind_ok]
    rw [segs_target hp, ← locate_line hs hk]
    cases hl : fs.locate (segs h.base ++ segs key) with
    | ok l =>
      have hbl : b <+: l := by rw [(walk_ok hl).1]; exact hd
      simp only
      rw [← hs.get hbl, children_sim hs hbl]
    | err e => rfl
    | panic => rfl
  | err e => rfl
  | panic => rfl

theorem storeSet_line (hk : Line b (segs h.base ++ segs key)) (v : Bytes × Outcome Unit) :
    Kept b (storeSet h key v) := by
  intro fs fs' hs
  unfold storeSet
  cases hp : getPath h.base key with
  | err e => exact ⟨rfl, Reach.refl hs⟩
  | panic => exact ⟨rfl, Reach.refl hs⟩
  | ok t =>
    simp only
    rw [segs_target hp]
    generalize hP : segs h.base ++ segs key = P at hk
    have hopen : ∀ g g' : Fs, Reach b fs fs' g g' →
        (match Fs.openCreate P g with
          | .err e => (.err e, g)
          | .panic => (.panic, g)
          | .ok (l, fs2) => (v.2, fs2.put l (.file v.1)) : Outcome Unit × Fs).1 =
        (match Fs.openCreate P g' with
          | .err e => (.err e, g')
          | .panic => (.panic, g')
          | .ok (l, fs2) => (v.2, fs2.put l (.file v.1)) : Outcome Unit × Fs).1 ∧
        Reach b fs fs' (match Fs.openCreate P g with
          | .err e => (.err e, g)
          | .panic => (.panic, g)
          | .ok (l, fs2) => (v.2, fs2.put l (.file v.1)) : Outcome Unit × Fs).2
        (match Fs.openCreate P g' with
          | .err e => (.err e, g')
          | .panic => (.panic, g')
          | .ok (l, fs2) => (v.2, fs2.put l (.file v.1)) : Outcome Unit × Fs).2 := by
      intro g g' hg
      unfold Fs.openCreate
      rw [← locate_line hg.sim hk]
      cases hl : g.locate P with
      | err e => exact ⟨rfl, hg⟩
      | panic => exact ⟨rfl, hg⟩
      | ok l =>
        have hil := locate_inLine hk hl
        simp only
        rw [← get_line hg.sim hil]
        cases hgl : g.get l with
        | none =>
          obtain ⟨hbl, hne⟩ := below_of_line hg.sim.left hil (by rw [hgl]; simp)
          have h1 := Reach.put (n := .file []) hg.sim hbl (fun e => absurd e hne)
          exact ⟨rfl, (hg.trans h1).trans (Reach.put h1.sim hbl (fun e => absurd e hne))⟩
        | some n =>
          cases n with
          | dir => exact ⟨rfl, hg⟩
          | file c =>
            obtain ⟨hbl, hne⟩ := below_of_line hg.sim.left hil (by rw [hgl]; simp)
            exact ⟨rfl, hg.trans (Reach.put hg.sim hbl (fun e => absurd e hne))⟩
    have hmk : ∃ o g g', Reach b fs fs' g g' ∧
        (if P.isEmpty ∨ fs.pathExists P.dropLast then
          (.ok (), fs) else Fs.mkdirAll P.dropLast fs : Outcome Unit × Fs) = (o, g) ∧
        (if P.isEmpty ∨ fs'.pathExists P.dropLast then
          (.ok (), fs') else Fs.mkdirAll P.dropLast fs' : Outcome Unit × Fs) = (o, g') := by
      by_cases hn : P = []
      · rw [if_pos (.inl (by simp [hn])), if_pos (.inl (by simp [hn]))]
        exact ⟨_, _, _, Reach.refl hs, rfl, rfl⟩
      · have hk' : Line b P.dropLast := by
          rw [← List.dropLast_concat_getLast hn] at hk
          exact hk.concat
        rw [← pathExists_line hs hk']
        by_cases hc : P.isEmpty = true ∨ fs.pathExists P.dropLast = true
        · rw [if_pos hc, if_pos hc]; exact ⟨_, _, _, Reach.refl hs, rfl, rfl⟩
        · rw [if_neg hc, if_neg hc]
          unfold Fs.mkdirAll
          obtain ⟨m1, m2⟩ := mkdirAllRev_line P.dropLast hs hk'
          exact ⟨_, _, _, m2, rfl, Prod.ext m1.symm rfl⟩
    obtain ⟨o, g, g', hr, e1, e2⟩ := hmk
    rw [e1, e2]
    cases o with
    | err e => exact ⟨rfl, hr⟩
    | panic => exact ⟨rfl, hr⟩
    | ok u => exact hopen g g' hr

theorem storeErase_line (hk : Line b (segs h.base ++ segs key)) : Kept b (storeErase h key) := by
  intro fs fs' hs
  unfold storeErase
  cases hp : getPath h.base key with
  | err e => exact ⟨rfl, Reach.refl hs⟩
  | panic => exact ⟨rfl, Reach.refl hs⟩
  | ok t =>
    simp only
    rw [segs_target hp, ← locate_line hs hk]
    cases hl : fs.locate (segs h.base ++ segs key) with
    | err e => exact ⟨rfl, Reach.refl hs⟩
    | panic => exact ⟨rfl, Reach.refl hs⟩
    | ok l =>
      have hil := locate_inLine hk hl
      simp only
      rw [← get_line hs hil]
      cases hg : fs.get l with
      | none => exact ⟨rfl, Reach.refl hs⟩
      | some n =>
        cases n with
        | dir => exact ⟨rfl, Reach.refl hs⟩
        | file c =>
          obtain ⟨hbl, hne⟩ := below_of_line hs.left hil (by rw [hg]; simp)
          have hr : ∀ f, Rooted b f → Rooted b (f.del l) := by
            intro f hf k hk
            rw [Fs.get_del, if_neg, hf k hk]
            rintro rfl
            exact hne (hk.eq_of_length (by have := hbl.length_le; have := hk.length_le; omega))
          have ho : ∀ f : Fs, outside b (f.del l) = outside b f := fun f =>
            outside_filter (p := fun k => decide (k ≠ l)) (fun k hk => by
              simp only [decide_eq_true_eq]; rintro rfl; exact hk hbl) f
          have hre : Reach b fs fs' (fs.del l) (fs'.del l) :=
            ⟨⟨hr _ hs.left, hr _ hs.right, by
              have e := fun f => below_filter b (fun k => decide (k ≠ l)) f
              exact (e fs).trans ((congrArg _ hs.same).trans (e fs').symm)⟩, ho _, ho _⟩
          refine ⟨?_, hre⟩
          simp only
          rw [pathExists_line hre.sim hk]

/-! ## Trees with given directories -/

/-- A location and the ones above it made directories, from the reversed names. -/
def addDirRev (fs : Fs) : List Str → Fs
  | [] => fs
  | s :: r => (addDirRev fs r).put (s :: r).reverse .dir

/-- The directories above and at the given locations, and nothing else. -/
def dirsFs : List Loc → Fs
  | [] => ⟨[([], .dir)]⟩
  | l :: ls => addDirRev (dirsFs ls) l.reverse

theorem addDirRev_spec {fs : Fs} (hwf : fs.WF) (r : List Str) :
    (addDirRev fs r).WF ∧ ∀ l, (addDirRev fs r).get l = if l <+: r.reverse then some .dir else fs.get l := by
  induction r with
  | nil =>
    refine ⟨hwf, fun l => ?_⟩
    split
    · rename_i h
      have : l = [] := by simpa using h
      rw [this]; exact hwf.root
    · rfl
  | cons s r ih =>
    obtain ⟨h1, h2⟩ := ih
    have hp : (addDirRev fs r).get r.reverse = some .dir := by rw [h2, if_pos (List.prefix_refl _)]
    simp only [addDirRev, List.reverse_cons]
    refine ⟨h1.put_dir hp, fun l => ?_⟩
    rw [Fs.get_put, h2]
    by_cases he : l = r.reverse ++ [s]
    · rw [if_pos he, if_pos (he ▸ List.prefix_refl _)]
    · rw [if_neg he]
      by_cases hr : l <+: r.reverse
      · rw [if_pos hr, if_pos (hr.trans (List.prefix_append _ _))]
      · rw [if_neg hr, if_neg]
        intro hc
        rcases List.prefix_concat_iff.mp hc with h | h
        · exact he h
        · exact hr h

theorem dirsFs_spec (ls : List Loc) :
    (dirsFs ls).WF ∧ ∀ l, (dirsFs ls).get l = if l = [] ∨ ∃ m ∈ ls, l <+: m then some .dir else none := by
  induction ls with
  | nil =>
    refine ⟨⟨by simp [dirsFs], rfl, ?_⟩, ?_⟩
    · intro l s n h
      simp [dirsFs, Fs.get, Fs.lookup] at h
    · intro l
      simp only [dirsFs, Fs.get, Fs.lookup]
      by_cases h : l = []
      · simp [h]
      · rw [if_neg (fun e => h e.symm), if_neg (by simp [h])]
  | cons m ls ih =>
    obtain ⟨h1, h2⟩ := ih
    obtain ⟨g1, g2⟩ := addDirRev_spec h1 m.reverse
    refine ⟨g1, fun l => ?_⟩
    rw [show dirsFs (m :: ls) = addDirRev (dirsFs ls) m.reverse from rfl, g2, h2, List.reverse_reverse]
    by_cases hm : l <+: m
    · rw [if_pos hm, if_pos (.inr ⟨m, List.mem_cons_self .., hm⟩)]
    · rw [if_neg hm]
      congr 1
      simp [hm]

/-- A name that is free in a directory. -/
theorem free_name (fs : Fs) (l : Loc) : ∃ s : Str, fs.get (l ++ [s]) = none := by
  have : ∀ es : List (Loc × Node), ∃ n, ∀ s : Str, n ≤ s.length → Fs.lookup es (l ++ [s]) = none := by
    intro es
    induction es with
    | nil => exact ⟨0, fun _ _ => rfl⟩
    | cons e es ih =>
      obtain ⟨n, hn⟩ := ih
      refine ⟨n + e.1.flatten.length + 1, fun s hs => ?_⟩
      simp only [Fs.lookup]
      rw [if_neg, hn s (by omega)]
      intro he
      rw [he] at hs
      simp only [List.flatten_append, List.length_append, List.flatten_cons, List.flatten_nil, List.length_nil] at hs
      omega
  obtain ⟨n, hn⟩ := this fs.ents
  exact ⟨List.replicate n 'x', hn _ (by simp)⟩

/-! ## Keys that leave the line -/

theorem inLine_of_prefix {b l m : Loc} (h : l <+: m) (hm : InLine b m) : InLine b l := by
  rcases hm with hm | hm
  · exact .inl (h.trans hm)
  · exact prefixes_cmp h hm

theorem not_nil_of_line {b l : Loc} (h : ¬ InLine b l) : l ≠ [] := by
  rintro rfl; exact h (.inl List.nil_prefix)

theorem below_delTree {b l : Loc} (h : ¬ InLine b l) (fs : Fs) : below b (fs.delTree l) = below b fs := by
  have e := below_filter b (fun k => !l.isPrefixOf k) fs
  refine e.trans (List.filter_eq_self.mpr fun x hx => ?_)
  have hb : b <+: x.1 := List.isPrefixOf_iff_prefix.mp (List.mem_filter.mp hx).2
  cases hc : l.isPrefixOf x.1 with
  | false => rfl
  | true => exact absurd (prefixes_cmp (List.isPrefixOf_iff_prefix.mp hc) hb) h

theorem sim_delTree {b l : Loc} (h : ¬ InLine b l) {fs : Fs} (hr : Rooted b fs) : Sim b fs (fs.delTree l) where
  left := hr
  right := fun m hm => by
    rw [Fs.get_delTree, if_neg, hr m hm]
    exact fun hc => h (.inl (hc.trans hm))
  same := (below_delTree h fs).symm

theorem below_put_of_not {b l : Loc} (h : ¬ b <+: l) (fs : Fs) (n : Node) : below b (fs.put l n) = below b fs :=
  filter_insert_of_neg (p := fun k => b.isPrefixOf k) _ n (by
    cases hc : b.isPrefixOf l with
    | false => rfl
    | true => exact absurd (List.isPrefixOf_iff_prefix.mp hc) h)

theorem sim_put_out {b l : Loc} (h : ¬ b <+: l) (hn : ¬ l <+: b) {fs : Fs} (hr : Rooted b fs) (n : Node) :
    Sim b fs (fs.put l n) where
  left := hr
  right := fun m hm => by
    rw [Fs.get_put, if_neg, hr m hm]
    rintro rfl; exact hn hm
  same := (below_put_of_not h fs n).symm

theorem Spec.Sim.trans {b : Loc} {f g k : Fs} (h : Sim b f g) (h' : Sim b g k) : Sim b f k :=
  ⟨h.left, h'.right, h.same.trans h'.same⟩

/-- The directories that a path from a directory goes through, and a place. -/
theorem dirsFs_get {ls : List Loc} {l m : Loc} (hm : m ∈ ls) (h : l <+: m) : (dirsFs ls).get l = some .dir := by
  rw [(dirsFs_spec ls).2, if_pos (.inr ⟨m, hm, h⟩)]

theorem dirsFs_none {ls : List Loc} {l : Loc} (hl : l ≠ []) (h : ∀ m ∈ ls, ¬ l <+: m) : (dirsFs ls).get l = none := by
  rw [(dirsFs_spec ls).2, if_neg]
  rintro (h1 | ⟨m, hm, h1⟩)
  · exact hl h1
  · exact h m hm h1

theorem rooted_dirsFs {b : Loc} {ls : List Loc} (h : b ∈ ls) : Rooted b (dirsFs ls) := fun _ hl => dirsFs_get h hl

variable {ks : List Str}

theorem dest_base (hb : Plain b) : dest [] (b ++ ks) = dest b ks := by rw [dest_append, dest_plain hb]; simp

theorem passed_base (hb : Plain b) {l : Loc} (h : l ∈ passed [] (b ++ ks)) : l <+: b ∨ l ∈ passed b ks := by
  rw [passed_append, dest_plain hb, List.nil_append] at h
  rcases List.mem_append.mp h with h | h
  · exact .inl (by simpa using passed_plain hb [] h)
  · exact .inr h

theorem mem_passed_base (hb : Plain b) {l : Loc} (h : l ∈ passed b ks) : l ∈ passed [] (b ++ ks) := by
  rw [passed_append, dest_plain hb, List.nil_append]
  exact List.mem_append_right _ h

theorem locate_dirs (hb : Plain b) {fs : Fs} (hr : Rooted b fs) (hd : ∀ m ∈ passed b ks, fs.get m = some .dir) :
    fs.locate (b ++ ks) = .ok (dest b ks) := by
  rw [locate_rooted hb hr]; exact walk_dirs hd

theorem locate_gone (hb : Plain b) {fs : Fs} (hr : Rooted b fs) {l : Loc} (hl : l ∈ passed b ks)
    (hg : fs.get l ≠ some .dir) : ∀ m, fs.locate (b ++ ks) ≠ .ok m := by
  intro m hm
  rw [locate_rooted hb hr] at hm
  exact hg ((walk_ok hm).2 l hl)

theorem line_base (hb : Plain b) (h : ∀ l ∈ dest b ks :: passed b ks, InLine b l) : Line b (b ++ ks) := by
  intro l hl
  rcases List.mem_cons.mp hl with hl | hl
  · rw [hl, dest_base hb]; exact h _ (List.mem_cons_self ..)
  · rcases passed_base hb hl with h1 | h1
    · exact .inl h1
    · exact h _ (List.mem_cons_of_mem _ h1)

/-- Where a path ends that does not end above a place that it went through. -/
theorem dest_new (hne : ks ≠ []) (hd : ∀ l ∈ passed b ks, ¬ dest b ks <+: l) :
    ∃ m s, m ∈ passed b ks ∧ dest b ks = m ++ [s] := by
  obtain ⟨init, s, rfl⟩ : ∃ init s, ks = init ++ [s] := ⟨_, _, (List.dropLast_concat_getLast hne).symm⟩
  have hm : dest b init ∈ passed b (init ++ [s]) := by rw [passed_append]; simp [passed]
  refine ⟨dest b init, s, hm, ?_⟩
  have hx := hd _ hm
  rw [dest_append] at hx ⊢
  simp only [dest, stepTo] at hx ⊢
  split
  · rename_i hs
    rw [if_pos hs] at hx
    exact absurd (List.dropLast_prefix _) hx
  · rfl

theorem base_passed (hne : ks ≠ []) : b ∈ passed b ks := by
  cases ks with
  | nil => exact absurd rfl hne
  | cons s ks => exact List.mem_cons_self ..

end Zarr
