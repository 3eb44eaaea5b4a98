import Verif.Lemmas.Confine
import Verif.Props.Listing
import Verif.Props.ThreadRemove
/-! The same tree at two places. -/

namespace Zarr

/-- Two filesystems, with directories `b` and `b'` that hold the same. In what order a directory is listed
may differ. -/
structure Spec.Moved (b b' : Loc) (fs fs' : Fs) : Prop where
  left : fs.WF
  right : fs'.WF
  leftDir : fs.get b = some .dir
  rightDir : fs'.get b' = some .dir
  same : ∀ l, fs.get (b ++ l) = fs'.get (b' ++ l)

open Spec

theorem rooted_of_wf {fs : Fs} (hwf : fs.WF) {b : Loc} (hd : fs.get b = some .dir) : Rooted b fs := by
  intro l hl
  by_cases e : l = b
  · rw [e]; exact hd
  · exact hwf.dir_of_prefix hl e hd

/-- The relation without the shape of the tree. -/
structure MRel (b b' : Loc) (fs fs' : Fs) : Prop where
  left : Rooted b fs
  right : Rooted b' fs'
  same : ∀ l, fs.get (b ++ l) = fs'.get (b' ++ l)

theorem Spec.Moved.rel {b b' : Loc} {fs fs' : Fs} (h : Moved b b' fs fs') : MRel b b' fs fs' :=
  ⟨rooted_of_wf h.left h.leftDir, rooted_of_wf h.right h.rightDir, h.same⟩

theorem MRel.moved {b b' : Loc} {fs fs' : Fs} (h : MRel b b' fs fs') (h1 : fs.WF) (h2 : fs'.WF) :
    Moved b b' fs fs' :=
  ⟨h1, h2, h.left b (List.prefix_refl _), h.right b' (List.prefix_refl _), h.same⟩

section
variable {b b' : Loc} {fs fs' : Fs}

/-- Locations that correspond. -/
inductive LocRel (b b' : Loc) : Outcome Loc → Outcome Loc → Prop
  | ok (t : Loc) : LocRel b b' (.ok (b ++ t)) (.ok (b' ++ t))
  | err (e : ErrKind) : LocRel b b' (.err e) (.err e)
  | panic : LocRel b b' .panic .panic

theorem walk_rel (hs : ∀ l, fs.get (b ++ l) = fs'.get (b' ++ l)) (q : List Str) (t : Loc) (hq : Plain q) :
    LocRel b b' (fs.walk (b ++ t) q) (fs'.walk (b' ++ t) q) := by
  induction q generalizing t with
  | nil => exact .ok t
  | cons s q ih =>
    have h1 : s ≠ dotdot := fun e => hq (by rw [e]; exact List.mem_cons_self ..)
    have h2 : Plain q := fun e => hq (List.mem_cons_of_mem _ e)
    simp only [Fs.walk, if_neg h1]
    rw [← hs t]
    cases fs.get (b ++ t) with
    | none => exact .err _
    | some n =>
      cases n with
      | file c => exact .err _
      | dir =>
        simp only
        rw [List.append_assoc, List.append_assoc]
        exact ih _ h2

theorem locate_rel (hb : Plain b) (hb' : Plain b') (hs : MRel b b' fs fs') {q : List Str} (hq : Plain q) :
    LocRel b b' (fs.locate (b ++ q)) (fs'.locate (b' ++ q)) := by
  rw [locate_rooted hb hs.left, locate_rooted hb' hs.right]
  have := walk_rel hs.same q [] hq
  simpa using this

theorem node_rel (hb : Plain b) (hb' : Plain b') (hs : MRel b b' fs fs') {q : List Str} (hq : Plain q) :
    fs.node (b ++ q) = fs'.node (b' ++ q) := by
  unfold Fs.node
  have h1 := locate_rel hb hb' hs hq
  generalize fs.locate (b ++ q) = o at h1
  generalize fs'.locate (b' ++ q) = o' at h1
  cases h1 with
  | ok t => exact hs.same t
  | err e => rfl
  | panic => rfl

theorem isFile_rel (hb : Plain b) (hb' : Plain b') (hs : MRel b b' fs fs') {q : List Str} (hq : Plain q) :
    fs.isFile (b ++ q) = fs'.isFile (b' ++ q) := by
  unfold Fs.isFile; rw [node_rel hb hb' hs hq]

theorem isDir_rel (hb : Plain b) (hb' : Plain b') (hs : MRel b b' fs fs') {q : List Str} (hq : Plain q) :
    fs.isDir (b ++ q) = fs'.isDir (b' ++ q) := by
  unfold Fs.isDir; rw [node_rel hb hb' hs hq]

theorem pathExists_rel (hb : Plain b) (hb' : Plain b') (hs : MRel b b' fs fs') {q : List Str} (hq : Plain q) :
    fs.pathExists (b ++ q) = fs'.pathExists (b' ++ q) := by
  unfold Fs.pathExists; rw [node_rel hb hb' hs hq]

theorem readFile_rel (hb : Plain b) (hb' : Plain b') (hs : MRel b b' fs fs') {q : List Str} (hq : Plain q) :
    fs.readFile (b ++ q) = fs'.readFile (b' ++ q) := by
  unfold Fs.readFile
  have h1 := locate_rel hb hb' hs hq
  generalize fs.locate (b ++ q) = o at h1
  generalize fs'.locate (b' ++ q) = o' at h1
  cases h1 with
  | ok t => simp only; rw [hs.same t]
  | err e => rfl
  | panic => rfl

theorem MRel.put (hs : MRel b b' fs fs') {t : Loc} {n : Node} (hn : t = [] → n = .dir) :
    MRel b b' (fs.put (b ++ t) n) (fs'.put (b' ++ t) n) := by
  have hr : ∀ (c : Loc) (f : Fs), Rooted c f → Rooted c (f.put (c ++ t) n) := by
    intro c f hf k hk
    rw [Fs.get_put]
    split
    · rename_i e
      have : t = [] := by
        have := hk.length_le
        rw [e, List.length_append] at this
        exact List.length_eq_zero_iff.mp (by omega)
      rw [hn this]
    · exact hf k hk
  refine ⟨hr _ _ hs.left, hr _ _ hs.right, fun l => ?_⟩
  rw [Fs.get_put, Fs.get_put]
  simp only [List.append_cancel_left_eq]
  split
  · rfl
  · exact hs.same l

/-! ## Creating -/

inductive FsRel (b b' : Loc) : Outcome Fs → Outcome Fs → Prop
  | ok {g g' : Fs} (h : MRel b b' g g') : FsRel b b' (.ok g) (.ok g')
  | err (e : ErrKind) : FsRel b b' (.err e) (.err e)
  | panic : FsRel b b' .panic .panic

theorem mkdir_rel (hb : Plain b) (hb' : Plain b') (hs : MRel b b' fs fs') {q : List Str} (hq : Plain q) :
    FsRel b b' (fs.mkdir (b ++ q)) (fs'.mkdir (b' ++ q)) := by
  unfold Fs.mkdir
  have h1 := locate_rel hb hb' hs hq
  generalize fs.locate (b ++ q) = o at h1
  generalize fs'.locate (b' ++ q) = o' at h1
  cases h1 with
  | ok t =>
    simp only
    rw [← hs.same t]
    cases fs.get (b ++ t) with
    | some n => exact .err _
    | none => exact .ok (hs.put fun _ => rfl)
  | err e => exact .err _
  | panic => exact .panic

theorem mkdirAllRev_base {b : Loc} {f : Fs} (hb : Plain b) (hf : Rooted b f) : Fs.mkdirAllRev b.reverse f = (.ok (), f) := by
  have hl : f.locate b = .ok b := by
    have := locate_rooted hb hf []
    simpa [Fs.walk] using this
  have hd : f.isDir b = true := by
    simp [Fs.isDir, Fs.node, hl, hf b (List.prefix_refl _)]
  have hmk : f.mkdir b = .err .alreadyExists := by
    simp [Fs.mkdir, hl, hf b (List.prefix_refl _)]
  generalize hr : b.reverse = r
  cases r with
  | nil =>
    have : b = [] := by simpa using hr
    subst this
    simp [Fs.mkdirAllRev, hd]
  | cons s r =>
    have hbr : (s :: r).reverse = b := by rw [← hr]; simp
    unfold Fs.mkdirAllRev
    rw [hbr, hmk]
    simp [hd]

theorem mkdirAllRev_rel (hb : Plain b) (hb' : Plain b') (q : List Str) {fs fs' : Fs} (hs : MRel b b' fs fs') (hq : Plain q) :
    (Fs.mkdirAllRev (b ++ q).reverse fs).1 = (Fs.mkdirAllRev (b' ++ q).reverse fs').1 ∧
    MRel b b' (Fs.mkdirAllRev (b ++ q).reverse fs).2 (Fs.mkdirAllRev (b' ++ q).reverse fs').2 := by
  induction q using Fs.list_concat_induction generalizing fs fs' with
  | h0 =>
    rw [List.append_nil, List.append_nil, mkdirAllRev_base hb hs.left, mkdirAllRev_base hb' hs.right]
    exact ⟨rfl, hs⟩
  | h1 q s ih =>
    have hq' : Plain q := (plain_append.mp hq).1
    have e : ∀ c : Loc, (c ++ (q ++ [s])).reverse = s :: (c ++ q).reverse := by simp
    have e2 : ∀ c : Loc, (s :: (c ++ q).reverse).reverse = c ++ (q ++ [s]) := by simp
    rw [e, e]
    unfold Fs.mkdirAllRev
    rw [e2, e2]
    have h1 := mkdir_rel hb hb' hs hq
    generalize fs.mkdir (b ++ (q ++ [s])) = o at h1
    generalize fs'.mkdir (b' ++ (q ++ [s])) = o' at h1
    cases h1 with
    | ok h => exact ⟨rfl, h⟩
    | panic => exact ⟨rfl, hs⟩
    | err er =>
      simp only
      by_cases hne : er = .notFound
      · rw [if_pos hne, if_pos hne]
        obtain ⟨i1, i2⟩ := ih hs hq'
        generalize Fs.mkdirAllRev (b ++ q).reverse fs = r at i1 i2 ⊢
        generalize Fs.mkdirAllRev (b' ++ q).reverse fs' = r' at i1 i2 ⊢
        obtain ⟨a, g⟩ := r
        obtain ⟨a', g'⟩ := r'
        simp only at i1 i2
        subst i1
        cases a with
        | err e => exact ⟨rfl, i2⟩
        | panic => exact ⟨rfl, i2⟩
        | ok u =>
          simp only
          have h2 := mkdir_rel hb hb' i2 hq
          rw [isDir_rel hb hb' i2 hq]
          generalize g.mkdir (b ++ (q ++ [s])) = o at h2 ⊢
          generalize g'.mkdir (b' ++ (q ++ [s])) = o' at h2 ⊢
          cases h2 with
          | ok h => exact ⟨rfl, h⟩
          | panic => exact ⟨rfl, i2⟩
          | err er => simp only; split <;> exact ⟨rfl, i2⟩
      · rw [if_neg hne, if_neg hne, isDir_rel hb hb' hs hq]
        split <;> exact ⟨rfl, hs⟩

/-! ## Store calls -/

end

section
variable {h h' : Hier} {fs fs' : Fs} {key : Str}

theorem storeExists_moved (hb : Plain (segs h.base)) (hb' : Plain (segs h'.base)) (hk : Plain (segs key))
    (hs : Moved (segs h.base) (segs h'.base) fs fs') : (storeExists h key fs).1 = (storeExists h' key fs').1 := by
  rw [storeExists_spec (show Plain (h.loc key) from hb.append hk), storeExists_spec (show Plain (h'.loc key) from hb'.append hk)]
  show Outcome.ok _ = Outcome.ok _
  rw [Hier.loc, Hier.loc, isFile_rel hb hb' hs.rel hk]

theorem storeGet_moved (hb : Plain (segs h.base)) (hb' : Plain (segs h'.base)) (hk : Plain (segs key))
    (hs : Moved (segs h.base) (segs h'.base) fs fs') : (storeGet h key fs).1 = (storeGet h' key fs').1 := by
  rw [storeGet_eq hs.left (hb.append hk), storeGet_eq hs.right (hb'.append hk)]
  show Outcome.ok _ = Outcome.ok _
  rw [Fs.content, Fs.content, Hier.loc, Hier.loc, hs.same]

theorem storeErase_moved (hb : Plain (segs h.base)) (hb' : Plain (segs h'.base)) (hk : Plain (segs key))
    (hs : Moved (segs h.base) (segs h'.base) fs fs') : (storeErase h key fs).1 = (storeErase h' key fs').1 ∧
      Moved (segs h.base) (segs h'.base) (storeErase h key fs).2 (storeErase h' key fs').2 := by
  have w1 := (storeErase_frame hs.left (hb.append hk : Plain (h.loc key)) (Prod.eta (storeErase h key fs)).symm).1
  have w2 := (storeErase_frame hs.right (hb'.append hk : Plain (h'.loc key)) (Prod.eta (storeErase h' key fs')).symm).1
  revert w1 w2
  rw [storeErase_spec hs.left (hb.append hk), storeErase_spec hs.right (hb'.append hk), Hier.loc, Hier.loc, ← hs.same]
  intro w1 w2
  cases hg : fs.get (segs h.base ++ segs key) with
  | none => rw [hg] at w1 w2; exact ⟨rfl, hs⟩
  | some n =>
    cases n with
    | dir => rw [hg] at w1 w2; exact ⟨rfl, hs⟩
    | file c =>
      rw [hg] at w1 w2
      have hne : segs key ≠ [] := by
        intro e; rw [e, List.append_nil, hs.leftDir] at hg; simp at hg
      have hd : ∀ b : Loc, b ≠ b ++ segs key := by
        intro b e
        exact hne (by simpa using e)
      refine ⟨rfl, w1, w2, ?_, ?_, fun l => ?_⟩
      · simp only; rw [Fs.get_del, if_neg (hd _)]; exact hs.leftDir
      · simp only; rw [Fs.get_del, if_neg (hd _)]; exact hs.rightDir
      · simp only; rw [Fs.get_del, Fs.get_del, hs.same]; simp only [List.append_cancel_left_eq]

theorem storeErasePrefix_moved (hb : Plain (segs h.base)) (hb' : Plain (segs h'.base)) (hk : Plain (segs key))
    (hne : segs key ≠ []) (hs : Moved (segs h.base) (segs h'.base) fs fs') :
    (storeErasePrefix h key fs).1 = (storeErasePrefix h' key fs').1 ∧
      Moved (segs h.base) (segs h'.base) (storeErasePrefix h key fs).2 (storeErasePrefix h' key fs').2 := by
  obtain ⟨f1, a1, a2, a3⟩ := storeErasePrefix_spec (h := h) (key := key) hs.left (hb.append hk)
    (by simp [Hier.loc, hne])
  obtain ⟨f2, b1, b2, b3⟩ := storeErasePrefix_spec (h := h') (key := key) hs.right (hb'.append hk)
    (by simp [Hier.loc, hne])
  have hd : ∀ b : Loc, ¬ b ++ segs key <+: b := by
    intro b e
    have := e.length_le
    simp only [List.length_append] at this
    exact hne (List.length_eq_zero_iff.mp (by omega))
  rw [a1, b1]
  refine ⟨rfl, a2, b2, ?_, ?_, fun l => ?_⟩
  · simp only; rw [a3, Hier.loc, if_neg (hd _)]; exact hs.leftDir
  · simp only; rw [b3, Hier.loc, if_neg (hd _)]; exact hs.rightDir
  · simp only; rw [a3, b3, Hier.loc, Hier.loc, hs.same]; simp only [List.prefix_append_right_inj]

theorem storeSet_moved (hb : Plain (segs h.base)) (hb' : Plain (segs h'.base)) (hk : Plain (segs key))
    (v : Bytes × Outcome Unit) (hs : Moved (segs h.base) (segs h'.base) fs fs') :
    (storeSet h key v fs).1 = (storeSet h' key v fs').1 ∧
      Moved (segs h.base) (segs h'.base) (storeSet h key v fs).2 (storeSet h' key v fs').2 := by
  have w1 := (storeSet_frame hs.left (hb.append hk : Plain (h.loc key)) (Prod.eta (storeSet h key v fs)).symm).1
  have w2 := (storeSet_frame hs.right (hb'.append hk : Plain (h'.loc key)) (Prod.eta (storeSet h' key v fs')).symm).1
  have main : (storeSet h key v fs).1 = (storeSet h' key v fs').1 ∧
      MRel (segs h.base) (segs h'.base) (storeSet h key v fs).2 (storeSet h' key v fs').2 := by
    clear w1 w2
    replace hs := hs.rel
    obtain ⟨t, ht, hseg⟩ := getPath_loc (h := h) (key := key) (hb.append hk)
    obtain ⟨t', ht', hseg'⟩ := getPath_loc (h := h') (key := key) (hb'.append hk)
    unfold storeSet
    rw [ht, ht']
    simp only
    rw [hseg, hseg', Hier.loc, Hier.loc]
    generalize segs h.base = b at *
    generalize segs h'.base = b' at *
    generalize segs key = q at *
    -- opening and writing
    have hopen : ∀ g g' : Fs, MRel b b' g g' →
        (match Fs.openCreate (b ++ q) g with
          | .err e => (.err e, g)
          | .panic => (.panic, g)
          | .ok (l, fs2) => (v.2, fs2.put l (.file v.1)) : Outcome Unit × Fs).1 =
        (match Fs.openCreate (b' ++ q) g' with
          | .err e => (.err e, g')
          | .panic => (.panic, g')
          | .ok (l, fs2) => (v.2, fs2.put l (.file v.1)) : Outcome Unit × Fs).1 ∧
        MRel b b' (match Fs.openCreate (b ++ q) g with
          | .err e => (.err e, g)
          | .panic => (.panic, g)
          | .ok (l, fs2) => (v.2, fs2.put l (.file v.1)) : Outcome Unit × Fs).2
        (match Fs.openCreate (b' ++ q) g' with
          | .err e => (.err e, g')
          | .panic => (.panic, g')
          | .ok (l, fs2) => (v.2, fs2.put l (.file v.1)) : Outcome Unit × Fs).2 := by
      intro g g' hg
      unfold Fs.openCreate
      have h1 := locate_rel hb hb' hg hk
      generalize g.locate (b ++ q) = o at h1
      generalize g'.locate (b' ++ q) = o' at h1
      cases h1 with
      | err e => exact ⟨rfl, hg⟩
      | panic => exact ⟨rfl, hg⟩
      | ok t =>
        simp only
        rw [← hg.same]
        cases hgl : g.get (b ++ t) with
        | none =>
          have hne : t ≠ [] := by
            rintro rfl; rw [List.append_nil, hg.left _ (List.prefix_refl _)] at hgl; simp at hgl
          exact ⟨rfl, (hg.put (fun e => absurd e hne)).put (fun e => absurd e hne)⟩
        | some n =>
          cases n with
          | dir => exact ⟨rfl, hg⟩
          | file c =>
            have hne : t ≠ [] := by
              rintro rfl; rw [List.append_nil, hg.left _ (List.prefix_refl _)] at hgl; simp at hgl
            exact ⟨rfl, hg.put (fun e => absurd e hne)⟩
    -- making the parent
    have hmk : ∃ o g g', MRel b b' g g' ∧
        (if (b ++ q).isEmpty ∨ fs.pathExists (b ++ q).dropLast then
          (.ok (), fs) else Fs.mkdirAll (b ++ q).dropLast fs : Outcome Unit × Fs) = (o, g) ∧
        (if (b' ++ q).isEmpty ∨ fs'.pathExists (b' ++ q).dropLast then
          (.ok (), fs') else Fs.mkdirAll (b' ++ q).dropLast fs' : Outcome Unit × Fs) = (o, g') := by
      by_cases hkn : q = []
      · rw [hkn, List.append_nil, List.append_nil]
        have hx : ∀ (c : Loc) (f : Fs), Plain c → Rooted c f → (c.isEmpty = true ∨
            f.pathExists c.dropLast = true) := by
          intro c f hb hf
          by_cases he : c = []
          · left; simp [he]
          · right
            have hpl : Plain c.dropLast := fun hm => hb (List.dropLast_subset _ hm)
            have hr' : Rooted c.dropLast f := fun l hl => hf l (hl.trans (List.dropLast_prefix _))
            have := locate_rooted hpl hr' []
            rw [List.append_nil] at this
            simp [Fs.pathExists, Fs.node, this, Fs.walk, hr' _ (List.prefix_refl _)]
        rw [if_pos (hx b fs hb hs.left), if_pos (hx b' fs' hb' hs.right)]
        exact ⟨_, _, _, hs, rfl, rfl⟩
      · have hne : ∀ c : Loc, (c ++ q).isEmpty = false := by simp [hkn]
        rw [List.dropLast_append_of_ne_nil hkn, List.dropLast_append_of_ne_nil hkn]
        have hk' : Plain q.dropLast := fun hm => hk (List.dropLast_subset _ hm)
        rw [← pathExists_rel hb hb' hs hk', hne, hne]
        by_cases hc : false = true ∨ fs.pathExists (b ++ q.dropLast) = true
        · rw [if_pos hc, if_pos hc]; exact ⟨_, _, _, hs, rfl, rfl⟩
        · rw [if_neg hc, if_neg hc]
          unfold Fs.mkdirAll
          obtain ⟨m1, m2⟩ := mkdirAllRev_rel hb hb' q.dropLast hs hk'
          exact ⟨_, _, _, m2, rfl, Prod.ext m1.symm rfl⟩
    obtain ⟨o, g, g', hr, e1, e2⟩ := hmk
    rw [e1, e2]
    cases o with
    | err e => exact ⟨rfl, hr⟩
    | panic => exact ⟨rfl, hr⟩
    | ok u => exact hopen g g' hr
  exact ⟨main.1, main.2.moved w1 w2⟩

/-- Two listings of the same names. -/
inductive ListRel : Outcome (List Str × List Str) → Outcome (List Str × List Str) → Prop
  | ok {ks ks' ps ps' : List Str} (hk : ks.Perm ks') (hp : ps.Perm ps') : ListRel (.ok (ks, ps)) (.ok (ks', ps'))
  | err (e : ErrKind) : ListRel (.err e) (.err e)
  | panic : ListRel .panic .panic

theorem children_moved {b b' : Loc} (hs : Moved b b' fs fs') (t : Loc) :
    (fs.children (b ++ t)).Perm (fs'.children (b' ++ t)) := by
  have hn : ∀ {f : Fs} (_ : f.WF) (l : Loc), (f.children l).Nodup := fun w l =>
    (children_nodup w l).imp fun hab e => hab (congrArg Prod.fst e)
  refine (List.perm_ext_iff_of_nodup (hn hs.left _) (hn hs.right _)).mpr ?_
  rintro ⟨s, n⟩
  rw [Fs.mem_children hs.left, Fs.mem_children hs.right, List.append_assoc, List.append_assoc, hs.same]

theorem storeListDir_moved (hb : Plain (segs h.base)) (hb' : Plain (segs h'.base)) (hk : Plain (segs key))
    (hs : Moved (segs h.base) (segs h'.base) fs fs') :
    ListRel (storeListDir h key fs).1 (storeListDir h' key fs').1 := by
  obtain ⟨t, ht, hseg⟩ := getPath_loc (h := h) (key := key) (hb.append hk)
  obtain ⟨t', ht', hseg'⟩ := getPath_loc (h := h') (key := key) (hb'.append hk)
  simp only [storeListDir, M.read_apply, ht, ht', Outcome.bind_ok, hseg, hseg', Hier.loc]
  have h1 := locate_rel hb hb' hs.rel hk
  generalize fs.locate (segs h.base ++ segs key) = o at h1
  generalize fs'.locate (segs h'.base ++ segs key) = o' at h1
  cases h1 with
  | err e => exact .err _
  | panic => exact .panic
  | ok t =>
    simp only
    rw [← hs.same]
    cases fs.get (segs h.base ++ t) with
    | none => exact .err _
    | some n =>
      cases n with
      | file c => exact .err _
      | dir => exact .ok ((children_moved hs t).filterMap _) ((children_moved hs t).filterMap _)

end

/-! ## Programs -/

namespace Wide

/-- The program uses ordinary keys, and what it does with a listing does not depend on the order. -/
def Prog.Keyed {α : Type} : Prog α → Prop
  | .done _ => True
  | .exists key k => Plain (segs key) ∧ ∀ r, (k r).Keyed
  | .get key k => Plain (segs key) ∧ ∀ r, (k r).Keyed
  | .set key _ k => Plain (segs key) ∧ ∀ r, (k r).Keyed
  | .erase key k => Plain (segs key) ∧ ∀ r, (k r).Keyed
  | .erasePrefix key k => Plain (segs key) ∧ segs key ≠ [] ∧ ∀ r, (k r).Keyed
  | .listDir key k => Plain (segs key) ∧ (∀ r r', ListRel r r' → k r = k r') ∧ ∀ r, (k r).Keyed

theorem keyed_run {α : Type} {h h' : Hier} (hb : Plain (segs h.base)) (hb' : Plain (segs h'.base)) (P : Prog α) :
    ∀ {fs fs' : Fs}, P.Keyed → Moved (segs h.base) (segs h'.base) fs fs' →
    (P.run h fs).1 = (P.run h' fs').1 ∧ Moved (segs h.base) (segs h'.base) (P.run h fs).2 (P.run h' fs').2 := by
  induction P with
  | done r => intro fs fs' _ hs; exact ⟨rfl, hs⟩
  | «exists» key k ih =>
    intro fs fs' hu hs
    simp only [Prog.run]
    rw [storeExists_moved hb hb' hu.1 hs]
    exact ih _ (hu.2 _) hs
  | get key k ih =>
    intro fs fs' hu hs
    simp only [Prog.run]
    rw [storeGet_moved hb hb' hu.1 hs]
    exact ih _ (hu.2 _) hs
  | set key v k ih =>
    intro fs fs' hu hs
    simp only [Prog.run]
    obtain ⟨h1, h2⟩ := storeSet_moved hb hb' hu.1 v hs
    rw [h1]
    exact ih _ (hu.2 _) h2
  | erase key k ih =>
    intro fs fs' hu hs
    simp only [Prog.run]
    obtain ⟨h1, h2⟩ := storeErase_moved hb hb' hu.1 hs
    rw [h1]
    exact ih _ (hu.2 _) h2
  | erasePrefix key k ih =>
    intro fs fs' hu hs
    simp only [Prog.run]
    obtain ⟨h1, h2⟩ := storeErasePrefix_moved hb hb' hu.1 hu.2.1 hs
    rw [h1]
    exact ih _ (hu.2.2 _) h2
  | listDir key k ih =>
    intro fs fs' hu hs
    simp only [Prog.run]
    rw [hu.2.1 _ _ (storeListDir_moved hb hb' hu.1 hs)]
    exact ih _ (hu.2.2 _) hs

section
variable {α β : Type}

theorem keyed_bind {p : Prog α} {f : α → Prog β} (hp : p.Keyed) (hf : ∀ a, (f a).Keyed) : (p.bind f).Keyed := by
  induction p with
  | done r => cases r <;> first | exact hf _ | trivial
  | erasePrefix key k ih => exact ⟨hp.1, hp.2.1, fun r => ih r (hp.2.2 r)⟩
  | listDir key k ih =>
    exact ⟨hp.1, fun r r' h => congrArg (fun q => q.bind f) (hp.2.1 r r' h), fun r => ih r (hp.2.2 r)⟩
  | _ => rename_i ih; exact ⟨hp.1, fun r => ih r (hp.2 r)⟩

theorem keyed_of_bind {p : Threads.Prog α} {f : α → Threads.Prog β} (hp : (Prog.of p).Keyed)
    (hf : ∀ a, (Prog.of (f a)).Keyed) : (Prog.of (p >>= f)).Keyed := by
  rw [Threads.Prog.bind_def]
  induction p with
  | done r => cases r <;> first | exact hf _ | trivial
  | _ => rename_i ih; exact ⟨hp.1, fun r => ih r (hp.2 r)⟩

theorem keyed_of_record {p : Threads.Prog α} {f : Outcome α → β} (hp : (Prog.of p).Keyed) :
    (Prog.of (p.record f)).Keyed := by
  induction p with
  | done r => trivial
  | _ => rename_i ih; exact ⟨hp.1, fun r => ih r (hp.2 r)⟩

end

end Wide

end Zarr
