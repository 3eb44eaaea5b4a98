import Verif.Model.Store
import Verif.Lemmas.Fs
/-! Lemmas on the store calls (get, set, erase, erase_prefix) as functions on the tree. -/

namespace Zarr

/-! ## What a call does to the tree -/

/-- The tree after a successful `set` at `p`. -/
def setSpec (fs : Fs) (p : Loc) (b : Bytes) (l : Loc) : Option Node :=
  if l = p then some (.file b) else if l <+: p ∧ fs.get l = none then some .dir else fs.get l

/-- A file can be written at `p`: nothing on the way is a file and `p` is not a directory. -/
def Writable (fs : Fs) (p : Loc) : Prop :=
  (∀ l, l <+: p → l ≠ p → ∀ b, fs.get l ≠ some (.file b)) ∧ fs.get p ≠ some .dir

theorem walk_mono {fs fs' : Fs} (h : ∀ l, fs.get l = some .dir → fs'.get l = some .dir)
    (p : List Str) (cur l : Loc) (hw : fs.walk cur p = .ok l) : fs'.walk cur p = .ok l := by
  induction p generalizing cur with
  | nil => exact hw
  | cons s ss ih =>
    simp only [Fs.walk] at hw ⊢
    split at hw
    · rename_i hd; rw [h _ hd]; exact ih _ hw
    · simp at hw
    · simp at hw

theorem openCreate_ok {fs fs2 : Fs} {p : List Str} {l : Loc}
    (h : Fs.openCreate p fs = .ok (l, fs2)) :
    fs.locate p = .ok l ∧ fs.get l ≠ some .dir ∧
      ∀ x, x ≠ l → fs2.get x = fs.get x := by
  unfold Fs.openCreate at h
  split at h
  · rename_i l' hl
    split at h
    · rename_i b hg
      simp at h
      obtain ⟨rfl, rfl⟩ := h
      exact ⟨hl, by simp [hg], fun _ _ => rfl⟩
    · simp at h
    · rename_i hg
      simp at h
      obtain ⟨rfl, rfl⟩ := h
      refine ⟨hl, by simp [hg], fun x hx => ?_⟩
      rw [Fs.get_put, if_neg hx]
  · simp at h
  · simp at h

/-- What a successful `set` wrote is what `get` returns, on any filesystem and for any key
(also with `..`). -/
theorem storeGet_of_storeSet {h : Hier} {key : Str} {v : Bytes × Outcome Unit} {fs fs' : Fs}
    (hset : storeSet h key v fs = (.ok (), fs')) :
    storeGet h key fs' = (.ok (some v.1), fs') := by
  unfold storeSet at hset
  split at hset
  · simp at hset
  · simp at hset
  · rename_i target htgt
    simp only at hset
    split at hset
    · simp at hset
    · simp at hset
    · rename_i fs1 _
      split at hset
      · simp at hset
      · simp at hset
      · rename_i l fs2 hop
        simp at hset
        obtain ⟨_, hfs⟩ := hset
        obtain ⟨hloc, hnd, hsame⟩ := openCreate_ok hop
        have hdir : ∀ x, fs1.get x = some .dir → fs'.get x = some .dir := by
          intro x hx
          have hxl : x ≠ l := by intro e; subst e; exact hnd hx
          rw [← hfs, Fs.get_put, if_neg hxl, hsame x hxl]; exact hx
        have hloc' : fs'.locate (segs target) = .ok l := walk_mono hdir _ _ _ hloc
        have hget' : fs'.get l = some (.file v.1) := by rw [← hfs, Fs.get_put]; simp
        simp only [storeGet, M.read_apply, htgt, Outcome.bind_ok]
        have hf : fs'.isFile (segs target) = true := by
          simp [Fs.isFile, Fs.node, hloc', hget']
        simp [hf, Fs.readFile, hloc', hget']

theorem storeSet_result_ok {h : Hier} {key : Str} {v : Bytes × Outcome Unit} {fs fs' : Fs}
    (hset : storeSet h key v fs = (.ok (), fs')) : v.2 = .ok () := by
  unfold storeSet at hset
  split at hset
  · simp at hset
  · simp at hset
  · simp only at hset
    split at hset
    · simp at hset
    · simp at hset
    · split at hset
      · simp at hset
      · simp at hset
      · simp at hset; exact hset.1

theorem mkdir_ne_panic (fs : Fs) (p : List Str) : fs.mkdir p ≠ .panic := by
  unfold Fs.mkdir
  split
  · split <;> simp
  · simp
  · rename_i h; exact absurd h (Fs.locate_ne_panic _ _)

theorem mkdirAllRev_ne_panic (p : List Str) (fs : Fs) : (Fs.mkdirAllRev p fs).1 ≠ .panic := by
  induction p generalizing fs with
  | nil => unfold Fs.mkdirAllRev; split <;> simp
  | cons s r ih =>
    unfold Fs.mkdirAllRev
    split
    · simp
    · rename_i h; exact absurd h (mkdir_ne_panic _ _)
    · split
      · split
        · split
          · simp
          · rename_i h; exact absurd h (mkdir_ne_panic _ _)
          · split <;> simp
        · exact ih fs
      · split <;> simp

theorem openCreate_ne_panic (p : List Str) (fs : Fs) : Fs.openCreate p fs ≠ .panic := by
  unfold Fs.openCreate
  split
  · split <;> simp
  · simp
  · rename_i h; exact absurd h (Fs.locate_ne_panic _ _)

theorem getPath_ne_panic (base key : Str) : getPath base key ≠ .panic := by
  unfold getPath; split <;> simp

/-- A `set` panics only if its closure does. -/
theorem storeSet_ne_panic {h : Hier} {key : Str} {v : Bytes × Outcome Unit} {fs : Fs}
    (hv : v.2 ≠ .panic) : (storeSet h key v fs).1 ≠ .panic := by
  unfold storeSet
  split
  · simp
  · rename_i hp; exact absurd hp (getPath_ne_panic _ _)
  · simp only
    split
    · simp
    · rename_i hmk
      split at hmk
      · simp at hmk
      · unfold Fs.mkdirAll at hmk
        exact absurd (by rw [hmk]) (mkdirAllRev_ne_panic _ fs)
    · split
      · simp
      · rename_i hp; exact absurd hp (openCreate_ne_panic _ _)
      · exact hv

/-! ## Plain paths in a tree -/

/-- The location of a key. -/
def Hier.loc (h : Hier) (key : Str) : Loc := segs h.base ++ segs key

theorem getPath_loc {h : Hier} {key : Str} (hp : Plain (h.loc key)) :
    ∃ t, getPath h.base key = .ok t ∧ segs t = h.loc key :=
  getPath_plain (plain_append.mp hp).2

theorem storeExists_spec {h : Hier} {key : Str} {fs : Fs} (hp : Plain (h.loc key)) :
    storeExists h key fs = (.ok (fs.isFile (h.loc key)), fs) := by
  obtain ⟨t, ht, hs⟩ := getPath_loc hp
  simp [storeExists, ht, hs]

/-- The file content at a location. -/
def Fs.content (fs : Fs) (l : Loc) : Option Bytes :=
  match fs.get l with
  | some (.file b) => some b
  | _ => none

theorem Fs.content_eq_some {fs : Fs} {l : Loc} {b : Bytes} :
    fs.content l = some b ↔ fs.get l = some (.file b) := by
  unfold Fs.content
  split
  · rename_i h; simp [h]
  · rename_i h
    constructor
    · simp
    · intro hh; exact absurd hh (h b)

theorem Fs.isFile_eq {fs : Fs} (hwf : fs.WF) {p : Loc} (hp : Plain p) :
    fs.isFile p = (fs.content p).isSome := by
  unfold Fs.isFile Fs.content
  rw [Fs.node_plain hwf hp]
  cases fs.get p with
  | none => rfl
  | some n => cases n <;> rfl

theorem storeExists_eq {h : Hier} {key : Str} {fs : Fs} (hwf : fs.WF) (hp : Plain (h.loc key)) :
    storeExists h key fs = (.ok (fs.content (h.loc key)).isSome, fs) := by
  rw [storeExists_spec hp, Fs.isFile_eq hwf hp]

theorem storeGet_eq {h : Hier} {key : Str} {fs : Fs} (hwf : fs.WF) (hp : Plain (h.loc key)) :
    storeGet h key fs = (.ok (fs.content (h.loc key)), fs) := by
  obtain ⟨t, ht, hs⟩ := getPath_loc hp
  simp only [storeGet, M.read_apply, ht, Outcome.bind_ok, hs, Fs.isFile_eq hwf hp]
  cases hc : fs.content (h.loc key) with
  | none => simp
  | some b =>
    simp [Fs.readFile_of_get hwf hp (Fs.content_eq_some.mp hc)]

theorem openCreate_plain {fs : Fs} (hwf : fs.WF) {p : List Str} {s : Str} (hp : Plain (p ++ [s]))
    (hd : fs.get p = some .dir) :
    Fs.openCreate (p ++ [s]) fs = match fs.get (p ++ [s]) with
      | some (.file _) => .ok (p ++ [s], fs)
      | some .dir => .err .isADirectory
      | none => .ok (p ++ [s], fs.put (p ++ [s]) (.file [])) := by
  unfold Fs.openCreate
  rw [Fs.locate_plain_dir hwf hp hd]
  cases h : fs.get (p ++ [s]) with
  | none => simp [h]
  | some n => cases n <;> simp [h]

theorem Fs.WF.put_put {fs : Fs} (h : fs.WF) {l : Loc} {s : Str} {b b' : Bytes}
    (hp : fs.get l = some .dir) (hn : fs.get (l ++ [s]) ≠ some .dir) :
    ((fs.put (l ++ [s]) (.file b)).put (l ++ [s]) (.file b')).WF := by
  apply (h.put_file hp hn).put_file
  · rw [Fs.get_put, if_neg (by simp)]; exact hp
  · rw [Fs.get_put]; simp

theorem storeSet_spec {h : Hier} {key : Str} {fs : Fs} (v : Bytes × Outcome Unit) (hwf : fs.WF)
    (hp : Plain (h.loc key)) :
    (Writable fs (h.loc key) → ∃ fs', storeSet h key v fs = (v.2, fs') ∧ fs'.WF ∧
      ∀ l, fs'.get l = setSpec fs (h.loc key) v.1 l) ∧
    (¬ Writable fs (h.loc key) → ∃ e, storeSet h key v fs = (.err e, fs)) := by
  obtain ⟨t, ht, hs⟩ := getPath_loc hp
  unfold storeSet
  rw [ht]
  simp only [hs]
  generalize h.loc key = p at hp
  by_cases hnil : p = []
  · subst hnil
    have hop : Fs.openCreate [] fs = .err .isADirectory := by
      simp [Fs.openCreate, Fs.locate, Fs.walk, hwf.root]
    constructor
    · intro hw; exact absurd hwf.root hw.2
    · intro _; exact ⟨.isADirectory, by simp [hop]⟩
  · obtain ⟨q, s, rfl⟩ : ∃ q s, p = q ++ [s] :=
      ⟨p.dropLast, p.getLast hnil, (List.dropLast_concat_getLast hnil).symm⟩
    have hpq : Plain q := (plain_append.mp hp).1
    have hdl : (q ++ [s]).dropLast = q := by simp
    have hpe : fs.pathExists q = (fs.get q).isSome := by
      simp [Fs.pathExists, Fs.node_plain hwf hpq]
    have hemp : (q ++ [s]).isEmpty = false := by simp
    -- the state after a successful directory creation
    have main : ∀ fs1 : Fs, fs1.WF → fs1.get q = some .dir →
        (∀ l, fs1.get l = if l <+: q ∧ fs.get l = none then some .dir else fs.get l) →
        fs.get (q ++ [s]) ≠ some .dir →
        ∃ fs', (match Fs.openCreate (q ++ [s]) fs1 with
          | .err e => (Outcome.err e, fs1)
          | .panic => (.panic, fs1)
          | .ok (l, fs2) => (v.2, fs2.put l (.file v.1))) = (v.2, fs') ∧ fs'.WF ∧
          ∀ l, fs'.get l = setSpec fs (q ++ [s]) v.1 l := by
      intro fs1 hwf1 hd1 hget1 hnd
      have hsame : fs1.get (q ++ [s]) = fs.get (q ++ [s]) := by
        rw [hget1, if_neg]
        rintro ⟨hpre, _⟩
        have := hpre.length_le; simp at this; omega
      rw [openCreate_plain hwf1 hp hd1]
      have hfin : ∀ l, l ≠ q ++ [s] → fs1.get l = setSpec fs (q ++ [s]) v.1 l := by
        intro l hl
        rw [hget1, setSpec, if_neg hl]
        have : (l <+: q ++ [s] ∧ fs.get l = none) ↔ (l <+: q ∧ fs.get l = none) := by
          rw [Fs.prefix_concat]; simp [hl]
        simp only [this]
      cases hg : fs.get (q ++ [s]) with
      | none =>
        rw [hsame, hg]
        refine ⟨_, rfl, hwf1.put_put hd1 (by rw [hsame]; exact hnd), ?_⟩
        intro l
        rw [Fs.get_put, Fs.get_put]
        by_cases hl : l = q ++ [s]
        · simp [hl, setSpec]
        · rw [if_neg hl, if_neg hl]; exact hfin l hl
      | some n =>
        cases n with
        | dir => exact absurd hg hnd
        | file b =>
          rw [hsame, hg]
          refine ⟨_, rfl, hwf1.put_file hd1 (by rw [hsame]; exact hnd), ?_⟩
          intro l
          rw [Fs.get_put]
          by_cases hl : l = q ++ [s]
          · simp [hl, setSpec]
          · rw [if_neg hl]; exact hfin l hl
    have hself : ∀ l, fs.get q = some .dir →
        fs.get l = if l <+: q ∧ fs.get l = none then some .dir else fs.get l := by
      intro l hd
      rw [if_neg]
      rintro ⟨h1, h2⟩
      by_cases e : l = q
      · subst e; rw [hd] at h2; simp at h2
      · rw [hwf.dir_of_prefix h1 e hd] at h2; simp at h2
    have hwq : Writable fs (q ++ [s]) ↔ fs.dirable q ∧ fs.get (q ++ [s]) ≠ some .dir := by
      constructor
      · rintro ⟨h1, h2⟩
        refine ⟨fun l hl => h1 l (hl.trans (List.prefix_append _ _)) ?_, h2⟩
        intro e; have := hl.length_le; rw [e] at this; simp at this; omega
      · rintro ⟨h1, h2⟩
        refine ⟨fun l hl hne => ?_, h2⟩
        rcases Fs.prefix_concat.mp hl with h | h
        · exact h1 l h
        · exact absurd h hne
    rw [hdl, hpe, hemp]
    simp only [Bool.false_eq_true, false_or]
    cases hgq : fs.get q with
    | some n =>
      simp only [Option.isSome_some, if_true]
      cases n with
      | dir =>
        have hdq := Fs.dirable_of_dir hwf hgq
        constructor
        · intro hw
          exact main fs hwf hgq (fun l => hself l hgq) hw.2
        · intro hw
          have hdir : fs.get (q ++ [s]) = some .dir := by
            rw [hwq] at hw
            exact Classical.byContradiction fun hh => hw ⟨hdq, hh⟩
          rw [openCreate_plain hwf hp hgq, hdir]
          exact ⟨_, rfl⟩
      | file b =>
        constructor
        · intro hw
          exact absurd hgq (hw.1 q (List.prefix_append _ _) (by intro e; have := congrArg List.length e; simp at this) b)
        · intro _
          have hl := Fs.locate_err hwf hp (by rw [hgq]; simp)
          unfold Fs.openCreate
          rcases hl with ⟨e1, _⟩ | ⟨e1, _⟩ <;> rw [e1] <;> exact ⟨_, rfl⟩
    | none =>
      simp only [Option.isSome_none, Bool.false_eq_true, if_false]
      obtain ⟨m1, m2⟩ := Fs.mkdirAll_spec hwf q hpq
      by_cases hdq : fs.dirable q
      · obtain ⟨fs1, hm, hwf1, hget1⟩ := m1 hdq
        rw [hm]
        have hnone : fs.get (q ++ [s]) = none := hwf.none_below (List.prefix_append _ _) hgq
        have hd1 : fs1.get q = some .dir := by rw [hget1]; simp [Fs.mkdirSpec, hgq]
        constructor
        · intro hw
          exact main fs1 hwf1 hd1 hget1 hw.2
        · intro hw
          exact absurd (hwq.mpr ⟨hdq, by rw [hnone]; simp⟩) hw
      · obtain ⟨e, hm⟩ := m2 hdq
        rw [hm]
        constructor
        · intro hw; exact absurd (hwq.mp hw).1 hdq
        · intro _; exact ⟨e, rfl⟩

/-- A `set` that reported success found the location writable. -/
theorem storeSet_ok {h : Hier} {key : Str} {fs fs' : Fs} {v : Bytes × Outcome Unit} (hwf : fs.WF)
    (hp : Plain (h.loc key)) (hset : storeSet h key v fs = (.ok (), fs')) :
    Writable fs (h.loc key) ∧ v.2 = .ok () ∧ fs'.WF ∧
      ∀ l, fs'.get l = setSpec fs (h.loc key) v.1 l := by
  obtain ⟨s1, s2⟩ := storeSet_spec (h := h) (key := key) v hwf hp
  by_cases hw : Writable fs (h.loc key)
  · obtain ⟨fs1, h1, h2, h3⟩ := s1 hw
    rw [h1] at hset
    simp at hset
    obtain ⟨hv, rfl⟩ := hset
    exact ⟨hw, hv, h2, h3⟩
  · obtain ⟨e, he⟩ := s2 hw
    rw [he] at hset; simp at hset

/-- Whatever a `set` reports, the result is a tree and only files at `p` and directories on the
way to it can have changed. -/
theorem storeSet_frame {h : Hier} {key : Str} {fs fs' : Fs} {v : Bytes × Outcome Unit}
    {r : Outcome Unit} (hwf : fs.WF) (hp : Plain (h.loc key))
    (hset : storeSet h key v fs = (r, fs')) :
    fs'.WF ∧ ∀ l, l ≠ h.loc key → fs'.content l = fs.content l := by
  obtain ⟨s1, s2⟩ := storeSet_spec (h := h) (key := key) v hwf hp
  by_cases hw : Writable fs (h.loc key)
  · obtain ⟨fs1, h1, h2, h3⟩ := s1 hw
    rw [h1] at hset
    simp at hset
    obtain ⟨_, rfl⟩ := hset
    refine ⟨h2, fun l hl => ?_⟩
    unfold Fs.content
    rw [h3 l, setSpec, if_neg hl]
    by_cases hc : l <+: h.loc key ∧ fs.get l = none
    · rw [if_pos hc, hc.2]
    · rw [if_neg hc]
  · obtain ⟨e, he⟩ := s2 hw
    rw [he] at hset; simp at hset
    rw [← hset.2]; exact ⟨hwf, fun _ _ => rfl⟩

theorem storeErase_spec {h : Hier} {key : Str} {fs : Fs} (hwf : fs.WF) (hp : Plain (h.loc key)) :
    storeErase h key fs = match fs.get (h.loc key) with
      | some (.file _) => (.ok true, fs.del (h.loc key))
      | some .dir => (.err .isADirectory, fs)
      | none => (.ok true, fs) := by
  obtain ⟨t, ht, hs⟩ := getPath_loc hp
  unfold storeErase
  rw [ht]
  simp only [hs]
  generalize h.loc key = p at hp
  cases hg : fs.get p with
  | none =>
    split
    · rename_i l hl
      rw [Fs.locate_plain_ok hp hl, hg]
    · rfl
  | some n =>
    rw [Fs.locate_of_get hwf hp hg]
    simp only [hg]
    cases n with
    | dir => rfl
    | file b =>
      simp only
      have : (fs.del p).pathExists p = false := by
        unfold Fs.pathExists
        rw [Fs.node_plain (hwf.del_file hg) hp, Fs.get_del]; simp
      rw [this]; rfl

theorem storeErase_frame {h : Hier} {key : Str} {fs fs' : Fs} {r : Outcome Bool} (hwf : fs.WF)
    (hp : Plain (h.loc key)) (her : storeErase h key fs = (r, fs')) :
    fs'.WF ∧ (∀ l, fs'.get l = fs.get l ∨ l = h.loc key) ∧ fs'.content (h.loc key) = none := by
  rw [storeErase_spec hwf hp] at her
  split at her
  · rename_i b hg
    simp at her
    obtain ⟨_, rfl⟩ := her
    refine ⟨hwf.del_file hg, fun l => ?_, by simp [Fs.content, Fs.get_del]⟩
    by_cases e : l = h.loc key
    · right; exact e
    · left; rw [Fs.get_del, if_neg e]
  · rename_i hg
    simp at her
    obtain ⟨_, rfl⟩ := her
    exact ⟨hwf, fun l => Or.inl rfl, by simp [Fs.content, hg]⟩
  · rename_i hg
    simp at her
    obtain ⟨_, rfl⟩ := her
    exact ⟨hwf, fun l => Or.inl rfl, by simp [Fs.content, hg]⟩

theorem Fs.content_congr {fs fs' : Fs} {l : Loc} (h : fs'.get l = fs.get l) :
    fs'.content l = fs.content l := by
  unfold Fs.content; rw [h]

theorem storeErasePrefix_spec {h : Hier} {key : Str} {fs : Fs} (hwf : fs.WF)
    (hp : Plain (h.loc key)) (hne : h.loc key ≠ []) :
    ∃ fs', storeErasePrefix h key fs = (.ok true, fs') ∧ fs'.WF ∧
      ∀ l, fs'.get l = if h.loc key <+: l then none else fs.get l := by
  obtain ⟨t, ht, hs⟩ := getPath_loc hp
  unfold storeErasePrefix
  rw [ht]
  simp only [hs]
  generalize h.loc key = p at hp hne
  cases hg : fs.get p with
  | none =>
    refine ⟨fs, ?_, hwf, ?_⟩
    · split
      · rename_i l hl
        rw [Fs.locate_plain_ok hp hl, hg]
      · rfl
    · intro l
      split
      · rename_i hpre; exact hwf.none_below hpre hg
      · rfl
  | some n =>
    rw [Fs.locate_of_get hwf hp hg]
    simp only [hg]
    refine ⟨fs.delTree p, ?_, hwf.delTree hne, fun l => Fs.get_delTree fs p l⟩
    have : (fs.delTree p).pathExists p = false := by
      unfold Fs.pathExists
      rw [Fs.node_plain (hwf.delTree hne) hp, Fs.get_delTree]; simp
    rw [this]; rfl

end Zarr
