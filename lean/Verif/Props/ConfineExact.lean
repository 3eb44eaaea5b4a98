import Verif.Lemmas.ConfineExact
import Verif.Props.Confine
/-!
# Exactly the keys with which the store stays inside its directory: C41

Claim: no call reads or changes anything outside the base directory. It is false (`C41_violated`). Here: for every key
and each store call, exactly when it holds. -/

namespace Zarr

/-- A key with more `..` than other components. -/
def Spec.Refused (ks : List Str) : Prop := (ks.filter (· ≠ dotdot)).length < (ks.filter (· = dotdot)).length

open Spec

theorem nest_neg (ks : List Str) : nest ks < 0 ↔ Refused ks := by
  have : ∀ ks : List Str, nest ks = ((ks.filter (· ≠ dotdot)).length : Int) - (ks.filter (· = dotdot)).length := by
    intro ks
    induction ks with
    | nil => rfl
    | cons s ks ih =>
      rw [nest, ih]
      by_cases h : s = dotdot
      · simp [h]; omega
      · simp [h]; omega
  rw [this, Refused]
  omega

variable {h : Hier} {key : Str}

theorem getPath_refused (hr : Refused (segs key)) : getPath h.base key = .err .notFound := by
  rw [getPath_eq, if_pos ((nest_neg _).mpr hr)]

theorem getPath_accepted (hr : ¬ Refused (segs key)) : ∃ t, getPath h.base key = .ok t ∧ segs t = segs h.base ++ segs key := by
  have : ∃ t, getPath h.base key = .ok t := by
    rw [getPath_eq, if_neg (fun hc => hr ((nest_neg _).mp hc))]; exact ⟨_, rfl⟩
  obtain ⟨t, ht⟩ := this
  exact ⟨t, ht, segs_target ht⟩

/-! ## list_dir -/

theorem storeListDir_ok (hr : ¬ Refused (segs key)) {fs : Fs} {l : Loc}
    (hl : fs.locate (segs h.base ++ segs key) = .ok l) (hg : fs.get l = some .dir) :
    (storeListDir h key fs).1 = .ok
      ((fs.children l).filterMap (fun e => if e.2 = .dir then none else some (key ++ e.1)),
        (fs.children l).filterMap (fun e => if e.2 = .dir then some (key ++ e.1) else none)) := by
  obtain ⟨t, h1, h2⟩ := getPath_accepted (h := h) hr
  simp only [storeListDir, M.read, h1, Outcome.bind_ok, h2, hl, hg]
  rfl

theorem storeListDir_fail {fs : Fs} (hl : ∀ l, fs.locate (segs h.base ++ segs key) ≠ .ok l) :
    ∀ r, (storeListDir h key fs).1 ≠ .ok r := by
  intro r hr
  simp only [storeListDir, M.read] at hr
  cases hp : getPath h.base key with
  | err e => rw [hp] at hr; simp at hr
  | panic => rw [hp] at hr; simp at hr
  | ok t =>
    rw [hp] at hr
    simp only [Outcome.bind_ok, segs_target hp] at hr
    cases hc : fs.locate (segs h.base ++ segs key) with
    | ok l => exact hl l hc
    | err e => rw [hc] at hr; simp at hr
    | panic => rw [hc] at hr; simp at hr

theorem insert_fresh {es : List (Loc × Node)} {l : Loc} (n : Node) (hg : Fs.lookup es l = none) :
    Fs.insert es l n = es ++ [(l, n)] := by
  induction es with
  | nil => rfl
  | cons e es ih =>
    obtain ⟨k, m⟩ := e
    simp only [Fs.lookup] at hg
    split at hg
    · simp at hg
    · rename_i hk
      simp only [Fs.insert, if_neg hk, List.cons_append, ih hg]

theorem children_fresh {fs : Fs} {l : Loc} {s : Str} (hg : fs.get (l ++ [s]) = none) (n : Node) :
    (fs.put (l ++ [s]) n).children l = fs.children l ++ [(s, n)] := by
  unfold Fs.children Fs.put
  rw [insert_fresh n hg, List.filterMap_append]
  simp

/-- **C41 for `list_dir`.** -/
theorem listDir_exact (hb : Plain (segs h.base)) :
    ConfinedTrees (segs h.base) (storeListDir h key) ↔
      Refused (segs key) ∨ (segs h.base <+: dest (segs h.base) (segs key) ∧
        ∀ l ∈ passed (segs h.base) (segs key), InLine (segs h.base) l) := by
  generalize hbb : segs h.base = b at hb
  constructor
  · intro hc
    refine Classical.byContradiction fun hn => ?_
    have hnr : ¬ Refused (segs key) := fun hr => hn (.inl hr)
    let ls := b :: dest b (segs key) :: passed b (segs key)
    have hroot : Rooted b (dirsFs ls) := rooted_dirsFs (List.mem_cons_self ..)
    have hpass : ∀ m ∈ passed b (segs key), (dirsFs ls).get m = some .dir := fun m hm =>
      dirsFs_get (List.mem_cons_of_mem _ (List.mem_cons_of_mem _ hm)) (List.prefix_refl _)
    have hdest : (dirsFs ls).get (dest b (segs key)) = some .dir :=
      dirsFs_get (List.mem_cons_of_mem _ (List.mem_cons_self ..)) (List.prefix_refl _)
    have hwf := (dirsFs_spec ls).1
    have r1 := storeListDir_ok (h := h) hnr (by rw [hbb]; exact locate_dirs hb hroot hpass) hdest
    by_cases hall : ∀ l ∈ passed b (segs key), InLine b l
    · -- the listed directory is not below: a new entry of it shows
      have hd : ¬ b <+: dest b (segs key) := fun hd => hn (.inr ⟨hd, hall⟩)
      obtain ⟨s, hs⟩ := free_name (dirsFs ls) (dest b (segs key))
      have hbl : ¬ b <+: dest b (segs key) ++ [s] := by
        intro hp
        rcases List.prefix_concat_iff.mp hp with h1 | h1
        · rw [← h1, hroot b (List.prefix_refl _)] at hs; simp at hs
        · exact hd h1
      have hlb : ¬ dest b (segs key) ++ [s] <+: b := by
        intro hp; rw [hroot _ hp] at hs; simp at hs
      have hsim := sim_put_out hbl hlb hroot .dir
      have hwf2 := hwf.put_dir (s := s) hdest
      have r2 := storeListDir_ok (h := h) (l := dest b (segs key)) (fs := (dirsFs ls).put (dest b (segs key) ++ [s]) .dir) hnr
        (by
          rw [hbb]
          refine locate_dirs hb hsim.right fun m hm => ?_
          rw [Fs.get_put]; split
          · rfl
          · exact hpass m hm)
        (by rw [Fs.get_put, if_neg (by simp), hdest])
      have := (hc _ _ hwf hwf2 hsim).1
      rw [r1, r2, children_fresh hs] at this
      simp at this
    · obtain ⟨l, hl⟩ := Classical.not_forall.mp hall
      obtain ⟨hl, hnl⟩ := Classical.not_imp.mp hl
      have hsim := sim_delTree hnl hroot
      have hwf2 := hwf.delTree (not_nil_of_line hnl)
      have := (hc _ _ hwf hwf2 hsim).1
      rw [r1] at this
      exact storeListDir_fail (h := h) (key := key) (fs := (dirsFs ls).delTree l)
        (by
          rw [hbb]
          exact locate_gone hb hsim.right hl (by rw [Fs.get_delTree, if_pos (List.prefix_refl _)]; simp)) _ this.symm
  · rintro (hr | ⟨hd, hall⟩)
    · intro fs fs' _ _ hs
      have : ∀ f : Fs, storeListDir h key f = (.err .notFound, f) := fun f => by
        simp [storeListDir, M.read, getPath_refused (h := h) hr]
      rw [this, this]
      exact ⟨rfl, hs.same, rfl, rfl⟩
    · refine (storeListDir_line ?_ ?_).confined.trees
      · rw [hbb]
        refine line_base hb fun l hl => ?_
        rcases List.mem_cons.mp hl with h1 | h1
        · exact h1 ▸ .inr hd
        · exact hall l h1
      · rw [hbb, dest_base hb]; exact hd

/-! ## erase -/

theorem storeErase_dir (hr : ¬ Refused (segs key)) {fs : Fs} {l : Loc}
    (hl : fs.locate (segs h.base ++ segs key) = .ok l) (hg : fs.get l = some .dir) :
    storeErase h key fs = (.err .isADirectory, fs) := by
  obtain ⟨t, h1, h2⟩ := getPath_accepted (h := h) hr
  simp only [storeErase, h1, h2, hl, hg]

theorem storeErase_gone (hr : ¬ Refused (segs key)) {fs : Fs}
    (hl : ∀ l, fs.locate (segs h.base ++ segs key) ≠ .ok l) : storeErase h key fs = (.ok true, fs) := by
  obtain ⟨t, h1, h2⟩ := getPath_accepted (h := h) hr
  simp only [storeErase, h1, h2]
  all_goals
  cases hc : fs.locate (segs h.base ++ segs key) with
  | ok l => exact absurd hc (hl l)
  | err e => rfl
  | panic => rfl

theorem storeErase_file (hr : ¬ Refused (segs key)) {fs : Fs} {l : Loc} {c : Bytes}
    (hl : fs.locate (segs h.base ++ segs key) = .ok l) (hg : fs.get l = some (.file c)) :
    (storeErase h key fs).2 = fs.del l := by
  obtain ⟨t, h1, h2⟩ := getPath_accepted (h := h) hr
  simp only [storeErase, h1, h2, hl, hg]

/-- What is outside depends only on the entries there. -/
theorem get_of_outside {b l : Loc} (hl : ¬ b <+: l) {fs fs' : Fs} (ho : outside b fs = outside b fs') :
    fs.get l = fs'.get l := by rw [get_outside hl, get_outside hl, ho]

/-- What a key leads to through directories in line, outside: not above anything that it goes through. -/
theorem dest_fresh {b : Loc} {ks : List Str} (hall : ∀ l ∈ passed b ks, InLine b l) (hd : ¬ InLine b (dest b ks)) :
    ks ≠ [] ∧ ∀ l ∈ b :: passed b ks, ¬ dest b ks <+: l := by
  refine ⟨?_, ?_⟩
  · rintro rfl; exact hd (.inl (List.prefix_refl _))
  · intro l hl hp
    rcases List.mem_cons.mp hl with h1 | h1
    · exact hd (.inl (h1 ▸ hp))
    · exact hd (inLine_of_prefix hp (hall l h1))

/-- Directories that a key goes through, and a file where it leads. -/
theorem fileFs {b : Loc} {ks : List Str} (hne : ks ≠ []) (hd : ∀ l ∈ passed b ks, ¬ dest b ks <+: l) (c : Bytes) :
    ∃ fs : Fs, fs.WF ∧ Rooted b fs ∧ (∀ m ∈ passed b ks, fs.get m = some .dir) ∧
      fs.get (dest b ks) = some (.file c) := by
  let ls := b :: passed b ks
  have hroot : Rooted b (dirsFs ls) := rooted_dirsFs (List.mem_cons_self ..)
  have hpass : ∀ m ∈ passed b ks, (dirsFs ls).get m = some .dir := fun m hm =>
    dirsFs_get (List.mem_cons_of_mem _ hm) (List.prefix_refl _)
  obtain ⟨m, s, hm, hms⟩ := dest_new hne hd
  have hdb : ¬ dest b ks <+: b := hd b (base_passed hne)
  have hnone : (dirsFs ls).get (dest b ks) = none := by
    refine dirsFs_none (by rw [hms]; simp) fun l hl => ?_
    rcases List.mem_cons.mp hl with h1 | h1
    · rw [h1]; exact hdb
    · exact hd l h1
  refine ⟨(dirsFs ls).put (dest b ks) (.file c), ?_, ?_, ?_, ?_⟩
  · rw [hms]
    refine (dirsFs_spec ls).1.put_file (hpass m hm) ?_
    rw [← hms, hnone]; simp
  · intro l hl
    rw [Fs.get_put, if_neg, hroot l hl]
    rintro rfl; exact hdb hl
  · intro l hl
    rw [Fs.get_put, if_neg, hpass l hl]
    intro he; exact hd l hl (he ▸ List.prefix_refl _)
  · rw [Fs.get_put, if_pos rfl]

/-- **C41 for `erase`.** -/
theorem erase_exact (hb : Plain (segs h.base)) :
    ConfinedTrees (segs h.base) (storeErase h key) ↔
      Refused (segs key) ∨ ∀ l ∈ dest (segs h.base) (segs key) :: passed (segs h.base) (segs key),
        InLine (segs h.base) l := by
  generalize hbb : segs h.base = b at hb
  constructor
  · intro hc
    refine Classical.byContradiction fun hn => ?_
    have hnr : ¬ Refused (segs key) := fun hr => hn (.inl hr)
    by_cases hall : ∀ l ∈ passed b (segs key), InLine b l
    · have hd : ¬ InLine b (dest b (segs key)) := fun hd => hn (.inr fun l hl => by
        rcases List.mem_cons.mp hl with h1 | h1
        · exact h1 ▸ hd
        · exact hall l h1)
      obtain ⟨hne, hfr⟩ := dest_fresh hall hd
      obtain ⟨fs, hwf, hroot, hpass, hfile⟩ := fileFs hne (fun l hl => hfr l (List.mem_cons_of_mem _ hl)) []
      have := (hc fs fs hwf hwf ⟨hroot, hroot, rfl⟩).2.2.1
      rw [storeErase_file (h := h) hnr (by rw [hbb]; exact locate_dirs hb hroot hpass) hfile] at this
      have h2 := get_of_outside (l := dest b (segs key)) (fun hp => hd (.inr hp)) this
      rw [Fs.get_del, if_pos rfl, hfile] at h2
      simp at h2
    · obtain ⟨l, hl⟩ := Classical.not_forall.mp hall
      obtain ⟨hl, hnl⟩ := Classical.not_imp.mp hl
      let ls := b :: dest b (segs key) :: passed b (segs key)
      have hroot : Rooted b (dirsFs ls) := rooted_dirsFs (List.mem_cons_self ..)
      have hpass : ∀ m ∈ passed b (segs key), (dirsFs ls).get m = some .dir := fun m hm =>
        dirsFs_get (List.mem_cons_of_mem _ (List.mem_cons_of_mem _ hm)) (List.prefix_refl _)
      have hdest : (dirsFs ls).get (dest b (segs key)) = some .dir :=
        dirsFs_get (List.mem_cons_of_mem _ (List.mem_cons_self ..)) (List.prefix_refl _)
      have hsim := sim_delTree hnl hroot
      have := (hc _ _ (dirsFs_spec ls).1 ((dirsFs_spec ls).1.delTree (not_nil_of_line hnl)) hsim).1
      rw [storeErase_dir (h := h) hnr (by rw [hbb]; exact locate_dirs hb hroot hpass) hdest,
        storeErase_gone (h := h) hnr (by
          rw [hbb]
          exact locate_gone hb hsim.right hl (by rw [Fs.get_delTree, if_pos (List.prefix_refl _)]; simp))] at this
      simp at this
  · rintro (hr | hall)
    · intro fs fs' _ _ hs
      have : ∀ f : Fs, storeErase h key f = (.err .notFound, f) := fun f => by
        simp [storeErase, getPath_refused (h := h) hr]
      rw [this, this]
      exact ⟨rfl, hs.same, rfl, rfl⟩
    · exact (storeErase_line (by rw [hbb]; exact line_base hb hall)).confined.trees

/-! ## set -/

theorem storeSet_there (hr : ¬ Refused (segs key)) {fs : Fs} (v : Bytes × Outcome Unit)
    (hp : (segs h.base ++ segs key) = [] ∨ fs.pathExists (segs h.base ++ segs key).dropLast = true) :
    storeSet h key v fs = match Fs.openCreate (segs h.base ++ segs key) fs with
      | .err e => (.err e, fs)
      | .panic => (.panic, fs)
      | .ok (l, fs2) => (v.2, fs2.put l (.file v.1)) := by
  obtain ⟨t, h1, h2⟩ := getPath_accepted (h := h) hr
  simp only [storeSet, h1, h2]
  rw [if_pos (hp.imp (fun e => by simp [e]) id)]
  rfl

theorem storeSet_missing (hr : ¬ Refused (segs key)) {fs : Fs} (v : Bytes × Outcome Unit) {e : ErrKind}
    (hn : (segs h.base ++ segs key) ≠ []) (hp : fs.pathExists (segs h.base ++ segs key).dropLast = false)
    (hm : (Fs.mkdirAll (segs h.base ++ segs key).dropLast fs).1 = .err e) :
    (storeSet h key v fs).1 = .err e := by
  obtain ⟨t, h1, h2⟩ := getPath_accepted (h := h) hr
  simp only [storeSet, h1, h2]
  rw [if_neg (by simp [hp, hn])]
  generalize Fs.mkdirAll (segs h.base ++ segs key).dropLast fs = r at hm
  obtain ⟨o, g⟩ := r
  simp only at hm
  subst hm
  rfl

theorem mkdirAll_notADirectory {fs : Fs} {p : List Str} (hn : p ≠ []) (hl : fs.locate p = .err .notADirectory) :
    (Fs.mkdirAll p fs).1 = .err .notADirectory := by
  unfold Fs.mkdirAll
  generalize hr : p.reverse = r
  cases r with
  | nil => exact absurd (by simpa using hr) hn
  | cons s r =>
    have hp : (s :: r).reverse = p := by rw [← hr]; simp
    unfold Fs.mkdirAllRev
    rw [hp]
    simp [Fs.mkdir, hl, Fs.isDir, Fs.node]

/-- A path that gets below a place goes through it. -/
theorem passed_enter {l m : Loc} {p : List Str} {cur : Loc} (hc : ¬ l <+: cur) (hm : m ∈ passed cur p) (hlm : l <+: m) :
    l ∈ passed cur p := by
  induction p generalizing cur with
  | nil => simp [passed] at hm
  | cons s p ih =>
    rcases List.mem_cons.mp hm with h1 | h1
    · exact absurd (h1 ▸ hlm) hc
    · refine List.mem_cons_of_mem _ ?_
      by_cases he : stepTo cur s = l
      · cases p with
        | nil => simp [passed] at h1
        | cons s' p => rw [he]; exact List.mem_cons_self ..
      · refine ih ?_ h1
        intro hp
        unfold stepTo at hp he
        split at hp
        · exact hc (hp.trans (List.dropLast_prefix _))
        · rename_i hs
          rw [if_neg hs] at he
          rcases List.prefix_concat_iff.mp hp with h2 | h2
          · exact he h2.symm
          · exact hc h2

/-- A key that goes through a file. -/
theorem storeSet_through (hr : ¬ Refused (segs key)) (hb : Plain (segs h.base)) {fs : Fs} (v : Bytes × Outcome Unit)
    {l : Loc} {c : Bytes} (hroot : Rooted (segs h.base) fs) (hl : fs.get l = some (.file c))
    (hp : l ∈ passed (segs h.base) (segs key))
    (hd : ∀ m ∈ passed (segs h.base) (segs key), ¬ l <+: m → fs.get m = some .dir) :
    (storeSet h key v fs).1 = .err .notADirectory := by
  have hlb : ¬ l <+: segs h.base := fun hc => by rw [hroot l hc] at hl; simp at hl
  have hkn : segs key ≠ [] := by intro e; rw [e] at hp; simp [passed] at hp
  have hwalk : ∀ ks : List Str, ks <+: segs key → l ∈ passed (segs h.base) ks →
      fs.locate (segs h.base ++ ks) = .err .notADirectory := by
    intro ks hks hm
    rw [locate_rooted hb hroot]
    refine walk_file hl (fun m hm' => hd m ?_) (.inr hlb) hm
    obtain ⟨r, hr⟩ := hks
    rw [← hr, passed_append]
    exact List.mem_append_left _ hm'
  have hlast := hwalk _ (List.prefix_refl _) hp
  have hne : segs h.base ++ segs key ≠ [] := by simp [hkn]
  cases hx : fs.pathExists (segs h.base ++ segs key).dropLast with
  | true =>
    rw [storeSet_there hr v (.inr hx)]
    simp [Fs.openCreate, hlast]
  | false =>
    refine storeSet_missing hr v hne hx (mkdirAll_notADirectory ?_ ?_)
    all_goals rw [List.dropLast_append_of_ne_nil hkn] at hx ⊢
    · intro e
      have hbn : segs h.base = [] := (List.append_eq_nil_iff.mp e).1
      rw [e] at hx
      have := hroot [] List.nil_prefix
      simp [Fs.pathExists, Fs.node, Fs.locate, Fs.walk, this] at hx
    · refine hwalk _ (List.dropLast_prefix _) ?_
      rw [← List.dropLast_concat_getLast hkn, passed_append] at hp
      rcases List.mem_append.mp hp with h1 | h1
      · exact h1
      · simp only [passed, List.mem_cons, List.not_mem_nil, or_false] at h1
        refine Classical.byContradiction fun hno => ?_
        have hdirs : ∀ m ∈ passed (segs h.base) (segs key).dropLast, fs.get m = some .dir := by
          intro m hm
          by_cases hlm : l <+: m
          · exfalso
            exact hno (passed_enter hlb hm hlm)
          · refine hd m ?_ hlm
            rw [← List.dropLast_concat_getLast hkn, passed_append]
            exact List.mem_append_left _ hm
        have := locate_dirs hb hroot hdirs
        rw [← h1] at this
        simp [Fs.pathExists, Fs.node, this, hl] at hx

/-- **C41 for `set`**, with contents that the caller delivers without an error. -/
theorem set_exact (hb : Plain (segs h.base)) (c : Bytes) :
    ConfinedTrees (segs h.base) (storeSet h key (c, .ok ())) ↔
      Refused (segs key) ∨ ∀ l ∈ dest (segs h.base) (segs key) :: passed (segs h.base) (segs key),
        InLine (segs h.base) l := by
  constructor
  · intro hc
    refine Classical.byContradiction fun hn => ?_
    have hnr : ¬ Refused (segs key) := fun hr => hn (.inl hr)
    by_cases hall : ∀ l ∈ passed (segs h.base) (segs key), InLine (segs h.base) l
    · -- a file comes into being outside
      have hd : ¬ InLine (segs h.base) (dest (segs h.base) (segs key)) := fun hd => hn (.inr fun l hl => by
        rcases List.mem_cons.mp hl with h1 | h1
        · exact h1 ▸ hd
        · exact hall l h1)
      obtain ⟨hne, hfr⟩ := dest_fresh hall hd
      let ls := segs h.base :: passed (segs h.base) (segs key)
      have hroot : Rooted (segs h.base) (dirsFs ls) := rooted_dirsFs (List.mem_cons_self ..)
      have hpass : ∀ m ∈ passed (segs h.base) (segs key), (dirsFs ls).get m = some .dir := fun m hm =>
        dirsFs_get (List.mem_cons_of_mem _ hm) (List.prefix_refl _)
      have hnone : (dirsFs ls).get (dest (segs h.base) (segs key)) = none :=
        dirsFs_none (not_nil_of_line hd) hfr
      have hloc := locate_dirs hb hroot hpass
      have hex : (dirsFs ls).pathExists (segs h.base ++ segs key).dropLast = true := by
        rw [List.dropLast_append_of_ne_nil hne]
        rw [← List.dropLast_concat_getLast hne, passed_append] at hpass
        have := locate_dirs hb hroot fun m hm => hpass m (List.mem_append_left _ hm)
        have hx := hpass (dest (segs h.base) (segs key).dropLast) (List.mem_append_right _ (by simp [passed]))
        simp [Fs.pathExists, Fs.node, this, hx]
      have := (hc _ _ (dirsFs_spec ls).1 (dirsFs_spec ls).1 ⟨hroot, hroot, rfl⟩).2.2.1
      rw [storeSet_there hnr _ (.inr hex)] at this
      simp only [Fs.openCreate, hloc, hnone] at this
      have h2 := get_of_outside (l := dest (segs h.base) (segs key)) (fun hp => hd (.inr hp)) this
      rw [Fs.get_put, if_pos rfl, hnone] at h2
      simp at h2
    · obtain ⟨l, hl⟩ := Classical.not_forall.mp hall
      obtain ⟨hl, hnl⟩ := Classical.not_imp.mp hl
      have hne : segs key ≠ [] := by intro e; rw [e] at hl; simp [passed] at hl
      let ls := segs h.base :: dest (segs h.base) (segs key) :: passed (segs h.base) (segs key)
      have hroot : Rooted (segs h.base) (dirsFs ls) := rooted_dirsFs (List.mem_cons_self ..)
      have hpass : ∀ m ∈ passed (segs h.base) (segs key), (dirsFs ls).get m = some .dir := fun m hm =>
        dirsFs_get (List.mem_cons_of_mem _ (List.mem_cons_of_mem _ hm)) (List.prefix_refl _)
      have hdest : (dirsFs ls).get (dest (segs h.base) (segs key)) = some .dir :=
        dirsFs_get (List.mem_cons_of_mem _ (List.mem_cons_self ..)) (List.prefix_refl _)
      have hloc := locate_dirs hb hroot hpass
      have hex : (dirsFs ls).pathExists (segs h.base ++ segs key).dropLast = true := by
        rw [List.dropLast_append_of_ne_nil hne]
        rw [← List.dropLast_concat_getLast hne, passed_append] at hpass
        have := locate_dirs hb hroot fun m hm => hpass m (List.mem_append_left _ hm)
        have hx := hpass (dest (segs h.base) (segs key).dropLast) (List.mem_append_right _ (by simp [passed]))
        simp [Fs.pathExists, Fs.node, this, hx]
      have hln := not_nil_of_line hnl
      obtain ⟨l', s, rfl⟩ : ∃ l' s, l = l' ++ [s] := ⟨_, _, (List.dropLast_concat_getLast hln).symm⟩
      have hsim1 := sim_delTree hnl hroot
      have hsim := hsim1.trans (sim_put_out (fun hp => hnl (.inr hp)) (fun hp => hnl (.inl hp)) hsim1.right (.file []))
      have hparent : ((dirsFs ls).delTree (l' ++ [s])).get l' = some .dir := by
        rw [Fs.get_delTree, if_neg (fun hp => by have := hp.length_le; rw [List.length_append, List.length_singleton] at this; omega)]
        exact dirsFs_get (List.mem_cons_of_mem _ (List.mem_cons_of_mem _ hl)) (List.prefix_append _ _)
      have hwf2 : (((dirsFs ls).delTree (l' ++ [s])).put (l' ++ [s]) (.file [])).WF :=
        ((dirsFs_spec ls).1.delTree hln).put_file hparent
          (by rw [Fs.get_delTree, if_pos (List.prefix_refl _)]; simp)
      have := (hc _ _ (dirsFs_spec ls).1 hwf2 hsim).1
      rw [storeSet_there hnr _ (.inr hex),
        storeSet_through hnr hb _ (l := l' ++ [s]) (c := []) hsim.right (by rw [Fs.get_put, if_pos rfl]) hl
          (fun m hm hlm => by
            rw [Fs.get_put, if_neg (by rintro rfl; exact hlm (List.prefix_refl _)), Fs.get_delTree, if_neg hlm]
            exact hpass m hm)] at this
      simp [Fs.openCreate, hloc, hdest] at this
  · rintro (hr | hall)
    · intro fs fs' _ _ hs
      have : ∀ f : Fs, storeSet h key (c, .ok ()) f = (.err .notFound, f) := fun f => by
        simp [storeSet, getPath_refused (h := h) hr]
      rw [this, this]
      exact ⟨rfl, hs.same, rfl, rfl⟩
    · exact (storeSet_line (line_base hb hall) _).confined.trees

/-! ## get and exists -/

theorem storeGet_file (hr : ¬ Refused (segs key)) {fs : Fs} {l : Loc} {c : Bytes}
    (hl : fs.locate (segs h.base ++ segs key) = .ok l) (hg : fs.get l = some (.file c)) :
    (storeGet h key fs).1 = .ok (some c) ∧ (storeExists h key fs).1 = .ok true := by
  obtain ⟨t, h1, h2⟩ := getPath_accepted (h := h) hr
  constructor
  · simp [storeGet, M.read, h1, h2, Fs.isFile, Fs.node, Fs.readFile, hl, hg]
  · simp [storeExists, M.read, h1, h2, Fs.isFile, Fs.node, hl, hg]

theorem storeGet_noFile (hr : ¬ Refused (segs key)) {fs : Fs} (hn : fs.isFile (segs h.base ++ segs key) = false) :
    (storeGet h key fs).1 = .ok none ∧ (storeExists h key fs).1 = .ok false := by
  obtain ⟨t, h1, h2⟩ := getPath_accepted (h := h) hr
  constructor
  · simp [storeGet, M.read, h1, h2, hn]
  · simp [storeExists, M.read, h1, h2, hn]

/-- Two filesystems that differ outside, of which only one has a file where the key leads. -/
theorem reads_escape {b : Loc} (hb : Plain b) {ks : List Str} (hd : ¬ ∃ l ∈ passed b ks, dest b ks <+: l)
    (hn : ¬ ∀ l ∈ dest b ks :: passed b ks, InLine b l) :
    ∃ fs fs' : Fs, fs.WF ∧ fs'.WF ∧ Sim b fs fs' ∧ fs.locate (b ++ ks) = .ok (dest b ks) ∧
      fs.get (dest b ks) = some (.file []) ∧ fs'.isFile (b ++ ks) = false := by
  have hne : ks ≠ [] := by
    rintro rfl
    exact hn fun l hl => by
      simp only [dest, passed, List.mem_cons, List.not_mem_nil, or_false] at hl
      exact hl ▸ .inl (List.prefix_refl _)
  obtain ⟨fs, hwf, hroot, hpass, hfile⟩ := fileFs hne (fun l hl hp => hd ⟨l, hl, hp⟩) []
  obtain ⟨l, hl⟩ := Classical.not_forall.mp hn
  obtain ⟨hl, hnl⟩ := Classical.not_imp.mp hl
  have hsim := sim_delTree hnl hroot
  refine ⟨fs, fs.delTree l, hwf, hwf.delTree (not_nil_of_line hnl), hsim, locate_dirs hb hroot hpass, hfile, ?_⟩
  unfold Fs.isFile Fs.node
  cases hc : (fs.delTree l).locate (b ++ ks) with
  | err e => rfl
  | panic => rfl
  | ok m =>
    rcases List.mem_cons.mp hl with h1 | h1
    · have : m = dest b ks := by rw [(walk_ok hc).1, dest_base hb]
      simp only
      rw [this, ← h1, Fs.get_delTree, if_pos (List.prefix_refl _)]
    · exact absurd hc (locate_gone hb hsim.right h1 (by rw [Fs.get_delTree, if_pos (List.prefix_refl _)]; simp) m)

/-- A key that leads above a place that it goes through does not lead to a file. -/
theorem isFile_above {b : Loc} (hb : Plain b) {ks : List Str} {l : Loc} (hl : l ∈ passed b ks) (hd : dest b ks <+: l)
    {fs : Fs} (hwf : fs.WF) : fs.isFile (b ++ ks) = false := by
  unfold Fs.isFile Fs.node
  cases hc : fs.locate (b ++ ks) with
  | err e => rfl
  | panic => rfl
  | ok m =>
    have hm : m = dest b ks := by rw [(walk_ok hc).1, dest_base hb]
    have hld := (walk_ok hc).2 l (mem_passed_base hb hl)
    simp only
    by_cases he : m = l
    · rw [he, hld]
    · rw [hwf.dir_of_prefix (hm ▸ hd) he hld]

/-- **C41 for `get` and `exists`.** -/
theorem get_exact (hb : Plain (segs h.base)) :
    (ConfinedTrees (segs h.base) (storeGet h key) ↔
      Refused (segs key) ∨
      (∃ l ∈ passed (segs h.base) (segs key), dest (segs h.base) (segs key) <+: l) ∨
      ∀ l ∈ dest (segs h.base) (segs key) :: passed (segs h.base) (segs key), InLine (segs h.base) l) ∧
    (ConfinedTrees (segs h.base) (storeExists h key) ↔
      Refused (segs key) ∨
      (∃ l ∈ passed (segs h.base) (segs key), dest (segs h.base) (segs key) <+: l) ∨
      ∀ l ∈ dest (segs h.base) (segs key) :: passed (segs h.base) (segs key), InLine (segs h.base) l) := by
  refine ⟨⟨?_, ?_⟩, ⟨?_, ?_⟩⟩
  · intro hc
    refine Classical.byContradiction fun hn => ?_
    have hnr : ¬ Refused (segs key) := fun hr => hn (.inl hr)
    obtain ⟨fs, fs', w1, w2, hs, hl, hf, hno⟩ := reads_escape hb (fun hd => hn (.inr (.inl hd))) (fun ha => hn (.inr (.inr ha)))
    have := (hc fs fs' w1 w2 hs).1
    rw [(storeGet_file hnr hl hf).1, (storeGet_noFile hnr hno).1] at this
    simp at this
  · rintro (hr | ⟨l, hl, hd⟩ | hall)
    · intro fs fs' _ _ hs
      have : ∀ f : Fs, storeGet h key f = (.err .notFound, f) := fun f => by
        simp [storeGet, M.read, getPath_refused (h := h) hr]
      rw [this, this]
      exact ⟨rfl, hs.same, rfl, rfl⟩
    · by_cases hnr : Refused (segs key)
      · intro fs fs' _ _ hs
        have : ∀ f : Fs, storeGet h key f = (.err .notFound, f) := fun f => by
          simp [storeGet, M.read, getPath_refused (h := h) hnr]
        rw [this, this]
        exact ⟨rfl, hs.same, rfl, rfl⟩
      · intro fs fs' w1 w2 hs
        refine ⟨?_, hs.same, rfl, rfl⟩
        rw [(storeGet_noFile hnr (isFile_above hb hl hd w1)).1, (storeGet_noFile hnr (isFile_above hb hl hd w2)).1]
    · exact (storeGet_line (line_base hb hall)).confined.trees
  · intro hc
    refine Classical.byContradiction fun hn => ?_
    have hnr : ¬ Refused (segs key) := fun hr => hn (.inl hr)
    obtain ⟨fs, fs', w1, w2, hs, hl, hf, hno⟩ := reads_escape hb (fun hd => hn (.inr (.inl hd))) (fun ha => hn (.inr (.inr ha)))
    have := (hc fs fs' w1 w2 hs).1
    rw [(storeGet_file hnr hl hf).2, (storeGet_noFile hnr hno).2] at this
    simp at this
  · rintro (hr | ⟨l, hl, hd⟩ | hall)
    · intro fs fs' _ _ hs
      have : ∀ f : Fs, storeExists h key f = (.err .notFound, f) := fun f => by
        simp [storeExists, M.read, getPath_refused (h := h) hr]
      rw [this, this]
      exact ⟨rfl, hs.same, rfl, rfl⟩
    · by_cases hnr : Refused (segs key)
      · intro fs fs' _ _ hs
        have : ∀ f : Fs, storeExists h key f = (.err .notFound, f) := fun f => by
          simp [storeExists, M.read, getPath_refused (h := h) hnr]
        rw [this, this]
        exact ⟨rfl, hs.same, rfl, rfl⟩
      · intro fs fs' w1 w2 hs
        refine ⟨?_, hs.same, rfl, rfl⟩
        rw [(storeGet_noFile hnr (isFile_above hb hl hd w1)).2, (storeGet_noFile hnr (isFile_above hb hl hd w2)).2]
    · exact (storeExists_line (line_base hb hall)).confined.trees

/-- **C41, exactly, for the store calls.** A key is refused if it has more `..` than other components. Any other key
leads somewhere through directories. `set` and `erase` stay inside the base directory, whatever there is in the
filesystem, exactly if all these are in line with it (at, above or below). `get` and `exists` do also if the key leads
above a directory that it goes through, where no file can be. `list_dir` does exactly if the key leads to a place at or
below the base directory, through directories in line with it. -/
theorem C41_exact (h : Hier) (hb : Plain (segs h.base)) (key : Str) :
    let b := segs h.base
    let to := dest b (segs key)
    let via := passed b (segs key)
    (∀ c, ConfinedTrees b (storeSet h key (c, .ok ())) ↔ Refused (segs key) ∨ ∀ l ∈ to :: via, InLine b l) ∧
    (ConfinedTrees b (storeErase h key) ↔ Refused (segs key) ∨ ∀ l ∈ to :: via, InLine b l) ∧
    (ConfinedTrees b (storeGet h key) ↔
      Refused (segs key) ∨ (∃ l ∈ via, to <+: l) ∨ ∀ l ∈ to :: via, InLine b l) ∧
    (ConfinedTrees b (storeExists h key) ↔
      Refused (segs key) ∨ (∃ l ∈ via, to <+: l) ∨ ∀ l ∈ to :: via, InLine b l) ∧
    (ConfinedTrees b (storeListDir h key) ↔ Refused (segs key) ∨ (b <+: to ∧ ∀ l ∈ via, InLine b l)) :=
  ⟨fun c => set_exact hb c, erase_exact hb, (get_exact hb).1, (get_exact hb).2, listDir_exact hb⟩

-- a key that leaves by a directory beside the base directory, one that comes back into it, and one that goes up
example : Plain (segs Demo.hier.base) ∧ segs Demo.hier.base = [str!"h"] ∧
    (dest [str!"h"] (segs str!"../c/d") = [str!"c", str!"d"] ∧
      passed [str!"h"] (segs str!"../c/d") = [[str!"h"], [], [str!"c"]]) ∧
    (dest [str!"h"] (segs str!"../h/d") = [str!"h", str!"d"] ∧
      passed [str!"h"] (segs str!"../h/d") = [[str!"h"], [], [str!"h"]]) ∧
    dest [str!"h"] (segs str!"x/../..") = [] := by decide

example : Refused (segs str!"../..") ∧ Refused (segs str!"a/../..") ∧ ¬ Refused (segs str!"../a") := by
  unfold Refused; decide

/-! ## Climbing paths -/

theorem dest_climb (cur : Loc) : dest cur (List.replicate cur.length dotdot) = [] := by
  generalize hn : cur.length = n
  induction n generalizing cur with
  | zero => simpa [dest] using hn
  | succ n ih =>
    rw [List.replicate_succ, dest, stepTo, if_pos rfl]
    exact ih _ (by simp [hn])

theorem passed_climb (cur : Loc) (n : Nat) {l : Loc} (h : l ∈ passed cur (List.replicate n dotdot)) : l <+: cur := by
  induction n generalizing cur with
  | zero => simp [passed] at h
  | succ n ih =>
    rw [List.replicate_succ, passed, stepTo, if_pos rfl] at h
    rcases List.mem_cons.mp h with h1 | h1
    · exact h1 ▸ List.prefix_refl _
    · exact (ih _ h1).trans (List.dropLast_prefix _)

/-- `metaKey_spec` for paths of which only the last component must not be `..`. -/
theorem metaKey_last {p kind sfx : Str} (hroot : ∃ q, p = '/' :: q) (hne : segs p ≠ [])
    (hplain : (segs p).getLast? ≠ some dotdot) (hk : kind ≠ []) (hk1 : '.' ∉ kind) (hk2 : '/' ∉ kind)
    (hsfx : '/' ∉ sfx) :
    segs (addExtension (addExtension p kind) sfx) = extLast ('.' :: kind ++ '.' :: sfx) (segs p) ∧
    ∃ q, addExtension (addExtension p kind) sfx = '/' :: q := by
  obtain ⟨d, n, hsl, hn1, hn2, hn3, hseg, hfn⟩ := splitLast_spec hroot hne
  have hndd : n ≠ str!".." := by
    intro h
    apply hplain
    rw [hseg, h]; simp [dotdot]
  rw [if_neg hndd] at hfn
  have e1 : addExtension p kind = d ++ '/' :: (n ++ '.' :: kind) := by
    rw [addExtension_spec hsl hfn hk]; simp
  have hn' : '/' ∉ n ++ '.' :: kind := by simp [hn1, hk2]
  have hsl' : splitLast (d ++ '/' :: (n ++ '.' :: kind)) = (d ++ ['/'], n ++ '.' :: kind) := by
    apply splitLast_append_name _ _ hn' (by simp)
    cases n with
    | nil => exact absurd rfl hn2
    | cons a as => simp
  have hfn' : fileName (d ++ '/' :: (n ++ '.' :: kind)) = some (n ++ '.' :: kind) := by
    unfold fileName
    rw [hsl']
    have : n ++ '.' :: kind ≠ str!".." := by
      intro h
      cases n with
      | nil => exact absurd rfl hn2
      | cons a as =>
        cases as with
        | nil => simp at h; exact hk h.2
        | cons b bs => cases bs <;> simp at h
    simp [this]
  have e2 : addExtension (addExtension p kind) sfx
      = d ++ '/' :: (n ++ '.' :: kind ++ '.' :: sfx) := by
    rw [e1]
    unfold addExtension extension setExtension
    rw [hfn', hsl']
    simp [stemExt_append n kind hn2 hk1]
  rw [e2]
  constructor
  · rw [segs_append_sep, hseg, extLast_append_singleton,
      segs_single (n ++ '.' :: kind ++ '.' :: sfx)]
    · simp
    · simp [hn1, hk2, hsfx]
    · simp
    · cases n with
      | nil => exact absurd rfl hn2
      | cons a as => simp
  · obtain ⟨q, hq⟩ := hroot
    have hp := stripTail_prefix p
    rw [← splitLast_append, hsl, hq] at hp
    cases d with
    | nil => exact ⟨_, rfl⟩
    | cons a as =>
      obtain ⟨t, ht⟩ := hp
      simp at ht
      exact ⟨_, by rw [ht.1]; rfl⟩

theorem joined_segs (path : Str) :
    segs (joinPath metaRoot (canonicalizePath path)) = str!"meta" :: str!"root" :: segs path := by
  rw [segs_joinPath _ _ (rel_canonicalizePath path), segs_canonicalizePath]; rfl

/-- The metadata key of a path that ends in a name. -/
theorem segs_metaKey_last {e : EntryPointMetadata} (he : GoodSuffix e) {path : Str} {init : List Str} {name : Str}
    (hp : segs path = init ++ [name]) (hn : name ≠ dotdot) {kind : Str} (hk : kind ≠ []) (hk1 : '.' ∉ kind)
    (hk2 : '/' ∉ kind) :
    segs (addExtension (addExtension (joinPath metaRoot (canonicalizePath path)) kind) (stripDot e.metadataKeySuffix)) =
      str!"meta" :: str!"root" :: init ++ [name ++ metaExt kind e.metadataKeySuffix] := by
  have := (metaKey_last (p := joinPath metaRoot (canonicalizePath path)) (kind := kind)
    (sfx := stripDot e.metadataKeySuffix)
    (joinPath_root _ _ (rel_canonicalizePath path) ⟨_, rfl⟩) (by rw [joined_segs]; simp)
    (by
      rw [joined_segs, hp, ← List.cons_append, ← List.cons_append, List.getLast?_concat]
      simpa using hn)
    hk hk1 hk2 (notMem_stripDot he)).1
  rw [joined_segs, hp, ← List.cons_append, ← List.cons_append, extLast_append_singleton] at this
  exact this

/-- **C41 (violated), always.** For every base directory and every directory `ts` with at least as many names less one,
anywhere: there are paths with which `create_group` writes a document for a node there, in every filesystem in which
the metadata directory of the hierarchy and `ts` exist and the node does not. -/
theorem C41_violated_always (env : Env) (h : Hier) (hb : Plain (segs h.base)) (hs : GoodSuffix h.entry) (path : Str)
    (ts : Loc) (name : Str) (ht : Plain (ts ++ [name])) (hlen : (segs h.base).length ≤ ts.length + 1)
    (hp : segs path = List.replicate ((segs h.base).length + 2) dotdot ++ (ts ++ [name])) (hout : ¬ segs h.base <+: ts)
    (fs : Fs) (hwf : fs.WF) (hm : fs.get (segs h.base ++ [str!"meta", str!"root"]) = some .dir)
    (hts : fs.get ts = some .dir)
    (hna : fs.get (ts ++ [name ++ metaExt str!"array" h.entry.metadataKeySuffix]) = none)
    (hng : fs.get (ts ++ [name ++ metaExt str!"group" h.entry.metadataKeySuffix]) = none) :
    let doc := ts ++ [name ++ metaExt str!"group" h.entry.metadataKeySuffix]
    ¬ segs h.base <+: doc ∧ (createGroup env h path fs).1 = .ok () ∧
      ∀ l, (createGroup env h path fs).2.get l =
        if l = doc then some (.file (env.json.print GroupMetadata.default.toJson)) else fs.get l := by
  intro doc
  have hroot2 := rooted_of_wf hwf hm
  have hroot : Rooted (segs h.base) fs := fun l hl => hroot2 l (hl.trans (List.prefix_append _ _))
  have hrts := rooted_of_wf hwf hts
  have hname : name ≠ dotdot := fun e => ht (by rw [e]; simp)
  have hpts : Plain ts := fun e => ht (List.mem_append_left _ e)
  rw [← List.append_assoc] at hp
  have key : ∀ kind : Str, kind ≠ [] → '.' ∉ kind → '/' ∉ kind →
      let k := addExtension (addExtension (joinPath metaRoot (canonicalizePath path)) kind) (stripDot h.entry.metadataKeySuffix)
      ¬ Refused (segs k) ∧ segs k ≠ [] ∧ fs.pathExists (segs h.base ++ segs k).dropLast = true ∧
        fs.locate (segs h.base ++ segs k) = .ok (ts ++ [name ++ metaExt kind h.entry.metadataKeySuffix]) := by
    intro kind hk hk1 hk2 k
    have hsegs : segs k = _ := segs_metaKey_last hs hp hname hk hk1 hk2
    have hx : name ++ metaExt kind h.entry.metadataKeySuffix ≠ dotdot := by
      intro e
      have hl := congrArg List.length e
      have : kind.length ≠ 0 := by simpa using hk
      simp [metaExt, dotdot] at hl
      omega
    generalize name ++ metaExt kind h.entry.metadataKeySuffix = x at hsegs hx
    have hup : dest (segs h.base) (str!"meta" :: str!"root" :: List.replicate ((segs h.base).length + 2) dotdot) = [] := by
      have h1 : stepTo (stepTo (segs h.base) str!"meta") str!"root" = segs h.base ++ [str!"meta", str!"root"] := by
        simp [stepTo, dotdot]
      rw [dest, dest, h1]
      have := dest_climb (segs h.base ++ [str!"meta", str!"root"])
      simpa using this
    have hpu : ∀ l ∈ passed (segs h.base) (str!"meta" :: str!"root" :: List.replicate ((segs h.base).length + 2) dotdot),
        fs.get l = some .dir := by
      intro l hl
      have h1 : stepTo (stepTo (segs h.base) str!"meta") str!"root" = segs h.base ++ [str!"meta", str!"root"] := by
        simp [stepTo, dotdot]
      have h2 : stepTo (segs h.base) str!"meta" = segs h.base ++ [str!"meta"] := by simp [stepTo, dotdot]
      rw [passed, passed, h1, h2] at hl
      rcases List.mem_cons.mp hl with hl | hl
      · exact hl ▸ hroot _ (List.prefix_refl _)
      · rcases List.mem_cons.mp hl with hl | hl
        · exact hl ▸ hroot2 _ ⟨[str!"root"], by simp⟩
        · exact hroot2 _ (passed_climb _ _ hl)
    have hinit : ∀ l ∈ passed (segs h.base) (str!"meta" :: str!"root" ::
        (List.replicate ((segs h.base).length + 2) dotdot ++ ts)), fs.get l = some .dir := by
      intro l hl
      rw [← List.cons_append, ← List.cons_append, passed_append, hup] at hl
      rcases List.mem_append.mp hl with hl | hl
      · exact hpu l hl
      · exact hrts l (by simpa using passed_plain hpts [] hl)
    have hdi : dest (segs h.base) (str!"meta" :: str!"root" ::
        (List.replicate ((segs h.base).length + 2) dotdot ++ ts)) = ts := by
      rw [← List.cons_append, ← List.cons_append, dest_append, hup, dest_plain hpts]; rfl
    refine ⟨?_, by rw [hsegs]; simp, ?_, ?_⟩
    · have hfp : ts.filter (· ≠ dotdot) = ts := List.filter_eq_self.mpr fun a ha => by
        simp only [decide_eq_true_eq]; rintro rfl; exact hpts ha
      have hfd : ts.filter (· = dotdot) = [] := List.filter_eq_nil_iff.mpr fun a ha => by
        simp only [decide_eq_true_eq]; rintro rfl; exact hpts ha
      unfold Refused
      rw [hsegs]
      simp only [List.cons_append, List.append_assoc, List.filter_cons, List.filter_append, hfp, hfd, List.filter_replicate,
        List.filter_nil]
      simp [dotdot]
      simp [dotdot] at hx
      simp [hx]
      omega
    · rw [hsegs, List.dropLast_append_of_ne_nil (by simp), List.dropLast_concat]
      have := locate_dirs hb hroot hinit
      simp [Fs.pathExists, Fs.node, this, hdi, hts]
    · rw [hsegs]
      rw [locate_dirs hb hroot]
      · rw [dest_append]
        rw [hdi]
        simp [dest, stepTo, hx]
      · intro l hl
        rw [passed_append] at hl
        rcases List.mem_append.mp hl with hl | hl
        · exact hinit l hl
        · rw [hdi] at hl
          simp only [passed, List.mem_cons, List.not_mem_nil, or_false] at hl
          rw [hl, hts]
  obtain ⟨a1, a2, a3, a4⟩ := key str!"array" (by simp) (by decide) (by decide)
  obtain ⟨g1, g2, g3, g4⟩ := key str!"group" (by simp) (by decide) (by decide)
  have ea : storeExists h (arrayMetadataKey h.entry path) fs = (.ok false, fs) := by
    refine Prod.ext (storeGet_noFile a1 ?_).2 rfl
    simp only [Fs.isFile, Fs.node]
    rw [a4]
    simp [hna]
  have eg : storeExists h (groupMetadataKey h.entry path) fs = (.ok false, fs) := by
    refine Prod.ext (storeGet_noFile g1 ?_).2 rfl
    simp only [Fs.isFile, Fs.node]
    rw [g4]
    simp [hng]
  have es : createGroup env h path fs =
      (.ok (), (fs.put doc (.file [])).put doc (.file (env.json.print GroupMetadata.default.toJson))) := by
    unfold createGroup
    simp only [M.bind_apply, ea, Bool.false_eq_true, if_false, eg]
    refine (storeSet_there g1 _ (.inr g3)).trans ?_
    simp only [Fs.openCreate]
    rw [g4]
    simp [hng, doc]
  refine ⟨?_, by rw [es], ?_⟩
  · intro hpre
    rcases List.prefix_concat_iff.mp hpre with h1 | h1
    · rw [← h1, hroot _ (List.prefix_refl _)] at hng; simp at hng
    · exact hout h1
  · intro l
    rw [es]
    simp only [Fs.get_put]
    split <;> rfl

-- a hierarchy at `/h`, and a group `/t/g` beside it
example : (createGroup Demo.envJ Demo.hier str!"../../../t/g"
      (dirsFs [[str!"h", str!"meta", str!"root"], [str!"t"]])).1 = .ok () :=
  (C41_violated_always Demo.envJ Demo.hier (by decide) (by unfold GoodSuffix; decide) str!"../../../t/g" [str!"t"] str!"g"
    (by decide) (by decide) (by decide) (by decide) _ (dirsFs_spec _).1 (by decide) (by decide) (by decide)
    (by decide)).2.1

end Zarr
