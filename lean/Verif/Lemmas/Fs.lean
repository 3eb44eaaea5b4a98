import Verif.Model.Fs
import Verif.Lemmas.Path
/-! Lemmas on the filesystem: lookups after updates, resolution of plain paths, directory creation. -/

namespace Zarr
namespace Fs

/-! ## Lookups -/

theorem lookup_insert (es : List (Loc × Node)) (l l' : Loc) (n : Node) :
    lookup (insert es l n) l' = if l' = l then some n else lookup es l' := by
  induction es with
  | nil =>
    simp only [insert, lookup]
    by_cases h : l = l'
    · simp [h]
    · simp [h, Ne.symm h]
  | cons e es ih =>
    obtain ⟨k, m⟩ := e
    simp only [insert]
    by_cases hk : k = l
    · rw [if_pos hk]; subst hk
      simp only [lookup]
      by_cases h : k = l'
      · simp [h]
      · simp [h, Ne.symm h]
    · rw [if_neg hk]
      simp only [lookup, ih]
      by_cases h : k = l'
      · subst h; simp [hk]
      · simp [h]

theorem get_put (fs : Fs) (l l' : Loc) (n : Node) :
    (fs.put l n).get l' = if l' = l then some n else fs.get l' := lookup_insert _ _ _ _

theorem lookup_filter (es : List (Loc × Node)) (p : Loc → Bool) (l : Loc) :
    lookup (es.filter fun e => p e.1) l = if p l then lookup es l else none := by
  induction es with
  | nil => simp [lookup]
  | cons e es ih =>
    obtain ⟨k, m⟩ := e
    simp only [List.filter_cons, lookup]
    by_cases hp : p k
    · simp only [hp, if_true, lookup, ih]
      by_cases h : k = l
      · subst h; simp [hp]
      · simp [h]
    · simp only [hp, Bool.false_eq_true, if_false, ih]
      by_cases h : k = l
      · subst h; simp [hp]
      · simp [h]

theorem get_del (fs : Fs) (l l' : Loc) : (fs.del l).get l' = if l' = l then none else fs.get l' := by
  have := lookup_filter fs.ents (fun x => decide (x ≠ l)) l'
  simp only [get, del]
  rw [this]
  by_cases h : l' = l <;> simp [h]

theorem get_delTree (fs : Fs) (l l' : Loc) :
    (fs.delTree l).get l' = if l <+: l' then none else fs.get l' := by
  have := lookup_filter fs.ents (fun x => !l.isPrefixOf x) l'
  simp only [get, delTree]
  rw [this]
  by_cases h : l <+: l'
  · have h2 : l.isPrefixOf l' = true := List.isPrefixOf_iff_prefix.mpr h
    simp [h, h2]
  · have : l.isPrefixOf l' = false := by
      rw [Bool.eq_false_iff]; intro hh; exact h (List.isPrefixOf_iff_prefix.mp hh)
    simp [h, this]

theorem mem_of_lookup {es : List (Loc × Node)} {l : Loc} {n : Node} (h : lookup es l = some n) :
    (l, n) ∈ es := by
  induction es with
  | nil => simp [lookup] at h
  | cons e es ih =>
    obtain ⟨k, m⟩ := e
    simp only [lookup] at h
    split at h
    · rename_i hk; simp at h; subst hk; subst h; simp
    · exact List.mem_cons_of_mem _ (ih h)

theorem lookup_of_mem {es : List (Loc × Node)} (hn : (es.map Prod.fst).Nodup) {l : Loc} {n : Node}
    (h : (l, n) ∈ es) : lookup es l = some n := by
  induction es with
  | nil => simp at h
  | cons e es ih =>
    obtain ⟨k, m⟩ := e
    simp only [List.map_cons, List.nodup_cons] at hn
    simp only [lookup]
    rcases List.mem_cons.mp h with h | h
    · simp at h; simp [h.1, h.2]
    · have : k ≠ l := by
        intro hk; subst hk
        exact hn.1 (List.mem_map.mpr ⟨(k, n), h, rfl⟩)
      simp [this, ih hn.2 h]

theorem WF.mem_iff {fs : Fs} (h : fs.WF) {l : Loc} {n : Node} : (l, n) ∈ fs.ents ↔ fs.get l = some n :=
  ⟨lookup_of_mem h.nodup, mem_of_lookup⟩

theorem map_fst_insert (es : List (Loc × Node)) (l : Loc) (n : Node) :
    (insert es l n).map Prod.fst
      = if l ∈ es.map Prod.fst then es.map Prod.fst else es.map Prod.fst ++ [l] := by
  induction es with
  | nil => simp [insert]
  | cons e es ih =>
    obtain ⟨k, m⟩ := e
    simp only [insert]
    by_cases hk : k = l
    · simp [hk]
    · rw [if_neg hk]
      simp only [List.map_cons, ih, List.mem_cons, Ne.symm hk, false_or]
      split <;> simp

theorem nodup_insert {es : List (Loc × Node)} (h : (es.map Prod.fst).Nodup) (l : Loc) (n : Node) :
    ((insert es l n).map Prod.fst).Nodup := by
  rw [map_fst_insert]
  split
  · exact h
  · rename_i hl
    rw [List.nodup_append]
    refine ⟨h, by simp, ?_⟩
    intro a ha b hb
    simp at hb; subst hb
    intro hab; subst hab; exact hl ha

theorem nodup_filter {es : List (Loc × Node)} (h : (es.map Prod.fst).Nodup)
    (p : Loc × Node → Bool) : ((es.filter p).map Prod.fst).Nodup :=
  h.sublist (List.filter_sublist.map _)

/-! ## Well-formed trees -/

theorem WF.dir_of_append {fs : Fs} (h : fs.WF) {l : Loc} (t : Loc) (ht : t ≠ []) {n : Node}
    (hn : fs.get (l ++ t) = some n) : fs.get l = some .dir := by
  induction hlen : t.length generalizing t n with
  | zero => simp at hlen; exact absurd hlen ht
  | succ k ih =>
    have e := List.dropLast_concat_getLast ht
    rw [← e, ← List.append_assoc] at hn
    have hp := h.parent _ _ _ hn
    by_cases hd : t.dropLast = []
    · rw [hd] at hp; simpa using hp
    · exact ih _ hd hp (by simp [hlen])

theorem WF.dir_of_prefix {fs : Fs} (h : fs.WF) {l l' : Loc} (hp : l <+: l') (hne : l ≠ l') {n : Node}
    (hn : fs.get l' = some n) : fs.get l = some .dir := by
  obtain ⟨t, rfl⟩ := hp
  exact h.dir_of_append t (by intro h; subst h; simp at hne) hn

theorem WF.none_below {fs : Fs} (h : fs.WF) {l l' : Loc} (hp : l <+: l') (hl : fs.get l = none) :
    fs.get l' = none := by
  cases h' : fs.get l' with
  | none => rfl
  | some n =>
    by_cases e : l = l'
    · subst e; rw [hl] at h'; simp at h'
    · rw [h.dir_of_prefix hp e h'] at hl; simp at hl

theorem WF.none_below_file {fs : Fs} (h : fs.WF) {l l' : Loc} {b : Bytes} (hp : l <+: l')
    (hne : l ≠ l') (hl : fs.get l = some (.file b)) : fs.get l' = none := by
  cases h' : fs.get l' with
  | none => rfl
  | some n => rw [h.dir_of_prefix hp hne h'] at hl; simp at hl

theorem WF.put_dir {fs : Fs} (h : fs.WF) {l : Loc} {s : Str} (hp : fs.get l = some .dir) :
    (fs.put (l ++ [s]) .dir).WF where
  nodup := nodup_insert h.nodup _ _
  root := by rw [get_put]; simp [h.root]
  parent := by
    intro l' s' n hn'
    rw [get_put] at hn' ⊢
    split
    · rfl
    · split at hn'
      · rename_i heq
        have := List.append_inj' heq rfl
        rw [this.1]; exact hp
      · exact h.parent _ _ _ hn'

theorem WF.put_file {fs : Fs} (h : fs.WF) {l : Loc} {s : Str} {b : Bytes}
    (hp : fs.get l = some .dir) (hn : fs.get (l ++ [s]) ≠ some .dir) :
    (fs.put (l ++ [s]) (.file b)).WF where
  nodup := nodup_insert h.nodup _ _
  root := by rw [get_put]; simp [h.root]
  parent := by
    intro l' s' n hn'
    rw [get_put] at hn' ⊢
    split at hn'
    · rename_i heq
      have := List.append_inj' heq rfl
      rw [this.1, if_neg (by simp)]; exact hp
    · have hd := h.parent _ _ _ hn'
      split
      · rename_i heq; subst heq; exact absurd hd hn
      · exact hd

theorem WF.del_file {fs : Fs} (h : fs.WF) {l : Loc} {b : Bytes} (hl : fs.get l = some (.file b)) :
    (fs.del l).WF where
  nodup := nodup_filter h.nodup _
  root := by
    rw [get_del]; split
    · rename_i heq; subst heq; rw [h.root] at hl; simp at hl
    · exact h.root
  parent := by
    intro l' s' n hn'
    rw [get_del] at hn' ⊢
    split at hn'
    · simp at hn'
    · have hd := h.parent _ _ _ hn'
      split
      · rename_i heq; subst heq; rw [hd] at hl; simp at hl
      · exact hd

theorem WF.delTree {fs : Fs} (h : fs.WF) {l : Loc} (hl : l ≠ []) : (fs.delTree l).WF where
  nodup := nodup_filter h.nodup _
  root := by rw [get_delTree]; rw [if_neg (by simpa using hl)]; exact h.root
  parent := by
    intro l' s' n hn'
    rw [get_delTree] at hn' ⊢
    split at hn'
    · simp at hn'
    · rename_i hp
      have hd := h.parent _ _ _ hn'
      rw [if_neg (fun hp' => hp (hp'.trans (List.prefix_append _ _)))]
      exact hd

/-! ## Resolution of plain paths -/

theorem walk_plain_ok {fs : Fs} (p : List Str) (hp : Plain p) (cur l : Loc)
    (h : fs.walk cur p = .ok l) : l = cur ++ p := by
  induction p generalizing cur with
  | nil => simp [walk] at h; simp [h]
  | cons s ss ih =>
    simp only [walk] at h
    have hs : s ≠ dotdot := fun e => hp (by rw [e]; simp)
    have hss : Plain ss := fun hm => hp (List.mem_cons_of_mem _ hm)
    split at h
    · rw [if_neg hs] at h
      rw [ih hss _ h]; simp
    · simp at h
    · simp at h

/-- Resolution of a plain path in a tree succeeds exactly if its parent is a directory. -/
theorem walk_plain {fs : Fs} (hwf : fs.WF) (p : List Str) (s : Str) (hp : Plain (p ++ [s]))
    (cur : Loc) : fs.walk cur (p ++ [s]) = match fs.get (cur ++ p) with
      | some .dir => .ok (cur ++ p ++ [s])
      | _ => fs.walk cur (p ++ [s]) := by
  induction p generalizing cur with
  | nil =>
    simp only [List.nil_append, List.append_nil]
    have hs : s ≠ dotdot := fun e => hp (by rw [e]; simp)
    split
    · rename_i h; simp [walk, h, hs]
    · rfl
  | cons a as ih =>
    have ha : a ≠ dotdot := fun e => hp (by rw [e]; simp)
    have has : Plain (as ++ [s]) := fun hm => hp (List.mem_cons_of_mem _ hm)
    split
    · rename_i h
      have hcur : fs.get cur = some .dir := hwf.dir_of_append (a :: as) (by simp) h
      simp only [List.cons_append, walk, hcur, if_neg ha]
      rw [ih has]
      have : cur ++ [a] ++ as = cur ++ a :: as := by simp
      rw [this, h]
    · rfl

theorem locate_plain_dir {fs : Fs} (hwf : fs.WF) {p : List Str} {s : Str} (hp : Plain (p ++ [s]))
    (h : fs.get p = some .dir) : fs.locate (p ++ [s]) = .ok (p ++ [s]) := by
  have := walk_plain hwf p s hp []
  unfold locate
  rw [this]; simp [h]

theorem locate_plain_ok {fs : Fs} {p : List Str} (hp : Plain p) {l : Loc}
    (h : fs.locate p = .ok l) : l = p := by
  simpa using walk_plain_ok p hp [] l h

theorem walk_ne_panic (fs : Fs) (p : List Str) (cur : Loc) : fs.walk cur p ≠ .panic := by
  induction p generalizing cur with
  | nil => simp [walk]
  | cons s ss ih =>
    simp only [walk]
    split
    · exact ih _
    · simp
    · simp

theorem locate_ne_panic (fs : Fs) (p : List Str) : fs.locate p ≠ .panic := walk_ne_panic fs p []

/-- A plain path names what the tree holds at its components. -/
theorem node_plain {fs : Fs} (hwf : fs.WF) {p : List Str} (hp : Plain p) : fs.node p = fs.get p := by
  unfold node
  cases h : fs.locate p with
  | ok l => rw [locate_plain_ok hp h]
  | panic => exact absurd h (locate_ne_panic fs p)
  | err e =>
    cases hg : fs.get p with
    | none => rfl
    | some n =>
      by_cases hnil : p = []
      · subst hnil; simp [locate, walk] at h
      · have e1 := List.dropLast_concat_getLast hnil
        rw [← e1] at hg hp h
        have hd := hwf.parent _ _ _ hg
        rw [locate_plain_dir hwf hp hd] at h
        simp at h

theorem isFile_iff {fs : Fs} (hwf : fs.WF) {p : List Str} (hp : Plain p) :
    fs.isFile p = true ↔ ∃ b, fs.get p = some (.file b) := by
  unfold isFile
  rw [node_plain hwf hp]
  split
  · rename_i b h; simp [h]
  · rename_i h
    constructor
    · simp
    · intro ⟨b, hb⟩; exact absurd hb (h b)

theorem isDir_iff {fs : Fs} (hwf : fs.WF) {p : List Str} (hp : Plain p) :
    fs.isDir p = true ↔ fs.get p = some .dir := by
  unfold isDir
  rw [node_plain hwf hp]; simp

theorem locate_of_get {fs : Fs} (hwf : fs.WF) {p : List Str} (hp : Plain p) {n : Node}
    (h : fs.get p = some n) : fs.locate p = .ok p := by
  by_cases hnil : p = []
  · subst hnil; rfl
  · have e1 := List.dropLast_concat_getLast hnil
    rw [← e1] at h hp ⊢
    exact locate_plain_dir hwf hp (hwf.parent _ _ _ h)

theorem readFile_of_get {fs : Fs} (hwf : fs.WF) {p : List Str} (hp : Plain p) {b : Bytes}
    (h : fs.get p = some (.file b)) : fs.readFile p = .ok b := by
  unfold readFile
  rw [locate_of_get hwf hp h]
  simp [h]

/-! ## Directory creation -/

/-- No location on the way to `p` (including `p`) is a file. -/
def dirable (fs : Fs) (p : Loc) : Prop := ∀ l, l <+: p → ∀ b, fs.get l ≠ some (.file b)

theorem dirable.prefix {fs : Fs} {p l : Loc} (h : fs.dirable p) (hl : l <+: p) : fs.dirable l :=
  fun l' hl' => h l' (hl'.trans hl)

theorem dirable_of_dir {fs : Fs} (hwf : fs.WF) {p : Loc} (h : fs.get p = some .dir) :
    fs.dirable p := by
  intro l hl b hb
  by_cases e : l = p
  · subst e; rw [h] at hb; simp at hb
  · rw [hwf.dir_of_prefix hl e h] at hb; simp at hb

/-- The filesystem after the missing directories down to `p` have been created. -/
def mkdirSpec (fs : Fs) (p l : Loc) : Option Node :=
  if l <+: p ∧ fs.get l = none then some .dir else fs.get l

/-- The error of resolving a path whose parent is not a directory. -/
theorem walk_err {fs : Fs} (hwf : fs.WF) (p : List Str) (s : Str) (hp : Plain (p ++ [s]))
    (cur : Loc) (hcur : fs.get cur = some .dir ∨ p ≠ [])
    (h : fs.get (cur ++ p) ≠ some .dir) :
    (fs.walk cur (p ++ [s]) = .err .notFound ∧ (∀ l, l <+: p → ∀ b, fs.get (cur ++ l) ≠ some (.file b)))
    ∨ (fs.walk cur (p ++ [s]) = .err .notADirectory ∧
        ∃ l, l <+: p ∧ ∃ b, fs.get (cur ++ l) = some (.file b)) := by
  induction p generalizing cur with
  | nil =>
    rcases hcur with hcur | hcur
    · simp at h; exact absurd hcur h
    · exact absurd rfl hcur
  | cons a as ih =>
    have ha : a ≠ dotdot := fun e => hp (by rw [e]; simp)
    have has : Plain (as ++ [s]) := fun hm => hp (List.mem_cons_of_mem _ hm)
    simp only [List.cons_append, walk, if_neg ha]
    cases hc : fs.get cur with
    | none =>
      left
      refine ⟨rfl, fun l _ b hb => ?_⟩
      rw [hwf.none_below (List.prefix_append cur l) hc] at hb
      simp at hb
    | some n =>
      cases n with
      | file b =>
        right
        exact ⟨rfl, [], List.nil_prefix, b, by simpa using hc⟩
      | dir =>
        simp only
        have h' : fs.get (cur ++ [a] ++ as) ≠ some .dir := by simpa using h
        cases as with
        | nil =>
          simp only [List.nil_append, walk]
          have hs : s ≠ dotdot := fun e => hp (by rw [e]; simp)
          simp at h'
          cases hca : fs.get (cur ++ [a]) with
          | none =>
            left
            refine ⟨rfl, fun l hl b hb => ?_⟩
            rcases List.prefix_cons_iff.mp hl with rfl | ⟨t, rfl, ht⟩
            · simp [hc] at hb
            · simp at ht; subst ht; rw [hca] at hb; simp at hb
          | some n =>
            cases n with
            | dir => exact absurd hca h'
            | file b => right; exact ⟨rfl, [a], List.prefix_refl _, b, hca⟩
        | cons a' as' =>
          have := ih has (cur ++ [a]) (Or.inr (by simp)) h'
          rcases this with ⟨e1, e2⟩ | ⟨e1, l, hl, b, hb⟩
          · left
            refine ⟨e1, fun l hl b hb => ?_⟩
            rcases List.prefix_cons_iff.mp hl with rfl | ⟨t, rfl, ht⟩
            · simp [hc] at hb
            · exact e2 t ht b (by simpa using hb)
          · right
            exact ⟨e1, a :: l, List.cons_prefix_cons.mpr ⟨rfl, hl⟩, b, by simpa using hb⟩

theorem locate_err {fs : Fs} (hwf : fs.WF) {p : List Str} {s : Str} (hp : Plain (p ++ [s]))
    (h : fs.get p ≠ some .dir) :
    (fs.locate (p ++ [s]) = .err .notFound ∧ fs.dirable p)
    ∨ (fs.locate (p ++ [s]) = .err .notADirectory ∧ ¬ fs.dirable p) := by
  have := walk_err hwf p s hp [] (Or.inl hwf.root) (by simpa using h)
  rcases this with ⟨e1, e2⟩ | ⟨e1, l, hl, b, hb⟩
  · exact Or.inl ⟨e1, fun l hl b => by simpa using e2 l hl b⟩
  · exact Or.inr ⟨e1, fun hd => hd l hl b (by simpa using hb)⟩

theorem mkdir_plain {fs : Fs} (hwf : fs.WF) {p : List Str} {s : Str} (hp : Plain (p ++ [s])) :
    fs.mkdir (p ++ [s]) =
      match fs.get p with
      | some .dir => (match fs.get (p ++ [s]) with
        | some _ => .err .alreadyExists
        | none => .ok (fs.put (p ++ [s]) .dir))
      | _ => (match fs.locate (p ++ [s]) with
        | .err e => .err e
        | _ => .panic) := by
  unfold mkdir
  split
  · rename_i l h
    have := locate_plain_ok hp h
    subst this
    cases hg : fs.get p with
    | some n =>
      cases n with
      | dir => cases fs.get (p ++ [s]) <;> rfl
      | file b =>
        rcases locate_err hwf hp (by rw [hg]; simp) with ⟨e1, _⟩ | ⟨e1, _⟩ <;> rw [h] at e1 <;> simp at e1
    | none =>
      rcases locate_err hwf hp (by rw [hg]; simp) with ⟨e1, _⟩ | ⟨e1, _⟩ <;> rw [h] at e1 <;> simp at e1
  · rename_i e h
    cases hg : fs.get p with
    | none => simp [h]
    | some n =>
      cases n with
      | file b => simp [h]
      | dir => rw [locate_plain_dir hwf hp hg] at h; simp at h
  · rename_i h; exact absurd h (locate_ne_panic _ _)

theorem mkdirAll_concat (p : List Str) (s : Str) (fs : Fs) :
    mkdirAll (p ++ [s]) fs = match fs.mkdir (p ++ [s]) with
    | .ok fs' => (.ok (), fs')
    | .panic => (.panic, fs)
    | .err e =>
      if e = .notFound then
        match mkdirAll p fs with
        | (.ok (), fs1) =>
          match fs1.mkdir (p ++ [s]) with
          | .ok fs2 => (.ok (), fs2)
          | .panic => (.panic, fs1)
          | .err e' => if fs1.isDir (p ++ [s]) then (.ok (), fs1) else (.err e', fs1)
        | r => r
      else if fs.isDir (p ++ [s]) then (.ok (), fs)
      else (.err e, fs) := by
  unfold mkdirAll
  rw [show (p ++ [s]).reverse = s :: p.reverse by simp, mkdirAllRev]
  rw [show (s :: p.reverse).reverse = p ++ [s] by simp]
  rfl

theorem list_concat_induction {α : Type} {P : List α → Prop} (h0 : P [])
    (h1 : ∀ l a, P l → P (l ++ [a])) : ∀ l, P l := by
  intro l
  have : ∀ r : List α, P r.reverse := by
    intro r
    induction r with
    | nil => exact h0
    | cons a r ih => rw [List.reverse_cons]; exact h1 _ _ ih
  simpa using this l.reverse

theorem prefix_concat {l p : Loc} {s : Str} : l <+: p ++ [s] ↔ l <+: p ∨ l = p ++ [s] := by
  constructor
  · intro h
    obtain ⟨t, ht⟩ := h
    by_cases hn : t = []
    · right; subst hn; simpa using ht
    · left
      have e := List.dropLast_concat_getLast hn
      rw [← e, ← List.append_assoc] at ht
      have := List.append_inj' ht rfl
      exact ⟨_, this.1⟩
  · rintro (h | rfl)
    · exact h.trans (List.prefix_append _ _)
    · exact List.prefix_refl _

/-- `create_dir_all` on a plain path: all missing directories are created, or a file is in the way
and nothing changes. -/
theorem mkdirAll_spec {fs : Fs} (hwf : fs.WF) (p : List Str) (hp : Plain p) :
    (fs.dirable p → ∃ fs', mkdirAll p fs = (.ok (), fs') ∧ fs'.WF ∧
      ∀ l, fs'.get l = mkdirSpec fs p l) ∧
    (¬ fs.dirable p → ∃ e, mkdirAll p fs = (.err e, fs)) := by
  induction p using list_concat_induction with
  | h0 =>
    constructor
    · intro _
      refine ⟨fs, ?_, hwf, ?_⟩
      · have : fs.isDir [] = true := (isDir_iff hwf hp).mpr hwf.root
        simp [mkdirAll, mkdirAllRev, this]
      · intro l
        unfold mkdirSpec
        rw [if_neg]
        rintro ⟨h, h2⟩
        simp at h; subst h; rw [hwf.root] at h2; simp at h2
    · intro h
      exact absurd (dirable_of_dir hwf hwf.root) h
  | h1 p s ih =>
    have hpp : Plain p := fun hm => hp (List.mem_append_left _ hm)
    obtain ⟨ih1, ih2⟩ := ih hpp
    rw [mkdirAll_concat]
    by_cases hd : fs.get p = some .dir
    · rw [mkdir_plain hwf hp, hd]
      cases hg : fs.get (p ++ [s]) with
      | none =>
        constructor
        · intro _
          refine ⟨_, rfl, hwf.put_dir hd, ?_⟩
          intro l
          rw [get_put]; unfold mkdirSpec
          by_cases e : l = p ++ [s]
          · subst e; simp [hg]
          · rw [if_neg e, if_neg]
            rintro ⟨h, h2⟩
            rcases prefix_concat.mp h with h | h
            · by_cases e' : l = p
              · subst e'; rw [hd] at h2; simp at h2
              · rw [hwf.dir_of_prefix h e' hd] at h2; simp at h2
            · exact e h
        · intro hn
          exfalso; apply hn
          intro l hl b hb
          rcases prefix_concat.mp hl with h | h
          · exact dirable_of_dir hwf hd l h b hb
          · subst h; rw [hg] at hb; simp at hb
      | some n =>
        cases n with
        | dir =>
          have hdir : fs.isDir (p ++ [s]) = true := (isDir_iff hwf hp).mpr hg
          constructor
          · intro _
            refine ⟨fs, by simp [hdir], hwf, ?_⟩
            intro l; unfold mkdirSpec
            rw [if_neg]
            rintro ⟨h, h2⟩
            by_cases e' : l = p ++ [s]
            · subst e'; rw [hg] at h2; simp at h2
            · rw [hwf.dir_of_prefix h e' hg] at h2; simp at h2
          · intro hn; exact absurd (dirable_of_dir hwf hg) hn
        | file b =>
          constructor
          · intro hh; exact absurd hg (hh _ (List.prefix_refl _) b)
          · intro _
            have hdir : fs.isDir (p ++ [s]) = false := by
              rw [Bool.eq_false_iff]; intro h; rw [isDir_iff hwf hp, hg] at h; simp at h
            exact ⟨.alreadyExists, by simp [hdir]⟩
    · have hmk : fs.mkdir (p ++ [s]) = (match fs.locate (p ++ [s]) with
        | .err e => .err e
        | _ => .panic) := by
        rw [mkdir_plain hwf hp]
        split
        · rename_i h; exact absurd h hd
        · rfl
      rcases locate_err hwf hp hd with ⟨e1, e2⟩ | ⟨e1, e2⟩
      · rw [hmk, e1]
        obtain ⟨fs1, h1, hwf1, hget1⟩ := ih1 e2
        have hp1 : fs1.get p = some .dir := by
          rw [hget1]; unfold mkdirSpec
          cases hg : fs.get p with
          | none => simp
          | some n =>
            cases n with
            | dir => exact absurd hg hd
            | file b => exact absurd hg (e2 p (List.prefix_refl _) b)
        have hgn : fs.get (p ++ [s]) = none := by
          cases hg : fs.get (p ++ [s]) with
          | none => rfl
          | some n => exact absurd (hwf.parent _ _ _ hg) hd
        have hg1 : fs1.get (p ++ [s]) = none := by
          rw [hget1]; unfold mkdirSpec
          rw [if_neg]
          · exact hgn
          · rintro ⟨h, _⟩
            have := h.length_le; simp at this
            omega
        have hmk1 : fs1.mkdir (p ++ [s]) = .ok (fs1.put (p ++ [s]) .dir) := by
          rw [mkdir_plain hwf1 hp, hp1, hg1]
        constructor
        · intro _
          refine ⟨fs1.put (p ++ [s]) .dir, by simp [h1, hmk1], hwf1.put_dir hp1, ?_⟩
          intro l
          rw [get_put, hget1]
          unfold mkdirSpec
          by_cases e : l = p ++ [s]
          · subst e; simp [hgn]
          · have : (l <+: p ++ [s] ∧ fs.get l = none) ↔ (l <+: p ∧ fs.get l = none) := by
              rw [prefix_concat]; simp [e]
            simp only [if_neg e, this]
        · intro hn
          exfalso; apply hn
          intro l hl b hb
          rcases prefix_concat.mp hl with h | h
          · exact e2 l h b hb
          · subst h; rw [hgn] at hb; simp at hb
      · rw [hmk, e1]
        constructor
        · intro hh; exact absurd (hh.prefix (List.prefix_append _ _)) e2
        · intro _
          have hdir : fs.isDir (p ++ [s]) = false := by
            rw [Bool.eq_false_iff]; intro h; rw [isDir_iff hwf hp] at h
            exact hd (hwf.parent _ _ _ h)
          exact ⟨.notADirectory, by simp [hdir]⟩

/-! ## Children -/

theorem mem_children {fs : Fs} (hwf : fs.WF) {l : Loc} {s : Str} {n : Node} :
    (s, n) ∈ fs.children l ↔ fs.get (l ++ [s]) = some n := by
  rw [← hwf.mem_iff]
  unfold children
  rw [List.mem_filterMap]
  constructor
  · rintro ⟨⟨k, m⟩, hm, h⟩
    simp only at h
    split at h
    · simp at h
    · rename_i a r hr
      split at h
      · rename_i hl
        simp at h
        have : k = r.reverse ++ [a] := by
          have := congrArg List.reverse hr; simpa using this
        rw [this, hl, h.1, h.2] at hm
        exact hm
      · simp at h
  · intro h
    exact ⟨(l ++ [s], n), h, by simp⟩

end Fs
end Zarr
