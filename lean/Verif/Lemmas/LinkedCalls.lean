import Verif.Lemmas.Links
import Verif.Props.Moved
/-! Calls on a filesystem with symbolic links. The specification of C99 is at the beginning. -/

namespace Zarr.Links

open LFs _root_.Zarr.Spec

/-! ## The specification -/

/-- The filesystem is a tree with links at some leaves. -/
structure Spec.Tree (s : LFs) : Prop where
  wf : s.fs.WF
  once : (s.links.map Prod.fst).Nodup
  root : s.linkAt [] = none
  apart : ∀ l, s.linkAt l ≠ none → s.fs.get l = none
  parent : ∀ l x, s.linkAt (l ++ [x]) ≠ none → s.fs.get l = some .dir
  names : ∀ l, s.fs.get l ≠ none ∨ s.linkAt l ≠ none → Plain l

/-- Directory `b` of a filesystem with links shows what directory `b` of one without links holds, and none of the
links in it is broken. -/
structure Spec.Shows (b : Loc) (s : LFs) (fs : Fs) : Prop where
  tree : Tree s
  wf : fs.WF
  names : ∀ q, fs.get (b ++ q) ≠ none → Plain q
  base : fs.get b = some .dir
  same : ∀ q, Plain q → s.stat (b ++ q) = fs.get (b ++ q)
  whole : ∀ q, Plain q → ∀ l n x, s.locate (b ++ q) = .ok (l, n) → s.fs.get l = some .dir →
    s.linkAt (l ++ [x]) ≠ none → s.stat (b ++ q ++ [x]) ≠ none

/-- No two paths below `b` lead to the same file or directory. -/
def Spec.Single (b : Loc) (s : LFs) : Prop := ∀ q q', Plain q → Plain q' → ∀ l n n', s.locate (b ++ q) = .ok (l, n) →
  s.locate (b ++ q') = .ok (l, n') → s.fs.get l ≠ none → q = q'

/-- The path is that of a link that leads to a directory. -/
def Spec.LinkToDir (s : LFs) (p : List Str) : Prop :=
  (∃ l n, s.locateEntry p = .ok (l, n) ∧ s.linkAt l ≠ none) ∧ s.stat p = some .dir

/-- The call only reads. -/
def Spec.Reading : WCall → Bool
  | .listNodes _ => true
  | .call (.readBox ..) => true
  | .call (.writeBox ..) => false
  | .call (.call c) =>
    match c with
    | .nodeExists _ | .arrayExists _ | .getArrayMetadata _ | .listAttributes _ | .readChunk .. => true
    | _ => false

/-- Calls made one after the other on a filesystem with links: what they return, and what they leave. -/
def Spec.results (prune : Str → LFs → Outcome Bool × LFs) (env : Env) (h : Hier) (md : List Str → ArrayMetadata) :
    List WCall → LFs → List (Outcome WResult) × LFs
  | [], s => ([], s)
  | c :: cs, s =>
    let r := run prune h (Wide.callProg env h md c) s
    let rs := results prune env h md cs r.2
    (r.1 :: rs.1, rs.2)

open _root_.Zarr.Links.Spec

variable {b : Loc} {s s' : LFs} {fs fs' : Fs}

/-! ## Resolution step by step -/

theorem fs_walk_append (fs : Fs) (p q : List Str) (cur : Loc) :
    fs.walk cur (p ++ q) = fs.walk cur p >>= fun l => fs.walk l q := by
  induction p generalizing cur with
  | nil => rfl
  | cons x p ih =>
    simp only [List.cons_append, Fs.walk]
    cases fs.get cur with
    | none => rfl
    | some n => cases n <;> first | rfl | exact ih _

theorem locate_snoc (s : LFs) (p : List Str) (x : Str) :
    s.locate (p ++ [x]) = s.locate p >>= fun r => s.walk true r.2 r.1 [x] := walk_append s (.inr rfl) _ _ _

theorem locateEntry_snoc (s : LFs) (p : List Str) (x : Str) :
    s.locateEntry (p ++ [x]) = s.locate p >>= fun r => s.walk false r.2 r.1 [x] :=
  walk_append s (.inl (by simp)) _ _ _

theorem walk_one {l : Loc} {n : Nat} {x : Str} (hd : s.fs.get l = some .dir) (hx : x ≠ dotdot)
    (hk : s.linkAt (l ++ [x]) = none) (fo : Bool) : s.walk fo n l [x] = .ok (l ++ [x], n) := by
  rw [walk_cons, hd]
  dsimp only
  rw [if_neg hx, hk]
  exact walk_nil _ _ _ _

theorem entry_one {l : Loc} {n : Nat} {x : Str} (hd : s.fs.get l = some .dir) (hx : x ≠ dotdot) :
    s.walk false n l [x] = .ok (l ++ [x], n) := by
  cases hk : s.linkAt (l ++ [x]) with
  | none => exact walk_one hd hx hk false
  | some k =>
    rw [walk_cons, hd]
    dsimp only
    rw [if_neg hx, hk]
    simp

theorem walk_one_none {l : Loc} {n : Nat} {x : Str} (hd : s.fs.get l = none) (fo : Bool) :
    s.walk fo n l [x] = .err .notFound := by rw [walk_cons, hd]

theorem walk_one_file {l : Loc} {n : Nat} {x : Str} {c : Bytes} (hd : s.fs.get l = some (.file c)) (fo : Bool) :
    s.walk fo n l [x] = .err .notADirectory := by rw [walk_cons, hd]

theorem stat_some {p : List Str} {nd : Node} (h : s.stat p = some nd) :
    ∃ l n, s.locate p = .ok (l, n) ∧ s.fs.get l = some nd := by
  unfold stat at h
  cases hl : s.locate p with
  | err e => rw [hl] at h; simp at h
  | panic => rw [hl] at h; simp at h
  | ok r => rw [hl] at h; exact ⟨r.1, r.2, rfl, h⟩

theorem stat_of {p : List Str} {r : Loc × Nat} (h : s.locate p = .ok r) : s.stat p = s.fs.get r.1 := by
  unfold stat; rw [h]

theorem plain_nil : Plain [] := List.not_mem_nil

theorem plain_snoc {q : List Str} {x : Str} (h : Plain (q ++ [x])) : Plain q ∧ x ≠ dotdot :=
  ⟨(plain_append.mp h).1, fun e => (plain_append.mp h).2 (by simp [e])⟩

/-- A path is resolved in both filesystems or in neither, with the same error. -/
theorem Spec.Shows.res (h : Shows b s fs) (hb : Plain b) (q : List Str) (hq : Plain q) :
    (∃ l n, s.locate (b ++ q) = .ok (l, n) ∧ fs.locate (b ++ q) = .ok (b ++ q) ∧ s.fs.get l = fs.get (b ++ q)) ∨
    ∃ e, s.locate (b ++ q) = .err e ∧ fs.locate (b ++ q) = .err e := by
  induction q using Fs.list_concat_induction with
  | h0 =>
    obtain ⟨l, n, h1, h2⟩ := stat_some ((h.same [] plain_nil).trans (by rw [List.append_nil]; exact h.base))
    refine .inl ⟨l, n, h1, ?_, ?_⟩
    · rw [List.append_nil]; exact Fs.locate_of_get h.wf hb h.base
    · rw [h2, List.append_nil, h.base]
  | h1 q x ih =>
    obtain ⟨hq', hx⟩ := plain_snoc hq
    have hsame := h.same (q ++ [x]) hq
    rw [← List.append_assoc] at hsame ⊢
    have hfs : fs.locate (b ++ q ++ [x]) = fs.locate (b ++ q) >>= fun l => fs.walk l [x] := fs_walk_append _ _ _ _
    rcases ih hq' with ⟨l, n, h1, h2, h3⟩ | ⟨e, h1, h2⟩
    · have hs : s.locate (b ++ q ++ [x]) = s.walk true n l [x] := by rw [locate_snoc, h1]; rfl
      rw [h2] at hfs
      simp only [Outcome.bind_ok] at hfs
      cases hg : fs.get (b ++ q) with
      | none =>
        rw [hg] at h3
        exact .inr ⟨.notFound, by rw [hs, walk_one_none h3], by rw [hfs]; simp [Fs.walk, hg]⟩
      | some nd =>
        rw [hg] at h3
        cases nd with
        | file c =>
          exact .inr ⟨.notADirectory, by rw [hs, walk_one_file h3], by rw [hfs]; simp [Fs.walk, hg]⟩
        | dir =>
          have hfs' : fs.locate (b ++ q ++ [x]) = .ok (b ++ q ++ [x]) := by rw [hfs]; simp [Fs.walk, hg, hx]
          left
          cases hk : s.linkAt (l ++ [x]) with
          | none =>
            refine ⟨l ++ [x], n, by rw [hs, walk_one h3 hx hk], hfs', ?_⟩
            rw [← hsame, stat_of (show s.locate (b ++ q ++ [x]) = .ok (l ++ [x], n) by rw [hs, walk_one h3 hx hk])]
          | some k =>
            have := h.whole q hq' l n x h1 h3 (by rw [hk]; simp)
            obtain ⟨nd, hnd⟩ := Option.ne_none_iff_exists'.mp this
            obtain ⟨l', n', e1, e2⟩ := stat_some hnd
            exact ⟨l', n', e1, hfs', by rw [e2, ← hsame, hnd]⟩
    · exact .inr ⟨e, by rw [locate_snoc, h1]; rfl, by rw [hfs, h2]; rfl⟩

/-- The directory in which a resolved path ends. -/
theorem Spec.Shows.parent (h : Shows b s fs) (hb : Plain b) {q : List Str} {x : Str} (hq : Plain (q ++ [x])) {l : Loc}
    {n : Nat} (hl : s.locate (b ++ q ++ [x]) = .ok (l, n)) :
    ∃ l' n', s.locate (b ++ q) = .ok (l', n') ∧ s.fs.get l' = some .dir ∧ fs.get (b ++ q) = some .dir ∧
      (s.linkAt (l' ++ [x]) = none → l = l' ++ [x]) ∧ (s.fs.get l = none → s.linkAt (l' ++ [x]) = none) := by
  obtain ⟨hq', hx⟩ := plain_snoc hq
  rcases h.res hb q hq' with ⟨l', n', h1, h2, h3⟩ | ⟨e, h1, _⟩
  · have hs : s.locate (b ++ q ++ [x]) = s.walk true n' l' [x] := by rw [locate_snoc, h1]; rfl
    cases hg : s.fs.get l' with
    | none => rw [hs, walk_one_none hg] at hl; simp at hl
    | some nd =>
      cases nd with
      | file c => rw [hs, walk_one_file hg] at hl; simp at hl
      | dir =>
        refine ⟨l', n', h1, hg, h3 ▸ hg, fun hk => ?_, fun hn => ?_⟩
        · rw [hs, walk_one hg hx hk] at hl
          cases hl; rfl
        · cases hk : s.linkAt (l' ++ [x]) with
          | none => rfl
          | some k =>
            have := h.whole q hq' l' n' x h1 hg (by rw [hk]; simp)
            rw [stat_of hl] at this
            exact absurd hn this
  · rw [locate_snoc, h1] at hl; simp at hl

/-- No two paths lead to the same location, also where there is nothing. -/
theorem single_any (h : Shows b s fs) (hb : Plain b) (h1 : Single b s) {q q' : List Str} (hq : Plain q) (hq' : Plain q')
    {l : Loc} {n n' : Nat} (e : s.locate (b ++ q) = .ok (l, n)) (e' : s.locate (b ++ q') = .ok (l, n')) : q = q' := by
  by_cases hg : s.fs.get l = none
  · have hne : ∀ {p : List Str} {m : Nat}, Plain p → s.locate (b ++ p) = .ok (l, m) → ∃ r x, p = r ++ [x] := by
      intro p m hp hp'
      cases hpe : p.reverse with
      | nil =>
        have : p = [] := by simpa using hpe
        subst this
        have := h.same [] plain_nil
        rw [stat_of hp', List.append_nil, h.base, hg] at this
        simp at this
      | cons x r => exact ⟨r.reverse, x, by rw [← List.reverse_reverse p, hpe]; simp⟩
    obtain ⟨p, x, rfl⟩ := hne hq e
    obtain ⟨p', x', rfl⟩ := hne hq' e'
    rw [← List.append_assoc] at e e'
    obtain ⟨l1, n1, a1, a2, _, a3, a4⟩ := h.parent hb hq e
    obtain ⟨l2, n2, b1, b2, _, b3, b4⟩ := h.parent hb hq' e'
    obtain ⟨e1, e2⟩ := List.append_inj' ((a3 (a4 hg)).symm.trans (b3 (b4 hg))) rfl
    subst e1
    rw [h1 p p' (plain_snoc hq).1 (plain_snoc hq').1 l1 n1 n2 a1 b1 (by rw [a2]; simp)]
    rw [e2]
  · exact h1 q q' hq hq' l n n' e e' hg

/-! ## A change at one path -/

/-- What path `q0` shows has changed to `v`. -/
structure Change (b : Loc) (s : LFs) (fs : Fs) (s' : LFs) (fs' : Fs) (q0 : List Str) (v : Option Node) : Prop where
  tree : Tree s'
  wf : fs'.WF
  plain : Plain q0
  ne : q0 ≠ []
  get : ∀ l, fs'.get l = if l = b ++ q0 then v else fs.get l
  other : ∀ q, Plain q → q ≠ q0 → ∀ r, s.locate (b ++ q) = .ok r →
    s'.locate (b ++ q) = .ok r ∧ s'.fs.get r.1 = s.fs.get r.1
  here : ∃ l n, s'.locate (b ++ q0) = .ok (l, n) ∧ s'.fs.get l = v ∧
    (v = some .dir → ∀ x, s'.fs.get (l ++ [x]) = none ∧ s'.linkAt (l ++ [x]) = none) ∧
    (v ≠ none → ∀ q, Plain q → q ≠ q0 → ∀ r, s.locate (b ++ q) = .ok r → r.1 ≠ l)
  links : ∀ l, s'.linkAt l ≠ none → s.linkAt l ≠ none
  gone : (∀ c, v ≠ some (.file c)) → ∀ p x, q0 = p ++ [x] → ∀ l n, s'.locate (b ++ p) = .ok (l, n) →
    s'.linkAt (l ++ [x]) = none

section
variable {q0 : List Str} {v : Option Node}

theorem Change.leadsNowhere (c : Change b s fs s' fs' q0 v) (h : Shows b s fs) (hb : Plain b) (q : List Str) (hq : Plain q)
    (hne : q ≠ q0) {e : ErrKind} (he : s.locate (b ++ q) = .err e) : s'.stat (b ++ q) = none := by
  induction q using Fs.list_concat_induction generalizing e with
  | h0 =>
    obtain ⟨l, n, h1, _⟩ := stat_some ((h.same [] plain_nil).trans (by rw [List.append_nil]; exact h.base))
    rw [h1] at he; simp at he
  | h1 p x ih =>
    obtain ⟨hp, hx⟩ := plain_snoc hq
    rw [← List.append_assoc] at he ⊢
    -- the parent leads nowhere
    have hnone : s'.stat (b ++ p) = none → s'.stat (b ++ p ++ [x]) = none := by
      intro hn
      unfold stat at hn ⊢
      rw [locate_snoc]
      cases hl : s'.locate (b ++ p) with
      | err e => rfl
      | panic => rfl
      | ok r =>
        rw [hl] at hn
        simp only [Outcome.bind_ok]
        rw [walk_one_none hn]
    by_cases hpe : p = q0
    · subst hpe
      obtain ⟨l, n, h1, h2, h3, _⟩ := c.here
      unfold stat
      rw [locate_snoc, h1]
      simp only [Outcome.bind_ok]
      cases v with
      | none => rw [walk_one_none h2]
      | some nd =>
        cases nd with
        | file c => rw [walk_one_file h2]
        | dir =>
          rw [walk_one h2 hx (h3 rfl x).2]
          exact (h3 rfl x).1
    · cases hl : s.locate (b ++ p) with
      | panic => exact absurd hl (walk_ne_panic _ _ _ _)
      | err e' => exact hnone (ih hp hpe hl)
      | ok r =>
        obtain ⟨h1, h2⟩ := c.other p hp hpe r hl
        rw [locate_snoc, hl] at he
        simp only [Outcome.bind_ok] at he
        unfold stat
        rw [locate_snoc, h1]
        simp only [Outcome.bind_ok]
        cases hg : s.fs.get r.1 with
        | none => rw [walk_one_none (h2.trans hg)]
        | some nd =>
          cases nd with
          | file c => rw [walk_one_file (h2.trans hg)]
          | dir =>
            exfalso
            cases hk : s.linkAt (r.1 ++ [x]) with
            | none => rw [walk_one hg hx hk] at he; simp at he
            | some k =>
              have := h.whole p hp r.1 r.2 x hl hg (by rw [hk]; simp)
              obtain ⟨nd, hnd⟩ := Option.ne_none_iff_exists'.mp this
              obtain ⟨l', n', e1, _⟩ := stat_some hnd
              rw [locate_snoc, hl] at e1
              simp only [Outcome.bind_ok] at e1
              rw [he] at e1; simp at e1

theorem append_ne {q q0 : List Str} (h : q ≠ q0) : b ++ q ≠ b ++ q0 := fun e => h (List.append_cancel_left e)

theorem Change.same (c : Change b s fs s' fs' q0 v) (h : Shows b s fs) (hb : Plain b) (q : List Str) (hq : Plain q) :
    s'.stat (b ++ q) = fs'.get (b ++ q) := by
  rw [c.get]
  by_cases hne : q = q0
  · subst hne
    obtain ⟨l, n, h1, h2, _⟩ := c.here
    rw [if_pos rfl, stat_of h1, h2]
  · rw [if_neg (append_ne hne)]
    rw [← h.same q hq]
    cases hl : s.locate (b ++ q) with
    | panic => exact absurd hl (walk_ne_panic _ _ _ _)
    | err e =>
      rw [c.leadsNowhere h hb q hq hne hl]
      unfold stat; rw [hl]
    | ok r =>
      obtain ⟨h1, h2⟩ := c.other q hq hne r hl
      rw [stat_of h1, stat_of hl, h2]

/-- Where something is after a change elsewhere, it was before. -/
theorem Change.back (c : Change b s fs s' fs' q0 v) (h : Shows b s fs) (hb : Plain b) {q : List Str} (hq : Plain q)
    (hne : q ≠ q0) {r : Loc × Nat} (hl : s'.locate (b ++ q) = .ok r) (hg : s'.fs.get r.1 ≠ none) :
    s.locate (b ++ q) = .ok r ∧ s.fs.get r.1 = s'.fs.get r.1 := by
  cases hs : s.locate (b ++ q) with
  | panic => exact absurd hs (walk_ne_panic _ _ _ _)
  | err e => exact absurd ((stat_of hl).symm.trans (c.leadsNowhere h hb q hq hne hs)) hg
  | ok r' =>
    obtain ⟨h1, h2⟩ := c.other q hq hne r' hs
    rw [hl] at h1
    cases h1
    exact ⟨rfl, h2.symm⟩

theorem Change.shows (c : Change b s fs s' fs' q0 v) (h : Shows b s fs) (hb : Plain b) : Shows b s' fs' where
  tree := c.tree
  wf := c.wf
  names q hq := by
    rw [c.get] at hq
    split at hq
    · rename_i e
      rw [List.append_cancel_left e]; exact c.plain
    · exact h.names q hq
  base := by
    rw [c.get, if_neg]
    · exact h.base
    · intro e
      exact c.ne (by simpa using e)
  same := c.same h hb
  whole q hq l n x hl hd hk := by
    have hx : Plain (q ++ [x]) := hq.append ((plain_append.mp (c.tree.names _ (.inr hk))).2)
    by_cases he : q ++ [x] = q0
    · obtain ⟨l1, n1, h1, h2, _⟩ := c.here
      rw [List.append_assoc, he, stat_of h1, h2]
      intro hv
      exact hk (c.gone (by rw [hv]; simp) q x he.symm l n hl)
    · have hne : q ≠ q0 := by
        rintro rfl
        obtain ⟨l1, n1, h1, h2, h3, _⟩ := c.here
        rw [hl] at h1
        cases h1
        exact hk (h3 (h2.symm.trans hd) x).2
      obtain ⟨h1, h2⟩ := c.back h hb hq hne hl (by rw [hd]; simp)
      have := h.whole q hq l n x h1 (h2.trans hd) (c.links _ hk)
      rw [List.append_assoc] at this ⊢
      rwa [c.same h hb _ hx, c.get, if_neg (append_ne he), ← h.same _ hx]

theorem Change.single (c : Change b s fs s' fs' q0 v) (h : Shows b s fs) (hb : Plain b) (h1 : Single b s) :
    Single b s' := by
  intro q q' hq hq' l n n' e e' hg
  obtain ⟨l0, n0, a1, a2, _, a4⟩ := c.here
  by_cases hn : q = q0
  · by_cases hn' : q' = q0
    · rw [hn, hn']
    · exfalso
      rw [hn, a1] at e
      cases e
      obtain ⟨b1, _⟩ := c.back h hb hq' hn' e' hg
      exact a4 (a2 ▸ hg) q' hq' hn' _ b1 rfl
  · by_cases hn' : q' = q0
    · exfalso
      rw [hn', a1] at e'
      cases e'
      obtain ⟨b1, _⟩ := c.back h hb hq hn e hg
      exact a4 (a2 ▸ hg) q hq hn _ b1 rfl
    · obtain ⟨b1, b2⟩ := c.back h hb hq hn e hg
      obtain ⟨c1, _⟩ := c.back h hb hq' hn' e' hg
      exact h1 q q' hq hq' l n n' b1 c1 (by rw [b2]; exact hg)

/-- No call makes a link that leads to a directory. -/
theorem Change.linkToDir (c : Change b s fs s' fs' q0 v) (h : Shows b s fs) (hb : Plain b) {q : List Str} (hq : Plain q)
    (hl : LinkToDir s' (b ++ q)) (hne : q ≠ []) : LinkToDir s (b ++ q) := by
  obtain ⟨⟨l, n, h1, h2⟩, h3⟩ := hl
  obtain ⟨p, x, rfl⟩ : ∃ p x, q = p ++ [x] := ⟨_, _, (List.dropLast_concat_getLast hne).symm⟩
  obtain ⟨hp, hx⟩ := plain_snoc hq
  rw [← List.append_assoc] at h1 h3 ⊢
  have hsh := c.shows h hb
  obtain ⟨l1, n1, e1, e2⟩ := stat_some h3
  obtain ⟨l2, n2, a1, a2, _⟩ := hsh.parent hb hq e1
  rw [locateEntry_snoc, a1] at h1
  simp only [Outcome.bind_ok] at h1
  rw [entry_one a2 hx] at h1
  cases h1
  have hpne : p ≠ q0 := by
    rintro rfl
    obtain ⟨l3, n3, b1, b2, b3, _⟩ := c.here
    rw [a1] at b1
    cases b1
    exact h2 (b3 (b2.symm.trans a2) x).2
  obtain ⟨d1, d2⟩ := c.back h hb hp hpne a1 (by rw [a2]; simp)
  have hqne : p ++ [x] ≠ q0 := by
    intro he
    obtain ⟨l3, n3, b1, b2, b3, _⟩ := c.here
    rw [← he, ← List.append_assoc, e1] at b1
    cases b1
    exact h2 (c.gone (fun f hf => by rw [← b2, e2] at hf; simp at hf) p x he.symm l2 n a1)
  refine ⟨⟨l2 ++ [x], n, ?_, c.links _ h2⟩, ?_⟩
  · rw [locateEntry_snoc, d1]
    simp only [Outcome.bind_ok]
    exact entry_one (d2.trans a2) hx
  · rw [List.append_assoc] at h3 ⊢
    rw [h.same _ hq]
    rw [hsh.same _ hq, c.get, if_neg (append_ne hqne)] at h3
    exact h3

end

/-! ## The changes that calls make -/

/-- What is known of a path at which something is made or removed. -/
theorem entry_split {q : List Str} (hne : q ≠ []) : ∃ p x, q = p ++ [x] :=
  ⟨_, _, (List.dropLast_concat_getLast hne).symm⟩

theorem ne_nil_of_not_dir (h : Shows b s fs) {q : List Str} (hq : fs.get (b ++ q) ≠ some .dir) : q ≠ [] := by
  rintro rfl
  rw [List.append_nil] at hq
  exact hq h.base

/-- The location of a path is that of a directory entry, and not of a link. -/
theorem Spec.Shows.slot (h : Shows b s fs) (hb : Plain b) {q : List Str} (hq : Plain q) {l : Loc} {n : Nat}
    (hl : s.locate (b ++ q) = .ok (l, n)) (hd : s.fs.get l ≠ some .dir) :
    ∃ c y, l = c ++ [y] ∧ s.fs.get c = some .dir ∧ Plain l ∧ s.linkAt l = none := by
  cases hg : s.fs.get l with
  | some nd =>
    have hlk : s.linkAt l = none := by
      by_cases hc : s.linkAt l = none
      · exact hc
      · have := h.tree.apart l hc; rw [hg] at this; simp at this
    have hne : l ≠ [] := by
      rintro rfl
      rw [h.tree.wf.root] at hd
      exact hd rfl
    obtain ⟨c, y, rfl⟩ := entry_split hne
    exact ⟨c, y, rfl, h.tree.wf.parent _ _ _ hg, h.tree.names _ (.inl (by rw [hg]; simp)), hlk⟩
  | none =>
    have hne : q ≠ [] := by
      rintro rfl
      have := h.same [] plain_nil
      rw [stat_of hl, List.append_nil, h.base, hg] at this
      simp at this
    obtain ⟨p, x, rfl⟩ := entry_split hne
    rw [← List.append_assoc] at hl
    obtain ⟨l', n', a1, a2, _, a3, a4⟩ := h.parent hb hq hl
    refine ⟨l', x, a3 (a4 hg), a2, ?_, ?_⟩
    · rw [a3 (a4 hg)]
      exact (h.tree.names l' (.inl (by rw [a2]; simp))).append (plain_append.mp hq).2
    · rw [a3 (a4 hg)]; exact a4 hg

theorem locate_put {l : Loc} {nd : Node} (hd : s.fs.get l ≠ some .dir) {p : List Str} {r : Loc × Nat}
    (h : s.locate p = .ok r) : (s.put l nd).locate p = .ok r := by
  refine walk_mono (s := s) (s' := s.put l nd) ?_ (fun _ => rfl) _ _ _ h
  intro l' hl'
  show (s.fs.put l nd).get l' = _
  rw [Fs.get_put, if_neg (by rintro rfl; exact hd hl')]
  exact hl'

theorem tree_put (h : Tree s) {c : Loc} {y : Str} {nd : Node} (hc : s.fs.get c = some .dir)
    (hd : s.fs.get (c ++ [y]) ≠ some .dir) (hpl : Plain (c ++ [y])) (hlk : s.linkAt (c ++ [y]) = none) :
    Tree (s.put (c ++ [y]) nd) where
  wf := by
    cases nd with
    | dir => exact h.wf.put_dir hc
    | file b => exact h.wf.put_file hc hd
  once := h.once
  root := h.root
  apart l hl := by
    show (s.fs.put (c ++ [y]) nd).get l = none
    rw [Fs.get_put, if_neg]
    · exact h.apart l hl
    · rintro rfl; exact hl hlk
  parent l x hl := by
    show (s.fs.put (c ++ [y]) nd).get l = _
    have := h.parent l x hl
    rw [Fs.get_put, if_neg]
    · exact this
    · rintro rfl; exact hd this
  names l hl := by
    by_cases e : l = c ++ [y]
    · rw [e]; exact hpl
    · refine h.names l ?_
      rcases hl with hl | hl
      · left
        have hl : (s.fs.put (c ++ [y]) nd).get l ≠ none := hl
        rwa [Fs.get_put, if_neg e] at hl
      · exact .inr hl

/-- Something is put at a path: a file, or a directory where there was nothing. -/
theorem change_put (h : Shows b s fs) (hb : Plain b) (h1 : Single b s) {q : List Str} (hq : Plain q) {l : Loc} {n : Nat}
    (hl : s.locate (b ++ q) = .ok (l, n)) (hd : s.fs.get l ≠ some .dir) {nd : Node}
    (hnd : nd = .dir → s.fs.get l = none) :
    Change b s fs (s.put l nd) (fs.put (b ++ q) nd) q (some nd) := by
  obtain ⟨c, y, hcy, hc, hpl, hlk⟩ := h.slot hb hq hl hd
  have hfg : s.fs.get l = fs.get (b ++ q) := by rw [← h.same q hq, stat_of hl]
  have hne : q ≠ [] := ne_nil_of_not_dir h (hfg ▸ hd)
  obtain ⟨p, x, hpx⟩ := entry_split hne
  obtain ⟨l', n', a1, a2, a3, a4, a5⟩ := h.parent hb (hpx ▸ hq) (show s.locate (b ++ p ++ [x]) = .ok (l, n) by
    rw [List.append_assoc, ← hpx]; exact hl)
  have hget : ∀ k, (s.put l nd).fs.get k = if k = l then some nd else s.fs.get k := fun k => Fs.get_put ..
  have hother : ∀ q', Plain q' → q' ≠ q → ∀ r, s.locate (b ++ q') = .ok r → r.1 ≠ l := by
    rintro q' hq' hne r hr rfl
    exact hne (single_any h hb h1 hq' hq hr hl)
  refine ⟨?_, ?_, hq, hne, fun k => Fs.get_put .., ?_, ?_, fun k hk => hk, ?_⟩
  · subst hcy; exact tree_put h.tree hc hd hpl hlk
  · rw [hpx, ← List.append_assoc]
    cases nd with
    | dir => exact h.wf.put_dir a3
    | file f => exact h.wf.put_file a3 (by rw [List.append_assoc, ← hpx, ← hfg]; exact hd)
  · intro q' hq' hne r hr
    exact ⟨locate_put hd hr, by rw [hget, if_neg (hother q' hq' hne r hr)]⟩
  · refine ⟨l, n, locate_put hd hl, by rw [hget, if_pos rfl], ?_, fun _ => hother⟩
    intro e z
    cases e
    have hn := hnd rfl
    constructor
    · rw [hget, if_neg (by simp)]
      cases hz : s.fs.get (l ++ [z]) with
      | none => rfl
      | some m => have := h.tree.wf.parent _ _ _ hz; rw [hn] at this; simp at this
    · by_cases hk : s.linkAt (l ++ [z]) = none
      · exact hk
      · have := h.tree.parent _ _ hk; rw [hn] at this; simp at this
  · intro hv p' x' he l2 n2 hl2
    have : nd = .dir := by
      cases nd with
      | dir => rfl
      | file f => exact absurd rfl (hv f)
    rw [hpx] at he
    obtain ⟨rfl, e2⟩ := List.append_inj' he rfl
    cases e2
    rw [locate_put hd a1] at hl2
    cases hl2
    exact a5 (hnd this)

/-- A file is removed that is not behind a link. -/
theorem change_del (h : Shows b s fs) (hb : Plain b) (h1 : Single b s) {p : List Str} {x : Str} (hq : Plain (p ++ [x]))
    {l : Loc} {n : Nat} (hl : s.locate (b ++ (p ++ [x])) = .ok (l, n)) {c : Bytes} (hf : s.fs.get l = some (.file c))
    {lp : Loc} {np : Nat} (hlp : s.locate (b ++ p) = .ok (lp, np)) (hlk : s.linkAt (lp ++ [x]) = none) :
    Change b s fs { s with fs := s.fs.del l } (fs.del (b ++ (p ++ [x]))) (p ++ [x]) none := by
  have hfg : fs.get (b ++ (p ++ [x])) = some (.file c) := by rw [← h.same _ hq, stat_of hl]; exact hf
  have hmono : ∀ {k : List Str} {r : Loc × Nat}, s.locate k = .ok r →
      ({ s with fs := s.fs.del l } : LFs).locate k = .ok r := by
    intro k r hk
    refine walk_mono (s := s) (s' := { s with fs := s.fs.del l }) ?_ (fun _ => rfl) _ _ _ hk
    intro l' hl'
    show (s.fs.del l).get l' = _
    rw [Fs.get_del, if_neg (by rintro rfl; rw [hf] at hl'; simp at hl')]
    exact hl'
  refine ⟨⟨h.tree.wf.del_file hf, h.tree.once, h.tree.root, ?_, ?_, ?_⟩, h.wf.del_file hfg, hq, by simp,
    fun k => Fs.get_del .., ?_, ⟨l, n, hmono hl, ?_, by simp, by simp⟩, fun k hk => hk, ?_⟩
  · intro k hk
    show (s.fs.del l).get k = none
    rw [Fs.get_del]; split
    · rfl
    · exact h.tree.apart k hk
  · intro k y hk
    show (s.fs.del l).get k = _
    have := h.tree.parent k y hk
    rw [Fs.get_del, if_neg (by rintro rfl; rw [hf] at this; simp at this)]
    exact this
  · intro k hk
    refine h.tree.names k ?_
    rcases hk with hk | hk
    · left
      have hk : (s.fs.del l).get k ≠ none := hk
      rw [Fs.get_del] at hk
      split at hk
      · simp at hk
      · exact hk
    · exact .inr hk
  · intro q' hq' hne r hr
    refine ⟨hmono hr, ?_⟩
    show (s.fs.del l).get r.1 = _
    rw [Fs.get_del, if_neg]
    rintro rfl
    exact hne (single_any h hb h1 hq' hq hr hl)
  · show (s.fs.del l).get l = _
    rw [Fs.get_del, if_pos rfl]
  · intro _ p' x' he l2 n2 hl2
    obtain ⟨rfl, e2⟩ := List.append_inj' he rfl
    cases e2
    rw [hmono hlp] at hl2
    cases hl2
    exact hlk

/-- A link to a file is removed. -/
theorem change_unlink (h : Shows b s fs) (hb : Plain b) (h1 : Single b s) {p : List Str} {x : Str} (hq : Plain (p ++ [x]))
    {l : Loc} {n : Nat} (hl : s.locate (b ++ (p ++ [x])) = .ok (l, n)) {c : Bytes} (hf : s.fs.get l = some (.file c))
    {lp : Loc} {np : Nat} (hlp : s.locate (b ++ p) = .ok (lp, np)) (hd : s.fs.get lp = some .dir) {k : Link}
    (hlk : s.linkAt (lp ++ [x]) = some k) :
    Change b s fs { s with links := s.links.filter fun e => decide (e.1 ≠ lp ++ [x]) } (fs.del (b ++ (p ++ [x])))
      (p ++ [x]) none := by
  obtain ⟨hp, hx⟩ := plain_snoc hq
  have hfg : fs.get (b ++ (p ++ [x])) = some (.file c) := by rw [← h.same _ hq, stat_of hl]; exact hf
  have hlk' := linkAt_filter s (lp ++ [x])
  generalize hs' : ({ s with links := s.links.filter fun e => decide (e.1 ≠ lp ++ [x]) } : LFs) = s' at hlk' ⊢
  have hfs : s'.fs = s.fs := by rw [← hs']
  -- the link leads to the file
  obtain ⟨m, hw⟩ : ∃ m, s.walk true m (if k.absolute then [] else lp) k.path = .ok (l, n) := by
    rw [← List.append_assoc, locate_snoc, hlp] at hl
    simp only [Outcome.bind_ok] at hl
    rw [walk_cons, hd] at hl
    dsimp only at hl
    rw [if_neg hx, hlk] at hl
    dsimp only at hl
    rw [if_neg (by simp)] at hl
    cases np with
    | zero => simp [jump] at hl
    | succ m =>
      refine ⟨m, ?_⟩
      simpa [jump] using hl
  have hmono : ∀ {q' : List Str} {r : Loc × Nat}, Plain q' → q' ≠ p ++ [x] → s.locate (b ++ q') = .ok r →
      s'.locate (b ++ q') = .ok r := by
    intro q' r hq' hne hr
    rcases walk_unlink (s := s) (s' := s') hfs (fun l hl => by rw [hlk', if_neg hl]) hlk hw hf _ _ _ hr with h' | h'
    · exact h'
    · obtain ⟨r1, r2⟩ := r
      cases h'
      exact absurd (single_any h hb h1 hq' hq hr hl) hne
  have hpne : p ≠ p ++ [x] := by
    intro e
    have := congrArg List.length e
    simp at this
  have hlp' := hmono hp hpne hlp
  have hgone : s'.linkAt (lp ++ [x]) = none := by rw [hlk', if_pos rfl]
  have hnone : s.fs.get (lp ++ [x]) = none := h.tree.apart _ (by rw [hlk]; simp)
  have hsub : ∀ l, s'.linkAt l ≠ none → s.linkAt l ≠ none := by
    intro l hl
    rw [hlk'] at hl
    split at hl
    · simp at hl
    · exact hl
  refine ⟨⟨by rw [hfs]; exact h.tree.wf, ?_, ?_, ?_, ?_, ?_⟩, h.wf.del_file hfg, hq, by simp,
    fun k => Fs.get_del .., ?_, ⟨lp ++ [x], np, ?_, by rw [hfs]; exact hnone, by simp, by simp⟩, hsub, ?_⟩
  · rw [← hs']
    exact (List.filter_sublist.map Prod.fst).nodup h.tree.once
  · by_cases e : s'.linkAt [] = none
    · exact e
    · exact absurd h.tree.root (hsub _ e)
  · intro k hk
    rw [hfs]; exact h.tree.apart k (hsub k hk)
  · intro k y hk
    rw [hfs]; exact h.tree.parent k y (hsub _ hk)
  · intro k hk
    rw [hfs] at hk
    exact h.tree.names k (hk.imp id (hsub k))
  · intro q' hq' hne r hr
    exact ⟨hmono hq' hne hr, by rw [hfs]⟩
  · rw [← List.append_assoc, locate_snoc, hlp']
    simp only [Outcome.bind_ok]
    exact walk_one (by rw [hfs]; exact hd) hx hgone true
  · intro _ p' x' he l2 n2 hl2
    obtain ⟨rfl, e2⟩ := List.append_inj' he rfl
    cases e2
    rw [hlp'] at hl2
    cases hl2
    exact hgone

/-! ## System calls -/

/-- What is kept: the directory shows the same; if calls write (`w`), no two paths lead to the same place, and none of the
paths in `D` is that of a link to a directory. -/
structure Good (w : Bool) (b : Loc) (D : List Str → Prop) (s : LFs) (fs : Fs) : Prop where
  shows : Shows b s fs
  single : w = true → Single b s
  apart : w = true → ∀ q, D q → Plain q → q ≠ [] → ¬ LinkToDir s (b ++ q)

section
variable {w : Bool} {D : List Str → Prop}

theorem Good.change (g : Good true b D s fs) (hb : Plain b) {q0 : List Str} {v : Option Node}
    (c : Change b s fs s' fs' q0 v) : Good true b D s' fs' :=
  ⟨c.shows g.shows hb, fun e => c.single g.shows hb (g.single e), fun e q hD hq hne hl =>
    g.apart e q hD hq hne (c.linkToDir g.shows hb hq hl hne)⟩

theorem Spec.Shows.isFile (h : Shows b s fs) (hb : Plain b) {q : List Str} (hq : Plain q) :
    s.isFile (b ++ q) = fs.isFile (b ++ q) := by
  unfold LFs.isFile Fs.isFile
  rw [h.same q hq, Fs.node_plain h.wf (hb.append hq)]
  rfl

theorem Spec.Shows.isDir (h : Shows b s fs) (hb : Plain b) {q : List Str} (hq : Plain q) :
    s.isDir (b ++ q) = fs.isDir (b ++ q) := by
  unfold LFs.isDir Fs.isDir
  rw [h.same q hq, Fs.node_plain h.wf (hb.append hq)]

theorem Spec.Shows.pathExists (h : Shows b s fs) (hb : Plain b) {q : List Str} (hq : Plain q) :
    s.pathExists (b ++ q) = fs.pathExists (b ++ q) := by
  unfold LFs.pathExists Fs.pathExists
  rw [h.same q hq, Fs.node_plain h.wf (hb.append hq)]

theorem Spec.Shows.readFile (h : Shows b s fs) (hb : Plain b) {q : List Str} (hq : Plain q) :
    s.readFile (b ++ q) = fs.readFile (b ++ q) := by
  unfold LFs.readFile Fs.readFile
  rcases h.res hb q hq with ⟨l, n, h1, h2, h3⟩ | ⟨e, h1, h2⟩
  · rw [h1, h2]; simp only; rw [h3]; rfl
  · rw [h1, h2]

/-- The results of two calls that leave filesystems that show the same. -/
inductive FsRel (b : Loc) (D : List Str → Prop) : Outcome LFs → Outcome Fs → Prop
  | ok {s : LFs} {fs : Fs} (h : Good true b D s fs) : FsRel b D (.ok s) (.ok fs)
  | err (e : ErrKind) : FsRel b D (.err e) (.err e)

theorem mkdir_rel (g : Good true b D s fs) (hb : Plain b) {p : List Str} {x : Str} (hq : Plain (p ++ [x])) :
    FsRel b D (s.mkdir (b ++ (p ++ [x]))) (fs.mkdir (b ++ (p ++ [x]))) := by
  obtain ⟨hp, hx⟩ := plain_snoc hq
  have h := g.shows
  have hfs := h.res hb _ hq
  unfold LFs.mkdir Fs.mkdir
  rcases h.res hb p hp with ⟨l, n, h1, h2, h3⟩ | ⟨e, h1, h2⟩
  · have he : s.locateEntry (b ++ (p ++ [x])) = s.walk false n l [x] := by
      rw [← List.append_assoc, locateEntry_snoc, h1]; rfl
    have hf : fs.locate (b ++ (p ++ [x])) = fs.walk (b ++ p) [x] := by
      have : fs.locate (b ++ p ++ [x]) = fs.locate (b ++ p) >>= fun l => fs.walk l [x] := fs_walk_append _ _ _ _
      rw [← List.append_assoc, this, h2]; rfl
    rw [he, hf]
    cases hg : s.fs.get l with
    | none =>
      rw [walk_one_none hg]
      rw [hg] at h3
      simp only [Fs.walk, ← h3]
      exact .err _
    | some nd =>
      cases nd with
      | file c =>
        rw [walk_one_file hg]
        rw [hg] at h3
        simp only [Fs.walk, ← h3]
        exact .err _
      | dir =>
        rw [entry_one hg hx]
        rw [hg] at h3
        simp only [Fs.walk, ← h3, if_neg hx]
        rw [List.append_assoc]
        have hsame := h.same _ hq
        cases hk : s.linkAt (l ++ [x]) with
        | some k =>
          have := h.whole p hp l n x h1 hg (by rw [hk]; simp)
          rw [List.append_assoc, hsame] at this
          obtain ⟨nd, hnd⟩ := Option.ne_none_iff_exists'.mp this
          rw [hnd]
          simp only [Option.isSome_some, true_or, if_true]
          exact .err _
        | none =>
          have hl : s.locate (b ++ (p ++ [x])) = .ok (l ++ [x], n) := by
            rw [← List.append_assoc, locate_snoc, h1]
            exact walk_one hg hx hk true
          rw [stat_of hl] at hsame
          simp only at hsame
          rw [← hsame]
          cases hgx : s.fs.get (l ++ [x]) with
          | some nd =>
            simp only [Option.isSome_some, or_true, if_true]
            exact .err _
          | none =>
            simp only [Option.isSome_none, Bool.false_eq_true, or_false, if_false]
            exact .ok (g.change hb (change_put h hb (g.single rfl) hq hl (by rw [hgx]; simp) fun _ => hgx))
  · have he : s.locateEntry (b ++ (p ++ [x])) = .err e := by
      rw [← List.append_assoc, locateEntry_snoc, h1]; rfl
    have hf : fs.locate (b ++ (p ++ [x])) = .err e := by
      have : fs.locate (b ++ p ++ [x]) = fs.locate (b ++ p) >>= fun l => fs.walk l [x] := fs_walk_append _ _ _ _
      rw [← List.append_assoc, this, h2]; rfl
    rw [he, hf]
    exact .err e

/-- The directories on the way to a path that leads to something. -/
theorem locate_dropLast {c : List Str} {y : Str} {r : Loc × Nat} (h : s.locate (c ++ [y]) = .ok r) :
    ∃ r', s.locate c = .ok r' ∧ s.fs.get r'.1 = some .dir := by
  rw [locate_snoc] at h
  cases hc : s.locate c with
  | err e => rw [hc] at h; simp at h
  | panic => rw [hc] at h; simp at h
  | ok r' =>
    rw [hc] at h
    simp only [Outcome.bind_ok] at h
    refine ⟨r', rfl, ?_⟩
    cases hg : s.fs.get r'.1 with
    | none => rw [walk_one_none hg] at h; simp at h
    | some nd =>
      cases nd with
      | file c => rw [walk_one_file hg] at h; simp at h
      | dir => rfl

theorem mkdirAllRev_base (h : Shows b s fs) (hb : Plain b) : LFs.mkdirAllRev b.reverse s = (.ok (), s) := by
  have hst : s.stat b = some .dir := by
    have := h.same [] plain_nil
    rwa [List.append_nil, h.base] at this
  have hd : s.isDir b = true := by simp [LFs.isDir, hst]
  generalize hr : b.reverse = r
  cases r with
  | nil =>
    have : b = [] := by simpa using hr
    subst this
    simp [LFs.mkdirAllRev, hd]
  | cons y r =>
    have hbr : (y :: r).reverse = b := by rw [← hr]; simp
    have hbc : b = r.reverse ++ [y] := by rw [← hbr]; simp
    have hmk : s.mkdir b = .err .alreadyExists := by
      obtain ⟨l, n, h1, h2⟩ := stat_some hst
      have hy : y ≠ dotdot := (plain_snoc (hbc ▸ hb)).2
      rw [hbc] at h1
      obtain ⟨r', a1, a2⟩ := locate_dropLast h1
      have he : s.locateEntry b = .ok (r'.1 ++ [y], r'.2) := by
        rw [hbc, locateEntry_snoc, a1]
        exact entry_one a2 hy
      unfold LFs.mkdir
      rw [he]
      simp only
      rw [if_pos]
      cases hk : s.linkAt (r'.1 ++ [y]) with
      | some k => simp
      | none =>
        right
        rw [locate_snoc, a1] at h1
        simp only [Outcome.bind_ok] at h1
        rw [walk_one a2 hy hk] at h1
        cases h1
        rw [h2]; rfl
    unfold LFs.mkdirAllRev
    rw [hbr, hmk]
    simp [hd]

theorem mkdirAllRev_rel (hb : Plain b) (q : List Str) {s : LFs} {fs : Fs} (g : Good true b D s fs) (hq : Plain q) :
    (LFs.mkdirAllRev (b ++ q).reverse s).1 = (Fs.mkdirAllRev (b ++ q).reverse fs).1 ∧
    Good true b D (LFs.mkdirAllRev (b ++ q).reverse s).2 (Fs.mkdirAllRev (b ++ q).reverse fs).2 := by
  induction q using Fs.list_concat_induction generalizing s fs with
  | h0 =>
    rw [List.append_nil, mkdirAllRev_base g.shows hb,
      Zarr.mkdirAllRev_base hb (rooted_of_wf g.shows.wf g.shows.base)]
    exact ⟨rfl, g⟩
  | h1 q x ih =>
    have hq' : Plain q := (plain_append.mp hq).1
    have e : (b ++ (q ++ [x])).reverse = x :: (b ++ q).reverse := by simp
    have e2 : (x :: (b ++ q).reverse).reverse = b ++ (q ++ [x]) := by simp
    rw [e]
    unfold LFs.mkdirAllRev Fs.mkdirAllRev
    rw [e2]
    have h1 := mkdir_rel g hb hq
    generalize s.mkdir (b ++ (q ++ [x])) = o at h1
    generalize fs.mkdir (b ++ (q ++ [x])) = o' at h1
    cases h1 with
    | ok h => exact ⟨rfl, h⟩
    | err er =>
      simp only
      by_cases hne : er = .notFound
      · rw [if_pos hne, if_pos hne]
        obtain ⟨i1, i2⟩ := ih g hq'
        generalize LFs.mkdirAllRev (b ++ q).reverse s = r at i1 i2 ⊢
        generalize Fs.mkdirAllRev (b ++ q).reverse fs = r' at i1 i2 ⊢
        obtain ⟨a, t⟩ := r
        obtain ⟨a', t'⟩ := r'
        simp only at i1 i2
        subst i1
        cases a with
        | err e => exact ⟨rfl, i2⟩
        | panic => exact ⟨rfl, i2⟩
        | ok u =>
          simp only
          have h2 := mkdir_rel i2 hb hq
          rw [i2.shows.isDir hb hq]
          generalize t.mkdir (b ++ (q ++ [x])) = o at h2 ⊢
          generalize t'.mkdir (b ++ (q ++ [x])) = o' at h2 ⊢
          cases h2 with
          | ok h => exact ⟨rfl, h⟩
          | err er => simp only; split <;> exact ⟨rfl, i2⟩
      · rw [if_neg hne, if_neg hne, g.shows.isDir hb hq]
        split <;> exact ⟨rfl, g⟩

end

/-! ## Store calls -/

section
variable {h : Hier} {key : Str} {w : Bool} {D : List Str → Prop}

theorem storeExists_links (hb : Plain (segs h.base)) (hk : Plain (segs key)) (g : Shows (segs h.base) s fs) :
    Links.storeExists h key s = (Zarr.storeExists h key fs).1 := by
  obtain ⟨t, ht, hseg⟩ := getPath_loc (h := h) (key := key) (hb.append hk)
  rw [storeExists_spec (show Plain (h.loc key) from hb.append hk)]
  simp only [Links.storeExists, ht, Outcome.bind_ok, hseg]
  show Outcome.ok _ = Outcome.ok _
  rw [Hier.loc, g.isFile hb hk]

theorem storeGet_links (hb : Plain (segs h.base)) (hk : Plain (segs key)) (g : Shows (segs h.base) s fs) :
    Links.storeGet h key s = (Zarr.storeGet h key fs).1 := by
  obtain ⟨t, ht, hseg⟩ := getPath_loc (h := h) (key := key) (hb.append hk)
  simp only [Links.storeGet, Zarr.storeGet, M.read_apply, ht, Outcome.bind_ok, hseg, Hier.loc]
  rw [g.isFile hb hk, g.readFile hb hk]

theorem linkAt_ne_none {l : Loc} : s.linkAt l ≠ none ↔ ∃ k, (l, k) ∈ s.links := by
  unfold linkAt
  rw [ne_eq, Option.map_eq_none_iff]
  constructor
  · intro hne
    obtain ⟨e, he⟩ := Option.ne_none_iff_exists'.mp hne
    have h1 := List.find?_some he
    have h2 := List.mem_of_find?_eq_some he
    simp only [decide_eq_true_eq] at h1
    exact ⟨e.2, by rw [← h1]; exact h2⟩
  · rintro ⟨k, hk⟩ hne
    rw [List.find?_eq_none] at hne
    exact hne _ hk (by simp)

theorem nameIn_iff {l k : Loc} {x : Str} : nameIn l k = some x ↔ k = l ++ [x] := by
  unfold nameIn
  constructor
  · intro he
    split at he
    · simp at he
    · rename_i a r hr
      split at he
      · rename_i hl
        simp only [Option.some.injEq] at he
        subst he hl
        rw [← List.reverse_reverse k, hr]; simp
      · simp at he
  · rintro rfl; simp

theorem mem_linkNames {l : Loc} {x : Str} :
    x ∈ s.links.filterMap (fun e => nameIn l e.1) ↔ s.linkAt (l ++ [x]) ≠ none := by
  rw [linkAt_ne_none, List.mem_filterMap]
  constructor
  · rintro ⟨⟨k, v⟩, hm, he⟩
    rw [nameIn_iff] at he
    simp only at he
    exact ⟨v, he ▸ hm⟩
  · rintro ⟨v, hm⟩
    exact ⟨(l ++ [x], v), hm, nameIn_iff.mpr rfl⟩

theorem mem_names (h : Tree s) {l : Loc} {x : Str} :
    x ∈ s.names l ↔ s.fs.get (l ++ [x]) ≠ none ∨ s.linkAt (l ++ [x]) ≠ none := by
  unfold names
  rw [List.mem_append, mem_linkNames]
  refine or_congr ?_ Iff.rfl
  rw [List.mem_map]
  constructor
  · rintro ⟨⟨y, n⟩, hm, rfl⟩
    rw [Fs.mem_children h.wf] at hm
    rw [hm]; simp
  · intro hne
    obtain ⟨n, hn⟩ := Option.ne_none_iff_exists'.mp hne
    exact ⟨(x, n), (Fs.mem_children h.wf).mpr hn, rfl⟩

theorem names_nodup (h : Tree s) (l : Loc) : (s.names l).Nodup := by
  unfold names
  refine List.nodup_append.mpr ⟨?_, ?_, ?_⟩
  · rw [List.Nodup, List.pairwise_map]; exact children_nodup h.wf l
  · have ho := h.once
    rw [List.Nodup, List.pairwise_map] at ho
    refine ho.filterMap _ ?_
    intro e e' hne x hx y hy heq
    subst heq
    exact hne ((nameIn_iff.mp hx).trans (nameIn_iff.mp hy).symm)
  · intro x hx y hy heq
    subst heq
    rw [mem_linkNames] at hy
    have := h.apart _ hy
    rw [List.mem_map] at hx
    obtain ⟨⟨z, n⟩, hm, rfl⟩ := hx
    rw [Fs.mem_children h.wf] at hm
    rw [hm] at this; simp at this

theorem listed_perm (g : Shows b s fs) (hb : Plain b) {q : List Str} (hq : Plain q) {l : Loc} {n : Nat}
    (hl : s.locate (b ++ q) = .ok (l, n)) (hd : s.fs.get l = some .dir) :
    ((s.names l).filterMap fun x => (s.stat (b ++ q ++ [x])).map fun nd => (x, nd)).Perm (fs.children (b ++ q)) := by
  refine (List.perm_ext_iff_of_nodup ?_ ?_).mpr ?_
  · refine List.Pairwise.filterMap _ ?_ (names_nodup g.tree l)
    intro x y hne a ha a' ha' heq
    subst heq
    rw [Option.map_eq_some_iff] at ha ha'
    obtain ⟨_, _, rfl⟩ := ha
    obtain ⟨_, _, e⟩ := ha'
    exact hne (congrArg Prod.fst e).symm
  · exact (children_nodup g.wf _).imp fun hab e => hab (congrArg Prod.fst e)
  · rintro ⟨x, nd⟩
    rw [Fs.mem_children g.wf, List.mem_filterMap]
    constructor
    · rintro ⟨y, hy, he⟩
      rw [Option.map_eq_some_iff] at he
      obtain ⟨nd', h1, h2⟩ := he
      cases h2
      have hx : Plain (q ++ [x]) := by
        rw [mem_names g.tree] at hy
        exact hq.append (plain_append.mp (g.tree.names _ hy)).2
      rw [List.append_assoc] at h1 ⊢
      rwa [← g.same _ hx]
    · intro hx
      have hpl : Plain (q ++ [x]) := g.names _ (by rw [← List.append_assoc, hx]; simp)
      have hs : s.stat (b ++ q ++ [x]) = some nd := by
        rw [List.append_assoc, g.same _ hpl, ← List.append_assoc]; exact hx
      refine ⟨x, ?_, by rw [hs]; rfl⟩
      rw [mem_names g.tree]
      by_cases hk : s.linkAt (l ++ [x]) = none
      · left
        obtain ⟨l', n', e1, e2⟩ := stat_some hs
        rw [locate_snoc, hl] at e1
        simp only [Outcome.bind_ok] at e1
        rw [walk_one hd (plain_snoc hpl).2 hk] at e1
        cases e1
        rw [e2]; simp
      · exact .inr hk

theorem storeListDir_links (hb : Plain (segs h.base)) (hk : Plain (segs key)) (g : Shows (segs h.base) s fs) :
    ListRel (Links.storeListDir h key s) (Zarr.storeListDir h key fs).1 := by
  obtain ⟨t, ht, hseg⟩ := getPath_loc (h := h) (key := key) (hb.append hk)
  simp only [Links.storeListDir, Zarr.storeListDir, M.read_apply, ht, Outcome.bind_ok, hseg, Hier.loc]
  rcases g.res hb _ hk with ⟨l, n, h1, h2, h3⟩ | ⟨e, h1, h2⟩
  · rw [h1, h2]
    simp only
    rw [← h3]
    cases hg : s.fs.get l with
    | none => exact .err _
    | some nd =>
      cases nd with
      | file c => exact .err _
      | dir => exact .ok ((listed_perm g hb hk h1 hg).filterMap _) ((listed_perm g hb hk h1 hg).filterMap _)
  · rw [h1, h2]
    exact .err e

theorem storeErase_links (hb : Plain (segs h.base)) (hk : Plain (segs key)) (hne : segs key ≠ []) (hD : D (segs key))
    (g : Good true (segs h.base) D s fs) :
    (Links.storeErase h key s).1 = (Zarr.storeErase h key fs).1 ∧
      Good true (segs h.base) D (Links.storeErase h key s).2 (Zarr.storeErase h key fs).2 := by
  obtain ⟨t, ht, hseg⟩ := getPath_loc (h := h) (key := key) (hb.append hk)
  rw [storeErase_spec g.shows.wf (hb.append hk)]
  unfold Links.storeErase
  rw [ht]
  simp only
  rw [hseg, Hier.loc]
  have hap := g.apart rfl _ hD hk hne
  generalize segs h.base = b at *
  clear ht hseg
  generalize segs key = q at *
  obtain ⟨p, x, rfl⟩ := entry_split hne
  have hsame := g.shows.same _ hk
  obtain ⟨hp, hx⟩ := plain_snoc hk
  unfold LFs.pathExists
  rw [hsame]
  cases hg : fs.get (b ++ (p ++ [x])) with
  | none => exact ⟨by simp, g⟩
  | some nd =>
    rw [hg] at hsame
    obtain ⟨l, n, h1, h2⟩ := stat_some hsame
    obtain ⟨r', a1, a2⟩ := locate_dropLast (show s.locate (b ++ p ++ [x]) = _ by rw [List.append_assoc]; exact h1)
    have he : s.locateEntry (b ++ (p ++ [x])) = .ok (r'.1 ++ [x], r'.2) := by
      rw [← List.append_assoc, locateEntry_snoc, a1]
      exact entry_one a2 hx
    have hloc : s.linkAt (r'.1 ++ [x]) = none → l = r'.1 ++ [x] := by
      intro hkn
      rw [← List.append_assoc, locate_snoc, a1] at h1
      simp only [Outcome.bind_ok] at h1
      rw [walk_one a2 hx hkn] at h1
      cases h1; rfl
    simp only [Option.isSome_some, if_true]
    unfold LFs.unlink
    rw [he]
    simp only
    cases nd with
    | dir =>
      cases hkl : s.linkAt (r'.1 ++ [x]) with
      | some k => exact absurd ⟨⟨_, _, he, by rw [hkl]; simp⟩, hsame⟩ hap
      | none =>
        rw [← hloc hkl, h2]
        exact ⟨rfl, g⟩
    | file c =>
      cases hkl : s.linkAt (r'.1 ++ [x]) with
      | some k =>
        have hc := change_unlink g.shows hb (g.single rfl) hk h1 h2 a1 a2 hkl
        simp only
        refine ⟨?_, g.change hb hc⟩
        rw [hc.same g.shows hb _ hk, Fs.get_del, if_pos rfl]
        rfl
      | none =>
        have hc := change_del g.shows hb (g.single rfl) hk h1 h2 a1 hkl
        rw [← hloc hkl, h2]
        simp only
        refine ⟨?_, g.change hb hc⟩
        rw [hc.same g.shows hb _ hk, Fs.get_del, if_pos rfl]
        rfl

theorem storeSet_links (hb : Plain (segs h.base)) (hk : Plain (segs key)) (v : Bytes × Outcome Unit)
    (g : Good true (segs h.base) D s fs) :
    (Links.storeSet h key v s).1 = (Zarr.storeSet h key v fs).1 ∧
      Good true (segs h.base) D (Links.storeSet h key v s).2 (Zarr.storeSet h key v fs).2 := by
  obtain ⟨t, ht, hseg⟩ := getPath_loc (h := h) (key := key) (hb.append hk)
  unfold Links.storeSet Zarr.storeSet
  rw [ht]
  simp only
  rw [hseg, Hier.loc]
  generalize segs h.base = b at *
  generalize segs key = q at *
  -- opening and writing
  have hopen : ∀ (s : LFs) (fs : Fs), Good true b D s fs →
      (match LFs.openCreate (b ++ q) s with
        | .err e => (.err e, s)
        | .panic => (.panic, s)
        | .ok (l, s2) => (v.2, s2.put l (.file v.1)) : Outcome Unit × LFs).1 =
      (match Fs.openCreate (b ++ q) fs with
        | .err e => (.err e, fs)
        | .panic => (.panic, fs)
        | .ok (l, fs2) => (v.2, fs2.put l (.file v.1)) : Outcome Unit × Fs).1 ∧
      Good true b D (match LFs.openCreate (b ++ q) s with
        | .err e => (.err e, s)
        | .panic => (.panic, s)
        | .ok (l, s2) => (v.2, s2.put l (.file v.1)) : Outcome Unit × LFs).2
      (match Fs.openCreate (b ++ q) fs with
        | .err e => (.err e, fs)
        | .panic => (.panic, fs)
        | .ok (l, fs2) => (v.2, fs2.put l (.file v.1)) : Outcome Unit × Fs).2 := by
    intro s fs g
    unfold LFs.openCreate Fs.openCreate
    rcases g.shows.res hb q hk with ⟨l, n, h1, h2, h3⟩ | ⟨e, h1, h2⟩
    · rw [h1, h2]
      simp only
      rw [← h3]
      cases hgl : s.fs.get l with
      | none =>
        have g1 := g.change hb (change_put g.shows hb (g.single rfl) hk h1 (nd := .file []) (by rw [hgl]; simp) (by simp))
        refine ⟨rfl, g1.change hb (change_put g1.shows hb (g1.single rfl) hk
          (locate_put (by rw [hgl]; simp) h1) (nd := .file v.1) ?_ (by simp))⟩
        show (s.fs.put l (.file [])).get l ≠ _
        rw [Fs.get_put, if_pos rfl]; simp
      | some nd =>
        cases nd with
        | dir => exact ⟨rfl, g⟩
        | file c =>
          exact ⟨rfl, g.change hb (change_put g.shows hb (g.single rfl) hk h1 (nd := .file v.1) (by rw [hgl]; simp)
            (by simp))⟩
    · rw [h1, h2]
      exact ⟨rfl, g⟩
  -- making the parent
  have hmk : ∃ o s1 fs1, Good true b D s1 fs1 ∧
      (if (b ++ q).isEmpty ∨ s.pathExists (b ++ q).dropLast then
        (.ok (), s) else LFs.mkdirAll (b ++ q).dropLast s : Outcome Unit × LFs) = (o, s1) ∧
      (if (b ++ q).isEmpty ∨ fs.pathExists (b ++ q).dropLast then
        (.ok (), fs) else Fs.mkdirAll (b ++ q).dropLast fs : Outcome Unit × Fs) = (o, fs1) := by
    by_cases hkn : q = []
    · rw [hkn, List.append_nil]
      by_cases hbn : b = []
      · rw [if_pos (.inl (by simp [hbn])), if_pos (.inl (by simp [hbn]))]
        exact ⟨_, _, _, g, rfl, rfl⟩
      · obtain ⟨c, y, hcy⟩ := entry_split hbn
        have hst : s.stat b = some .dir := by
          have := g.shows.same [] plain_nil
          rwa [List.append_nil, g.shows.base] at this
        obtain ⟨l, n, e1, e2⟩ := stat_some hst
        have hbd := g.shows.base
        have hpl : Plain c := (plain_snoc (hcy ▸ hb)).1
        have hx1 : s.pathExists b.dropLast = true := by
          rw [hcy] at e1 ⊢
          obtain ⟨r', a1, a2⟩ := locate_dropLast e1
          rw [List.dropLast_concat]
          unfold LFs.pathExists
          rw [stat_of a1, a2]; rfl
        have hx2 : fs.pathExists b.dropLast = true := by
          rw [hcy] at hbd ⊢
          rw [List.dropLast_concat]
          unfold Fs.pathExists
          rw [Fs.node_plain g.shows.wf hpl, g.shows.wf.parent _ _ _ hbd]; rfl
        rw [if_pos (.inr hx1), if_pos (.inr hx2)]
        exact ⟨_, _, _, g, rfl, rfl⟩
    · have hne : (b ++ q).isEmpty = false := by simp [hkn]
      rw [List.dropLast_append_of_ne_nil hkn]
      have hk' : Plain q.dropLast := fun hm => hk (List.dropLast_subset _ hm)
      rw [g.shows.pathExists hb hk', hne]
      by_cases hc : false = true ∨ fs.pathExists (b ++ q.dropLast) = true
      · rw [if_pos hc, if_pos hc]; exact ⟨_, _, _, g, rfl, rfl⟩
      · rw [if_neg hc, if_neg hc]
        unfold LFs.mkdirAll Fs.mkdirAll
        obtain ⟨m1, m2⟩ := mkdirAllRev_rel hb q.dropLast g hk'
        exact ⟨_, _, _, m2, rfl, Prod.ext m1.symm rfl⟩
  obtain ⟨o, s1, fs1, hr, e1, e2⟩ := hmk
  rw [e1, e2]
  cases o with
  | err e => exact ⟨rfl, hr⟩
  | panic => exact ⟨rfl, hr⟩
  | ok u => exact hopen s1 fs1 hr

end

/-! ## Programs -/

/-- The program uses ordinary keys and does not depend on the order of listings; it writes only if `w`, erases only keys
in `D`, and does not erase prefixes. -/
def Through {α : Type} (w : Bool) (D : List Str → Prop) : Wide.Prog α → Prop
  | .done _ => True
  | .exists key k => Plain (segs key) ∧ ∀ r, Through w D (k r)
  | .get key k => Plain (segs key) ∧ ∀ r, Through w D (k r)
  | .set key _ k => w = true ∧ Plain (segs key) ∧ ∀ r, Through w D (k r)
  | .erase key k => w = true ∧ Plain (segs key) ∧ segs key ≠ [] ∧ D (segs key) ∧ ∀ r, Through w D (k r)
  | .erasePrefix _ _ => False
  | .listDir key k => Plain (segs key) ∧ (∀ r r', ListRel r r' → k r = k r') ∧ ∀ r, Through w D (k r)

section
variable {α β : Type} {w : Bool} {D : List Str → Prop} {h : Hier} {prune : Str → LFs → Outcome Bool × LFs}

theorem run_links (hb : Plain (segs h.base)) (P : Wide.Prog α) : ∀ {s : LFs} {fs : Fs}, Through w D P →
    Good w (segs h.base) D s fs → (run prune h P s).1 = (P.run h fs).1 ∧
      Good w (segs h.base) D (run prune h P s).2 (P.run h fs).2 ∧ (w = false → (run prune h P s).2 = s) := by
  induction P with
  | done r => intro s fs _ g; exact ⟨rfl, g, fun _ => rfl⟩
  | «exists» key k ih =>
    intro s fs hu g
    simp only [run, Wide.Prog.run]
    rw [storeExists_links hb hu.1 g.shows]
    exact ih _ (hu.2 _) g
  | get key k ih =>
    intro s fs hu g
    simp only [run, Wide.Prog.run]
    rw [storeGet_links hb hu.1 g.shows]
    exact ih _ (hu.2 _) g
  | set key v k ih =>
    intro s fs hu g
    simp only [run, Wide.Prog.run]
    obtain ⟨rfl, hk, hu⟩ := hu
    obtain ⟨h1, h2⟩ := storeSet_links hb hk v g
    rw [h1]
    obtain ⟨i1, i2, _⟩ := ih _ (hu _) h2
    exact ⟨i1, i2, by simp⟩
  | erase key k ih =>
    intro s fs hu g
    simp only [run, Wide.Prog.run]
    obtain ⟨rfl, hk, hne, hD, hu⟩ := hu
    obtain ⟨h1, h2⟩ := storeErase_links hb hk hne hD g
    rw [h1]
    obtain ⟨i1, i2, _⟩ := ih _ (hu _) h2
    exact ⟨i1, i2, by simp⟩
  | erasePrefix key k ih => intro s fs hu; exact hu.elim
  | listDir key k ih =>
    intro s fs hu g
    simp only [run, Wide.Prog.run]
    rw [hu.2.1 _ _ (storeListDir_links hb hu.1 g.shows)]
    exact ih _ (hu.2.2 _) g

theorem through_bind {p : Wide.Prog α} {f : α → Wide.Prog β} (hp : Through w D p) (hf : ∀ a, Through w D (f a)) :
    Through w D (p.bind f) := by
  induction p with
  | done r => cases r <;> first | exact hf _ | trivial
  | erasePrefix key k ih => exact hp.elim
  | listDir key k ih =>
    exact ⟨hp.1, fun r r' h => congrArg (fun q => q.bind f) (hp.2.1 r r' h), fun r => ih r (hp.2.2 r)⟩
  | set key v k ih => exact ⟨hp.1, hp.2.1, fun r => ih r (hp.2.2 r)⟩
  | erase key k ih => exact ⟨hp.1, hp.2.1, hp.2.2.1, hp.2.2.2.1, fun r => ih r (hp.2.2.2.2 r)⟩
  | _ => rename_i ih; exact ⟨hp.1, fun r => ih r (hp.2 r)⟩

theorem through_record {p : Wide.Prog α} {f : Outcome α → β} (hp : Through w D p) : Through w D (p.record f) := by
  induction p with
  | done r => trivial
  | erasePrefix key k ih => exact hp.elim
  | listDir key k ih =>
    exact ⟨hp.1, fun r r' h => congrArg (fun q => q.record f) (hp.2.1 r r' h), fun r => ih r (hp.2.2 r)⟩
  | set key v k ih => exact ⟨hp.1, hp.2.1, fun r => ih r (hp.2.2 r)⟩
  | erase key k ih => exact ⟨hp.1, hp.2.1, hp.2.2.1, hp.2.2.2.1, fun r => ih r (hp.2.2.2.2 r)⟩
  | _ => rename_i ih; exact ⟨hp.1, fun r => ih r (hp.2 r)⟩

theorem through_reads {p : Threads.Prog α} (hp : p.Uses h (fun _ => True) (fun _ => False)) :
    Through w D (Wide.Prog.of p) := by
  induction p with
  | done r => trivial
  | set key v k ih => exact hp.2.1.elim
  | erase key k ih => exact hp.2.1.elim
  | _ => rename_i ih; exact ⟨(plain_append.mp hp.1).2, fun r => ih r (hp.2.2 r)⟩

/-- The program erases nothing. -/
def Keeps : Threads.Prog α → Prop
  | .done _ => True
  | .exists _ k => ∀ r, Keeps (k r)
  | .get _ k => ∀ r, Keeps (k r)
  | .set _ _ k => ∀ r, Keeps (k r)
  | .erase _ _ => False

theorem through_writes {p : Threads.Prog α} (hp : p.Uses h (fun _ => True) (fun _ => True)) (hk : Keeps p) :
    Through true D (Wide.Prog.of p) := by
  induction p with
  | done r => trivial
  | erase key k ih => exact hk.elim
  | set key v k ih => exact ⟨rfl, (plain_append.mp hp.1).2, fun r => ih r (hp.2.2 r) (hk r)⟩
  | _ => rename_i ih; exact ⟨(plain_append.mp hp.1).2, fun r => ih r (hp.2.2 r) (hk r)⟩

theorem keeps_bind {p : Threads.Prog α} {f : α → Threads.Prog β} (hp : Keeps p) (hf : ∀ a, Keeps (f a)) :
    Keeps (p >>= f) := by
  show Keeps (p.bind f)
  induction p with
  | done r => cases r <;> first | exact hf _ | trivial
  | erase key k ih => exact hp.elim
  | _ => rename_i ih; exact fun r => ih r (hp r)

theorem keeps_record {p : Threads.Prog α} {f : Outcome α → β} (hp : Keeps p) : Keeps (p.record f) := by
  induction p with
  | done r => trivial
  | erase key k ih => exact hp.elim
  | _ => rename_i ih; exact fun r => ih r (hp r)

theorem keeps_ite {c : Prop} [Decidable c] {p q : Threads.Prog α} (hp : Keeps p) (hq : Keeps q) :
    Keeps (if c then p else q) := by split <;> assumption

theorem keeps_lift (r : Outcome α) : Keeps (Threads.pLift r) := trivial
theorem keeps_pure (a : α) : Keeps (pure a : Threads.Prog α) := trivial
theorem keeps_exists (key : Str) : Keeps (Threads.pExists key) := fun _ => trivial
theorem keeps_get (key : Str) : Keeps (Threads.pGet key) := fun _ => trivial
theorem keeps_set (key : Str) (v : Bytes × Outcome Unit) : Keeps (Threads.pSet key v) := fun _ => trivial

variable {env : Env} {path : Str} {m : ArrayMetadata}

theorem keeps_createGroup : Keeps (Threads.createGroup env h path) :=
  keeps_bind (keeps_exists _) fun _ => keeps_ite (keeps_lift _) (keeps_bind (keeps_exists _) fun _ =>
    keeps_ite (keeps_pure _) (keeps_set _ _))

theorem keeps_createArray : Keeps (Threads.createArray env h path m) :=
  keeps_bind (keeps_exists _) fun _ => keeps_ite (keeps_lift _) (keeps_bind (keeps_exists _) fun _ =>
    keeps_ite (keeps_lift _) (keeps_set _ _))

theorem keeps_setAttributes {attrs : JsonObject} : Keeps (Threads.setAttributes env h path attrs) :=
  keeps_bind (keeps_bind (keeps_exists _) fun _ => keeps_ite (keeps_pure _) (keeps_bind (keeps_exists _) fun _ =>
      keeps_ite (keeps_pure _) (keeps_lift _))) fun _ =>
    keeps_bind (keeps_get _) fun _ => keeps_bind (keeps_lift _) fun _ => keeps_bind (keeps_lift _) fun _ =>
      keeps_bind (keeps_lift _) fun _ => keeps_ite (keeps_set _ _) (keeps_pure _)

theorem keeps_readChunkInto {t : RsType} {pos : List Nat} {buf : DataChunk t} :
    Keeps (Threads.readChunkInto env path m t pos buf) :=
  keeps_bind (keeps_lift _) fun _ => keeps_bind (keeps_get _) fun v => by
    cases v with
    | none => exact keeps_pure _
    | some b => exact keeps_bind (keeps_lift _) fun _ => keeps_pure _

theorem keeps_writeCoord {t : RsType} {bbox : BBox} {fill : El t} {array : NdArr (El t)} {pos : List Nat}
    {existing : List (El t)} : Keeps (Threads.writeCoord env path m bbox fill array pos existing) := by
  refine keeps_bind (keeps_lift _) fun _ => keeps_bind (keeps_lift _) fun _ => keeps_bind (keeps_lift _) fun _ =>
    keeps_ite ?_ ?_
  · exact keeps_bind (keeps_set _ _) fun _ => keeps_pure _
  · exact keeps_bind keeps_readChunkInto fun r => keeps_bind (keeps_lift _) fun _ => keeps_bind (keeps_lift _) fun _ =>
      keeps_bind (keeps_lift _) fun _ => keeps_bind (keeps_set _ _) fun _ => keeps_pure _

theorem keeps_writeLoop {t : RsType} {bbox : BBox} {fill : El t} {array : NdArr (El t)} (coords : List (List Nat))
    (existing : List (El t)) : Keeps (Threads.writeLoop env path m bbox fill array coords existing) := by
  induction coords generalizing existing with
  | nil => exact keeps_pure _
  | cons pos rest ih => exact keeps_bind keeps_writeCoord fun e => ih e

theorem keeps_writeNdarray {t : RsType} {offset : List Nat} {array : NdArr (El t)} :
    Keeps (Threads.writeNdarray env path m offset array) :=
  keeps_ite (keeps_lift _) (keeps_bind (keeps_lift _) fun _ => keeps_bind (keeps_lift _) fun _ => keeps_writeLoop _ _)

theorem through_listNodes (hp : Plain (segs path)) : Through w D (Wide.listNodes env h path) := by
  obtain ⟨h1, h2, h3⟩ := Wide.keyed_listNodes (h := h) env hp
  exact ⟨h1, h2, fun r => by cases r <;> trivial⟩

variable {md : List Str → ArrayMetadata}

theorem chunkKey_ne_nil (pos : List Nat) : segs (chunkKey path m pos) ≠ [] := by
  rw [segs_chunkKey]; simp

theorem through_call {c : WCall} (hb : Plain (segs h.base)) (hs : GoodSuffix h.entry)
    (hd : '.' ∉ stripDot h.entry.metadataKeySuffix) (hm : ∀ q, GoodSep (md q).separator) (hp : Plain (segs c.path))
    (hw : w = true ∨ Reading c = true) (hr : ∀ p, c ≠ .call (.call (.remove p)))
    (hD : ∀ p pos, c = .call (.call (.deleteChunk p pos)) → D (segs (chunkKey p (md (segs p)) pos))) :
    Through w D (Wide.callProg env h md c) := by
  have ka : ∀ q, Plain (segs q) → Plain (h.loc (arrayMetadataKey h.entry q)) := fun q hq => hb.append (by
    rw [segs_arrayMetadataKey hs hq]; exact plain_extLast_meta hq (by simp))
  have kg : ∀ q, Plain (segs q) → Plain (h.loc (groupMetadataKey h.entry q)) := fun q hq => hb.append (by
    rw [segs_groupMetadataKey hs hq]; exact plain_extLast_meta hq (by simp))
  have ki : ∀ q, Plain (segs q) → Plain (h.loc (setExtension (setExtension (groupMetadataKey h.entry q) []) [])) :=
    fun q hq => hb.append (by
      rw [segs_implicitKey hs hd hq]
      exact Plain.append (a := [str!"meta", str!"root"]) (by decide) hq)
  have kc : ∀ q, Plain (segs q) → ∀ pos, Plain (h.loc (chunkKey q (md (segs q)) pos)) := fun q hq pos =>
    hb.append (plain_segs_chunkKey hq (hm _) pos)
  have rd : ∀ {P : Threads.Prog HResult}, P.Uses h (fun _ => True) (fun _ => False) →
      Through w D ((Wide.Prog.of P).bind fun r => .done (.ok (WResult.plain (.plain r)))) :=
    fun hp => through_bind (through_reads hp) fun _ => trivial
  have wr : ∀ {P : Threads.Prog HResult}, w = true → P.Uses h (fun _ => True) (fun _ => True) → Keeps P →
      Through w D ((Wide.Prog.of P).bind fun r => .done (.ok (WResult.plain (.plain r)))) := by
    rintro P rfl hp hk
    exact through_bind (through_writes hp hk) fun _ => trivial
  have wt : Reading c = false → w = true := fun e => hw.resolve_right (by rw [e]; simp)
  cases c with
  | listNodes p => exact through_record (through_listNodes hp)
  | call c =>
    cases c with
    | readBox p t b =>
      exact through_record (through_reads (Threads.uses_readNdarray (kc p hp) fun _ _ _ _ => .inl trivial))
    | writeBox p t o a =>
      have := wt rfl
      subst this
      exact through_record (through_writes (Threads.uses_writeNdarray (kc p hp) fun _ _ _ _ => trivial) keeps_writeNdarray)
    | call c =>
      cases c with
      | remove p => exact absurd rfl (hr p)
      | createGroup p =>
        exact wr (wt rfl) (Threads.uses_createGroup (ka p hp) (kg p hp) (.inl trivial) (.inl trivial) trivial).record
          (keeps_record keeps_createGroup)
      | createArray p m =>
        exact wr (wt rfl) (Threads.uses_createArray (ka p hp) (kg p hp) (.inl trivial) (.inl trivial) m trivial).record
          (keeps_record keeps_createArray)
      | setAttributes p b =>
        exact wr (wt rfl)
          (Threads.uses_setAttributes (ka p hp) (kg p hp) (.inl trivial) (.inl trivial) b trivial trivial).record
          (keeps_record keeps_setAttributes)
      | nodeExists p =>
        exact rd (Threads.uses_nodeExists (ka p hp) (kg p hp) (.inl trivial) (.inl trivial) (ki p hp) trivial).record
      | arrayExists p =>
        exact rd (Threads.uses_arrayExists (ka p hp) (kg p hp) (.inl trivial) (.inl trivial) (ki p hp) trivial).record
      | getArrayMetadata p => exact rd (Threads.uses_getArrayMetadata (ka p hp) (.inl trivial)).record
      | listAttributes p =>
        exact rd (Threads.uses_listAttributes (ka p hp) (kg p hp) (.inl trivial) (.inl trivial)).record
      | writeChunk p t c =>
        exact wr (wt rfl) (Threads.Prog.Uses.record (Threads.uses_set (kc p hp _) trivial)) (keeps_record (keeps_set _ _))
      | deleteChunk p pos =>
        exact ⟨wt rfl, (plain_append.mp (kc p hp pos)).2, chunkKey_ne_nil _, hD p pos rfl, fun _ => trivial⟩
      | readChunk p t pos => exact rd (Threads.uses_readChunk (kc p hp _) (.inl trivial)).record

end

end Zarr.Links
