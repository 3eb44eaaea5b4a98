import Verif.Lemmas.LinkedCalls
import Verif.Model.LinkWalk
/-! An entry of a filesystem with symbolic links is removed: a file, a link or an empty directory. -/

namespace Zarr.Links

open LFs _root_.Zarr.Spec

/-- A path that goes up and then down. -/
def Spec.Straight (p : List Str) : Prop := ∃ n r, p = List.replicate n dotdot ++ r ∧ Plain r

/-- No symbolic link goes up after it has gone down. -/
def Spec.StraightLinks (s : LFs) : Prop := ∀ e ∈ s.links, Spec.Straight e.2.path

open _root_.Zarr.Links.Spec

variable {b : Loc} {s s' : LFs} {fs fs' : Fs}

theorem straight_of_plain {p : List Str} (h : Plain p) : Straight p := ⟨0, p, by simp, h⟩

theorem straight_append {p q : List Str} (h : Straight p) (hq : Plain q) : Straight (p ++ q) := by
  obtain ⟨n, r, rfl, hr⟩ := h
  exact ⟨n, r ++ q, by rw [List.append_assoc], hr.append hq⟩

/-- After a step down there are only steps down. -/
theorem straight_cons {x : Str} {p : List Str} (h : Straight (x :: p)) : Straight p ∧ (x ≠ dotdot → Plain p) := by
  obtain ⟨n, r, e, hr⟩ := h
  cases n with
  | zero =>
    simp only [List.replicate_zero, List.nil_append] at e
    subst e
    have : Plain p := fun h => hr (List.mem_cons_of_mem _ h)
    exact ⟨straight_of_plain this, fun _ => this⟩
  | succ n =>
    rw [List.replicate_succ, List.cons_append] at e
    cases e
    exact ⟨⟨n, r, rfl, hr⟩, fun h => absurd rfl h⟩

theorem straight_linkAt (h : StraightLinks s) {l : Loc} {k : Link} (hk : s.linkAt l = some k) : Straight k.path := by
  unfold linkAt at hk
  cases hf : s.links.find? (fun e => decide (e.1 = l)) with
  | none => rw [hf] at hk; simp at hk
  | some e =>
    rw [hf] at hk
    simp only [Option.map_some, Option.some.injEq] at hk
    have := h e (List.mem_of_find?_eq_some hf)
    rw [hk] at this
    exact this

theorem prefix_dropLast {e cur : Loc} (h : e <+: cur.dropLast) : e <+: cur := h.trans (List.dropLast_prefix cur)

theorem prefix_snoc {e cur : Loc} {x : Str} (h : e <+: cur ++ [x]) : e <+: cur ∨ e = cur ++ [x] := by
  rcases List.prefix_concat_iff.mp h with h | h
  · exact .inr h
  · exact .inl h

/-- A resolution that succeeds still does when an entry is removed, unless it comes through the entry. -/
theorem walk_cut {c : Loc} {y : Str} (hst : StraightLinks s)
    (hget : ∀ l, l ≠ c ++ [y] → s'.fs.get l = s.fs.get l)
    (hlk : ∀ l, l ≠ c ++ [y] → s'.linkAt l = s.linkAt l) (n : Nat) :
    ∀ (p : List Str) (cur : Loc) {r : Loc × Nat}, Straight p → ¬ c ++ [y] <+: cur → s.walk true n cur p = .ok r →
      s'.walk true n cur p = .ok r ∨ ∃ n' q, Plain q ∧ s.walk true n' c (y :: q) = .ok r := by
  induction n using Nat.strongRecOn with
  | ind n ihn =>
    intro p
    induction p with
    | nil => intro cur r _ _ h; rw [walk_nil] at h ⊢; exact .inl h
    | cons x p ih =>
      intro cur r hp hcur h
      have h0 := h
      obtain ⟨hp1, hp2⟩ := straight_cons hp
      rw [walk_cons] at h ⊢
      have hne : cur ≠ c ++ [y] := by rintro rfl; exact hcur List.prefix_rfl
      rw [hget cur hne]
      cases hg : s.fs.get cur with
      | none => rw [hg] at h; simp at h
      | some nd =>
        rw [hg] at h
        cases nd with
        | file b => simp at h
        | dir =>
          dsimp only at h ⊢
          by_cases hx : x = dotdot
          · rw [if_pos hx] at h ⊢
            exact ih _ hp1 (fun h => hcur (prefix_dropLast h)) h
          · rw [if_neg hx] at h ⊢
            by_cases he : cur ++ [x] = c ++ [y]
            · right
              obtain ⟨e1, e2⟩ := List.append_inj' he rfl
              cases e2
              subst e1
              exact ⟨n, p, hp2 hx, h0⟩
            · rw [hlk _ he]
              cases hk : s.linkAt (cur ++ [x]) with
              | none =>
                rw [hk] at h
                refine ih _ hp1 ?_ h
                intro hpre
                rcases prefix_snoc hpre with h | h
                · exact hcur h
                · exact he h.symm
              | some k =>
                rw [hk] at h
                dsimp only at h ⊢
                rw [if_neg (by simp)] at h ⊢
                cases n with
                | zero => simp [LFs.jump] at h
                | succ n =>
                  refine ihn n (by omega) _ _ (straight_append (straight_linkAt hst hk) (hp2 hx)) ?_ h
                  split
                  · intro h; simp at h
                  · exact hcur

/-- Whether a path leads somewhere depends on how many links may be followed only in that there may be too many. -/
theorem walk_budget_ok (s : LFs) {fo : Bool} (n : Nat) :
    ∀ (n' : Nat) (p : List Str) (cur : Loc) {r : Loc × Nat} {e : ErrKind}, s.walk fo n cur p = .ok r →
      s.walk fo n' cur p = .err e → e = .other := by
  induction n using Nat.strongRecOn with
  | ind n ihn =>
    intro n' p
    induction p with
    | nil =>
      intro cur r e h h'
      rw [walk_nil] at h'
      simp at h'
    | cons x p ih =>
      intro cur r e h h'
      rw [walk_cons] at h h'
      cases hg : s.fs.get cur with
      | none => rw [hg] at h; simp at h
      | some nd =>
        rw [hg] at h h'
        cases nd with
        | file b => simp at h
        | dir =>
          dsimp only at h h'
          by_cases hx : x = dotdot
          · rw [if_pos hx] at h h'; exact ih _ h h'
          · rw [if_neg hx] at h h'
            cases hl : s.linkAt (cur ++ [x]) with
            | none => rw [hl] at h h'; exact ih _ h h'
            | some k =>
              rw [hl] at h h'
              dsimp only at h h'
              by_cases hc : p = [] ∧ fo = false
              · rw [if_pos hc] at h'; simp at h'
              · rw [if_neg hc] at h h'
                cases n with
                | zero => simp [LFs.jump] at h
                | succ n =>
                  cases n' with
                  | zero => simp only [LFs.jump, Outcome.err.injEq] at h'; exact h'.symm
                  | succ n' => exact ihn n (by omega) n' _ _ h h'

theorem fs_walk_err (fs : Fs) : ∀ (p : List Str) (cur : Loc) {e : ErrKind}, fs.walk cur p = .err e → e ≠ .other := by
  intro p
  induction p with
  | nil => intro cur e h; simp [Fs.walk] at h
  | cons x p ih =>
    intro cur e h
    simp only [Fs.walk] at h
    cases hg : fs.get cur with
    | none => rw [hg] at h; simp only [Outcome.err.injEq] at h; rw [← h]; simp
    | some nd =>
      rw [hg] at h
      cases nd with
      | file c => simp only [Outcome.err.injEq] at h; rw [← h]; simp
      | dir =>
        dsimp only at h
        split at h <;> exact ih _ h

/-! ## The entry at a path is removed -/

/-- The entry `x` of the directory at path `p` has been removed. -/
structure Cut (b : Loc) (s s' : LFs) (p : List Str) (x : Str) (c : Loc) : Prop where
  tree : Tree s'
  straight : StraightLinks s
  plain : Plain (p ++ [x])
  at_ : ∃ n, s.locate (b ++ p) = .ok (c, n)
  dir : s.fs.get c = some .dir
  get : ∀ l, l ≠ c ++ [x] → s'.fs.get l = s.fs.get l
  linkAt : ∀ l, l ≠ c ++ [x] → s'.linkAt l = s.linkAt l
  noNode : s'.fs.get (c ++ [x]) = none
  noLink : s'.linkAt (c ++ [x]) = none

theorem Cut.other {p : List Str} {x : Str} {c : Loc} (k : Cut b s s' p x c) (h : Shows b s fs) (hb : Plain b)
    (h1 : Single b s) {q : List Str} (hq : Plain q) (hne : ¬ p ++ [x] <+: q) {r : Loc × Nat}
    (hr : s.locate (b ++ q) = .ok r) : s'.locate (b ++ q) = .ok r ∧ s'.fs.get r.1 = s.fs.get r.1 := by
  obtain ⟨n, hp⟩ := k.at_
  obtain ⟨hpp, hx⟩ := plain_snoc k.plain
  have hthrough : ∀ n' t, Plain t → s.walk true n' c (x :: t) = .ok r → False := by
    intro n' t ht hw
    have hpl : Plain (p ++ [x] ++ t) := k.plain.append ht
    have hl : s.locate (b ++ (p ++ [x] ++ t)) = s.walk true n c (x :: t) := by
      have : b ++ (p ++ [x] ++ t) = (b ++ p) ++ (x :: t) := by simp
      rw [this]
      refine (walk_append s (.inr rfl) _ _ _).trans ?_
      have hp : s.walk true 40 [] (b ++ p) = .ok (c, n) := hp
      rw [hp]; rfl
    rcases h.res hb _ hpl with ⟨l2, n2, a1, _, _⟩ | ⟨e, a1, a2⟩
    · have e := walk_budget s _ _ _ _ hw (hl.symm.trans a1)
      simp only at e
      obtain ⟨r1, r2⟩ := r
      simp only at e
      subst e
      have := single_any h hb h1 hq hpl hr a1
      exact hne (this ▸ List.prefix_append _ _)
    · have := walk_budget_ok s _ _ _ _ hw (hl.symm.trans a1)
      exact fs_walk_err _ _ _ a2 this
  constructor
  · rcases walk_cut (s' := s') k.straight k.get k.linkAt _ _ _ (straight_of_plain (hb.append hq)) (by simp) hr with h' | ⟨n', t, ht, hw⟩
    · exact h'
    · exact (hthrough n' t ht hw).elim
  · by_cases he : r.1 = c ++ [x]
    · by_cases hk : s.linkAt (c ++ [x]) = none
      · exfalso
        have hl : s.locate (b ++ (p ++ [x])) = .ok (c ++ [x], n) := by
          rw [← List.append_assoc, locate_snoc, hp]
          exact walk_one k.dir hx hk true
        obtain ⟨r1, r2⟩ := r
        simp only at he
        subst he
        have := single_any h hb h1 hq k.plain hr hl
        exact hne (this ▸ List.prefix_rfl)
      · rw [he, k.noNode, h.tree.apart _ hk]
    · exact k.get _ he

theorem stat_snoc_none {p : List Str} {x : Str} (h : s.stat p = none) : s.stat (p ++ [x]) = none := by
  unfold stat at h ⊢
  rw [locate_snoc]
  cases hl : s.locate p with
  | err e => rfl
  | panic => rfl
  | ok r =>
    rw [hl] at h
    simp only [Outcome.bind_ok]
    rw [walk_one_none h]

theorem stat_append_none {p : List Str} (h : s.stat p = none) (t : List Str) : s.stat (p ++ t) = none := by
  induction t using Fs.list_concat_induction with
  | h0 => rw [List.append_nil]; exact h
  | h1 t x ih => rw [← List.append_assoc]; exact stat_snoc_none ih

section
variable {p : List Str} {x : Str} {c : Loc}

theorem not_prefix_self (p : List Str) (x : Str) : ¬ p ++ [x] <+: p := by
  intro h
  have := h.length_le
  simp at this
  omega

theorem Cut.parent (k : Cut b s s' p x c) (h : Shows b s fs) (hb : Plain b) (h1 : Single b s) :
    ∃ n, s'.locate (b ++ p) = .ok (c, n) ∧ s'.fs.get c = some .dir := by
  obtain ⟨n, hp⟩ := k.at_
  obtain ⟨a1, a2⟩ := k.other h hb h1 (plain_snoc k.plain).1 (not_prefix_self p x) hp
  exact ⟨n, a1, a2.trans k.dir⟩

/-- There is nothing at the path any more. -/
theorem Cut.below (k : Cut b s s' p x c) (h : Shows b s fs) (hb : Plain b) (h1 : Single b s) {q : List Str}
    (hq : p ++ [x] <+: q) : s'.stat (b ++ q) = none := by
  obtain ⟨n, a1, a2⟩ := k.parent h hb h1
  obtain ⟨t, rfl⟩ := hq
  rw [← List.append_assoc]
  refine stat_append_none ?_ t
  rw [← List.append_assoc]
  unfold stat
  rw [locate_snoc, a1]
  simp only [Outcome.bind_ok]
  rw [walk_one a2 (plain_snoc k.plain).2 k.noLink]
  exact k.noNode

theorem Cut.leadsNowhere (k : Cut b s s' p x c) (h : Shows b s fs) (hb : Plain b) (h1 : Single b s) (q : List Str)
    (hq : Plain q) (hne : ¬ p ++ [x] <+: q) {e : ErrKind} (he : s.locate (b ++ q) = .err e) : s'.stat (b ++ q) = none := by
  induction q using Fs.list_concat_induction generalizing e with
  | h0 =>
    obtain ⟨l, n, h1, _⟩ := stat_some ((h.same [] plain_nil).trans (by rw [List.append_nil]; exact h.base))
    rw [h1] at he; simp at he
  | h1 p' x' ih =>
    obtain ⟨hp, hx⟩ := plain_snoc hq
    have hpne : ¬ p ++ [x] <+: p' := fun hc => hne (hc.trans (List.prefix_append _ _))
    rw [← List.append_assoc] at he ⊢
    cases hl : s.locate (b ++ p') with
    | panic => exact absurd hl (walk_ne_panic _ _ _ _)
    | err e' => exact stat_snoc_none (ih hp hpne hl)
    | ok r =>
      obtain ⟨a1, a2⟩ := k.other h hb h1 hp hpne hl
      rw [locate_snoc, hl] at he
      simp only [Outcome.bind_ok] at he
      unfold stat
      rw [locate_snoc, a1]
      simp only [Outcome.bind_ok]
      cases hg : s.fs.get r.1 with
      | none => rw [walk_one_none (a2.trans hg)]
      | some nd =>
        cases nd with
        | file c => rw [walk_one_file (a2.trans hg)]
        | dir =>
          exfalso
          cases hk : s.linkAt (r.1 ++ [x']) with
          | none => rw [walk_one hg hx hk] at he; simp at he
          | some k =>
            have := h.whole p' hp r.1 r.2 x' hl hg (by rw [hk]; simp)
            obtain ⟨nd, hnd⟩ := Option.ne_none_iff_exists'.mp this
            obtain ⟨l', n', e1, _⟩ := stat_some hnd
            rw [locate_snoc, hl] at e1
            simp only [Outcome.bind_ok] at e1
            rw [he] at e1; simp at e1

theorem Cut.same (k : Cut b s s' p x c) (h : Shows b s fs) (hb : Plain b) (h1 : Single b s) (q : List Str)
    (hq : Plain q) : s'.stat (b ++ q) = if p ++ [x] <+: q then none else s.stat (b ++ q) := by
  split
  · exact k.below h hb h1 ‹_›
  · rename_i hne
    cases hl : s.locate (b ++ q) with
    | panic => exact absurd hl (walk_ne_panic _ _ _ _)
    | err e =>
      rw [k.leadsNowhere h hb h1 q hq hne hl]
      unfold stat; rw [hl]
    | ok r =>
      obtain ⟨a1, a2⟩ := k.other h hb h1 hq hne hl
      rw [stat_of a1, stat_of hl, a2]

/-- Where something is after the removal, it was before. -/
theorem Cut.back (k : Cut b s s' p x c) (h : Shows b s fs) (hb : Plain b) (h1 : Single b s) {q : List Str} (hq : Plain q)
    {r : Loc × Nat} (hl : s'.locate (b ++ q) = .ok r) (hg : s'.fs.get r.1 ≠ none) :
    ¬ p ++ [x] <+: q ∧ s.locate (b ++ q) = .ok r ∧ s.fs.get r.1 = s'.fs.get r.1 := by
  have hne : ¬ p ++ [x] <+: q := fun hc => hg ((stat_of hl).symm.trans (k.below h hb h1 hc))
  refine ⟨hne, ?_⟩
  cases hs : s.locate (b ++ q) with
  | panic => exact absurd hs (walk_ne_panic _ _ _ _)
  | err e => exact absurd ((stat_of hl).symm.trans (k.leadsNowhere h hb h1 q hq hne hs)) hg
  | ok r' =>
    obtain ⟨a1, a2⟩ := k.other h hb h1 hq hne hs
    rw [hl] at a1
    cases a1
    exact ⟨rfl, a2.symm⟩

theorem Cut.links (k : Cut b s s' p x c) {l : Loc} (hl : s'.linkAt l ≠ none) : l ≠ c ++ [x] ∧ s'.linkAt l = s.linkAt l := by
  have : l ≠ c ++ [x] := by rintro rfl; exact hl k.noLink
  exact ⟨this, k.linkAt l this⟩

theorem Cut.shows (k : Cut b s s' p x c) (h : Shows b s fs) (hb : Plain b) (h1 : Single b s) (hwf : fs'.WF)
    (hget : ∀ l, fs'.get l = if b ++ (p ++ [x]) <+: l then none else fs.get l) : Shows b s' fs' where
  tree := k.tree
  wf := hwf
  names q hq := by
    rw [hget] at hq
    split at hq
    · simp at hq
    · exact h.names q hq
  base := by
    rw [hget, if_neg]
    · exact h.base
    · intro e
      have := e.length_le
      simp at this
      omega
  same q hq := by
    rw [k.same h hb h1 q hq, hget, h.same q hq]
    simp only [List.prefix_append_right_inj]
  whole q hq l n z hl hd hk := by
    obtain ⟨hne, a1, a2⟩ := k.back h hb h1 hq hl (by rw [hd]; simp)
    obtain ⟨b1, b2⟩ := k.links hk
    have hz : Plain (q ++ [z]) := hq.append ((plain_append.mp (k.tree.names _ (.inr hk))).2)
    have := h.whole q hq l n z a1 (a2.trans hd) (b2 ▸ hk)
    rw [List.append_assoc] at this ⊢
    rw [k.same h hb h1 _ hz, if_neg]
    · exact this
    · intro hc
      rcases prefix_snoc hc with hc | hc
      · exact hne hc
      · obtain ⟨e1, e2⟩ := List.append_inj' hc rfl
        cases e2
        subst e1
        obtain ⟨m, hm⟩ := k.at_
        rw [a1] at hm
        cases hm
        exact b1 rfl

theorem Cut.single (k : Cut b s s' p x c) (h : Shows b s fs) (hb : Plain b) (h1 : Single b s) : Single b s' := by
  intro q q' hq hq' l n n' e e' hg
  obtain ⟨_, b1, b2⟩ := k.back h hb h1 hq e hg
  obtain ⟨_, c1, _⟩ := k.back h hb h1 hq' e' hg
  exact h1 q q' hq hq' l n n' b1 c1 (by rw [b2]; exact hg)

theorem Cut.linkToDir (k : Cut b s s' p x c) (h : Shows b s fs) (hb : Plain b) (h1 : Single b s) (hwf : fs'.WF)
    (hget : ∀ l, fs'.get l = if b ++ (p ++ [x]) <+: l then none else fs.get l) {q : List Str} (hq : Plain q)
    (hl : LinkToDir s' (b ++ q)) (hne : q ≠ []) : LinkToDir s (b ++ q) := by
  obtain ⟨⟨l, n, a1, a2⟩, a3⟩ := hl
  obtain ⟨p', x', rfl⟩ := entry_split hne
  obtain ⟨hp, hx⟩ := plain_snoc hq
  have hs := k.same h hb h1 _ hq
  rw [a3] at hs
  have hout : ¬ p ++ [x] <+: p' ++ [x'] := by
    intro hc
    rw [if_pos hc] at hs; simp at hs
  rw [if_neg hout] at hs
  rw [← List.append_assoc] at a1 a3 hs ⊢
  obtain ⟨l1, n1, e1, e2⟩ := stat_some a3
  obtain ⟨l2, n2, b1, b2, _⟩ := (k.shows h hb h1 hwf hget).parent hb hq e1
  rw [locateEntry_snoc, b1] at a1
  simp only [Outcome.bind_ok] at a1
  rw [entry_one b2 hx] at a1
  cases a1
  obtain ⟨_, d1, d2⟩ := k.back h hb h1 hp b1 (by rw [b2]; simp)
  refine ⟨⟨l2 ++ [x'], n, ?_, (k.links a2).2 ▸ a2⟩, hs.symm⟩
  rw [locateEntry_snoc, d1]
  simp only [Outcome.bind_ok]
  exact entry_one (d2.trans b2) hx

end

end Zarr.Links
