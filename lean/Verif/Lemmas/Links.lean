import Verif.Model.Links
import Verif.Lemmas.Moved
/-! Path resolution with symbolic links. -/

namespace Zarr.Links

open LFs

/-- Go on at the target of a link. -/
def LFs.jump (s : LFs) (follow : Bool) (n : Nat) (cur : Loc) (p : List Str) : Outcome (Loc × Nat) :=
  match n with
  | 0 => .err .other
  | n + 1 => s.walk follow n cur p

variable {s s' : LFs} {fo : Bool} {n : Nat} {cur : Loc}

theorem walk_nil (s : LFs) (fo : Bool) (n : Nat) (cur : Loc) : s.walk fo n cur [] = .ok (cur, n) := by
  cases n <;> rfl

theorem walk_cons (s : LFs) (fo : Bool) (n : Nat) (cur : Loc) (x : Str) (xs : List Str) :
    s.walk fo n cur (x :: xs) =
      match s.fs.get cur with
      | none => .err .notFound
      | some (.file _) => .err .notADirectory
      | some .dir =>
        if x = dotdot then s.walk fo n cur.dropLast xs
        else
          match s.linkAt (cur ++ [x]) with
          | none => s.walk fo n (cur ++ [x]) xs
          | some k =>
            if xs = [] ∧ fo = false then .ok (cur ++ [x], n)
            else s.jump fo n (if k.absolute then [] else cur) (k.path ++ xs) := by
  cases n <;> rfl

/-- A path is resolved one part after the other. -/
theorem walk_append (s : LFs) {fo : Bool} {q : List Str} (hq : q ≠ [] ∨ fo = true) (n : Nat) :
    ∀ (p : List Str) (cur : Loc), s.walk fo n cur (p ++ q) = s.walk true n cur p >>= fun r => s.walk fo r.2 r.1 q := by
  induction n using Nat.strongRecOn with
  | ind n ihn =>
    intro p
    induction p with
    | nil => intro cur; rw [walk_nil]; rfl
    | cons x p ih =>
      intro cur
      rw [List.cons_append, walk_cons, walk_cons]
      cases hg : s.fs.get cur with
      | none => rfl
      | some nd =>
        cases nd with
        | file b => rfl
        | dir =>
          dsimp only
          by_cases hx : x = dotdot
          · rw [if_pos hx, if_pos hx]; exact ih _
          · rw [if_neg hx, if_neg hx]
            cases hl : s.linkAt (cur ++ [x]) with
            | none => exact ih _
            | some k =>
              dsimp only
              rw [if_neg (by
                rintro ⟨h1, h2⟩
                rcases hq with hq | hq
                · exact hq (List.append_eq_nil_iff.mp h1).2
                · rw [hq] at h2; simp at h2), if_neg (show ¬(p = [] ∧ true = false) by simp)]
              rw [← List.append_assoc]
              cases n with
              | zero => rfl
              | succ n => exact ihn n (by omega) _ _

/-- The location does not depend on how many links may be followed. -/
theorem walk_budget (s : LFs) {fo : Bool} (n : Nat) :
    ∀ (n' : Nat) (p : List Str) (cur : Loc) {r r' : Loc × Nat}, s.walk fo n cur p = .ok r → s.walk fo n' cur p = .ok r' →
      r.1 = r'.1 := by
  induction n using Nat.strongRecOn with
  | ind n ihn =>
    intro n' p
    induction p with
    | nil =>
      intro cur r r' h h'
      rw [walk_nil] at h h'
      cases h; cases h'; rfl
    | cons x p ih =>
      intro cur r r' h h'
      rw [walk_cons] at h h'
      cases hg : s.fs.get cur with
      | none => rw [hg] at h; simp at h
      | some nd =>
        rw [hg] at h h'
        cases nd with
        | file b => simp at h
        | dir =>
          dsimp only at h h'
          by_cases hx : x = dotdot
          · rw [if_pos hx] at h h'; exact ih _ h h'
          · rw [if_neg hx] at h h'
            cases hl : s.linkAt (cur ++ [x]) with
            | none => rw [hl] at h h'; exact ih _ h h'
            | some k =>
              rw [hl] at h h'
              dsimp only at h h'
              by_cases hc : p = [] ∧ fo = false
              · rw [if_pos hc] at h h'; cases h; cases h'; rfl
              · rw [if_neg hc] at h h'
                cases n with
                | zero => simp [LFs.jump] at h
                | succ n =>
                  cases n' with
                  | zero => simp [LFs.jump] at h'
                  | succ n' => exact ihn n (by omega) n' _ _ h h'

theorem walk_ne_panic (s : LFs) {fo : Bool} (n : Nat) : ∀ (p : List Str) (cur : Loc), s.walk fo n cur p ≠ .panic := by
  induction n using Nat.strongRecOn with
  | ind n ihn =>
    intro p
    induction p with
    | nil => intro cur; rw [walk_nil]; simp
    | cons x p ih =>
      intro cur
      rw [walk_cons]
      cases hg : s.fs.get cur with
      | none => simp
      | some nd =>
        cases nd with
        | file b => simp
        | dir =>
          dsimp only
          by_cases hx : x = dotdot
          · rw [if_pos hx]; exact ih _
          · rw [if_neg hx]
            cases hl : s.linkAt (cur ++ [x]) with
            | none => exact ih _
            | some k =>
              dsimp only
              by_cases hc : p = [] ∧ fo = false
              · rw [if_pos hc]; simp
              · rw [if_neg hc]
                cases n with
                | zero => simp [LFs.jump]
                | succ n => exact ihn n (by omega) _ _

/-- A resolution that succeeds still does, and with the same result, where all directories and links still are. -/
theorem walk_mono (hd : ∀ l, s.fs.get l = some .dir → s'.fs.get l = some .dir)
    (hl : ∀ l, s'.linkAt l = s.linkAt l) (n : Nat) :
    ∀ (p : List Str) (cur : Loc) {r : Loc × Nat}, s.walk fo n cur p = .ok r → s'.walk fo n cur p = .ok r := by
  induction n using Nat.strongRecOn with
  | ind n ihn =>
    intro p
    induction p with
    | nil => intro cur r h; rw [walk_nil] at h ⊢; exact h
    | cons x p ih =>
      intro cur r h
      rw [walk_cons] at h ⊢
      cases hg : s.fs.get cur with
      | none => rw [hg] at h; simp at h
      | some nd =>
        rw [hg] at h
        cases nd with
        | file b => simp at h
        | dir =>
          rw [hd _ hg]
          dsimp only at h ⊢
          by_cases hx : x = dotdot
          · rw [if_pos hx] at h ⊢; exact ih _ h
          · rw [if_neg hx] at h ⊢
            rw [hl]
            cases hk : s.linkAt (cur ++ [x]) with
            | none => rw [hk] at h; exact ih _ h
            | some k =>
              rw [hk] at h
              dsimp only at h ⊢
              by_cases hc : p = [] ∧ fo = false
              · rw [if_pos hc] at h ⊢; exact h
              · rw [if_neg hc] at h ⊢
                cases n with
                | zero => simp [LFs.jump] at h
                | succ n => exact ihn n (by omega) _ _ h

/-- A resolution that succeeds still does when a link that leads to a file is removed, unless it leads to that
file. -/
theorem walk_unlink {c : Loc} {y : Str} {k0 : Link} {l0 : Loc} {m0 m1 : Nat} {b0 : Bytes}
    (hfs : s'.fs = s.fs) (hl : ∀ l, l ≠ c ++ [y] → s'.linkAt l = s.linkAt l)
    (hk0 : s.linkAt (c ++ [y]) = some k0)
    (hw0 : s.walk true m0 (if k0.absolute then [] else c) k0.path = .ok (l0, m1))
    (hf0 : s.fs.get l0 = some (.file b0)) (n : Nat) :
    ∀ (p : List Str) (cur : Loc) {r : Loc × Nat}, s.walk true n cur p = .ok r →
      s'.walk true n cur p = .ok r ∨ r.1 = l0 := by
  induction n using Nat.strongRecOn with
  | ind n ihn =>
    intro p
    induction p with
    | nil => intro cur r h; rw [walk_nil] at h ⊢; exact .inl h
    | cons x p ih =>
      intro cur r h
      rw [walk_cons] at h ⊢
      rw [hfs]
      cases hg : s.fs.get cur with
      | none => rw [hg] at h; simp at h
      | some nd =>
        rw [hg] at h
        cases nd with
        | file b => simp at h
        | dir =>
          dsimp only at h ⊢
          by_cases hx : x = dotdot
          · rw [if_pos hx] at h ⊢; exact ih _ h
          · rw [if_neg hx] at h ⊢
            by_cases he : cur ++ [x] = c ++ [y]
            · right
              obtain ⟨e1, e2⟩ := List.append_inj' he rfl
              subst e1
              rw [he, hk0] at h
              dsimp only at h
              rw [if_neg (by simp)] at h
              cases n with
              | zero => simp [LFs.jump] at h
              | succ n =>
                simp only [LFs.jump] at h
                rw [walk_append s (.inr rfl)] at h
                cases hr : s.walk true n (if k0.absolute = true then [] else cur) k0.path with
                | err e => rw [hr] at h; simp at h
                | panic => rw [hr] at h; simp at h
                | ok r1 =>
                  rw [hr] at h
                  have e := walk_budget s _ _ _ _ hr hw0
                  simp only at e
                  simp only [Outcome.bind_ok] at h
                  cases p with
                  | nil => rw [walk_nil] at h; cases h; exact e
                  | cons z p =>
                    rw [walk_cons, e, hf0] at h
                    simp at h
            · rw [hl _ he]
              cases hk : s.linkAt (cur ++ [x]) with
              | none => rw [hk] at h; exact ih _ h
              | some k =>
                rw [hk] at h
                dsimp only at h ⊢
                rw [if_neg (by simp)] at h ⊢
                cases n with
                | zero => simp [LFs.jump] at h
                | succ n => exact ihn n (by omega) _ _ h

theorem linkAt_filter (s : LFs) (l0 l : Loc) :
    ({ s with links := s.links.filter fun e => decide (e.1 ≠ l0) } : LFs).linkAt l =
      if l = l0 then none else s.linkAt l := by
  unfold linkAt
  simp only
  generalize s.links = ks
  induction ks with
  | nil => simp
  | cons e ks ih =>
    by_cases h1 : e.1 = l0
    · have : (e :: ks).filter (fun e => decide (e.1 ≠ l0)) = ks.filter fun e => decide (e.1 ≠ l0) := by
        rw [List.filter_cons_of_neg]; simpa using h1
      rw [this, ih]
      by_cases h2 : l = l0
      · rw [if_pos h2, if_pos h2]
      · rw [if_neg h2, if_neg h2, List.find?_cons_of_neg]
        simp only [decide_eq_true_eq]
        intro h; exact h2 (h.symm.trans h1)
    · have : (e :: ks).filter (fun e => decide (e.1 ≠ l0)) = e :: ks.filter fun e => decide (e.1 ≠ l0) := by
        rw [List.filter_cons_of_pos]; simpa using h1
      rw [this]
      by_cases h2 : e.1 = l
      · rw [List.find?_cons_of_pos (by simpa using h2), List.find?_cons_of_pos (by simpa using h2), if_neg (fun h => h1 (h2.trans h))]
      · rw [List.find?_cons_of_neg (by simpa using h2), List.find?_cons_of_neg (by simpa using h2)]
        exact ih

end Zarr.Links
