import Verif.Lemmas.LinkWalk
/-! What the removal of a tree with symbolic links in it leaves alone. -/

namespace Zarr.Links

open LFs _root_.Zarr.Spec _root_.Zarr.Links.Spec

variable {s s1 s2 : LFs} {B : Loc → Prop}

/-- `s1` is left of `s` after things at locations in `B` have been removed. -/
structure Less (B : Loc → Prop) (s s1 : LFs) : Prop where
  ents : s1.fs.ents.Sublist s.fs.ents
  links : s1.links.Sublist s.links
  same : ∀ l, ¬ B l → s1.fs.get l = s.fs.get l ∧ s1.linkAt l = s.linkAt l

theorem Less.refl (B : Loc → Prop) (s : LFs) : Less B s s :=
  ⟨List.Sublist.refl _, List.Sublist.refl _, fun _ _ => ⟨rfl, rfl⟩⟩

theorem Less.get (h : Less B s s1) (ht : Tree s) {l : Loc} {n : Node} (hg : s1.fs.get l = some n) : s.fs.get l = some n :=
  ht.wf.mem_iff.mp (h.ents.subset (Fs.mem_of_lookup hg))

theorem linkAt_mem {l : Loc} {k : Link} (h : s.linkAt l = some k) : (l, k) ∈ s.links := by
  unfold linkAt at h
  cases hf : s.links.find? (fun e => decide (e.1 = l)) with
  | none => rw [hf] at h; simp at h
  | some e =>
    rw [hf] at h
    simp only [Option.map_some, Option.some.injEq] at h
    have h1 := List.find?_some hf
    simp only [decide_eq_true_eq] at h1
    have := List.mem_of_find?_eq_some hf
    rw [← h, ← h1]
    exact this

theorem linkAt_of_mem (h : (s.links.map Prod.fst).Nodup) {l : Loc} {k : Link} (hm : (l, k) ∈ s.links) :
    s.linkAt l = some k := by
  unfold linkAt
  generalize s.links = ks at h hm
  induction ks with
  | nil => simp at hm
  | cons e ks ih =>
    rw [List.map_cons, List.nodup_cons] at h
    rcases List.mem_cons.mp hm with rfl | hm
    · simp
    · have : e.1 ≠ l := by
        rintro rfl
        exact h.1 (List.mem_map.mpr ⟨_, hm, rfl⟩)
      rw [List.find?_cons_of_neg (by simpa using this)]
      exact ih h.2 hm

theorem Less.linkAt (h : Less B s s1) (ht : Tree s) {l : Loc} {k : Link} (hk : s1.linkAt l = some k) :
    s.linkAt l = some k := linkAt_of_mem ht.once (h.links.subset (linkAt_mem hk))

/-- There is something at a location. -/
def Here (s : LFs) (l : Loc) : Prop := s.fs.get l ≠ none ∨ s.linkAt l ≠ none

/-- A path that leads to something afterwards led there before. -/
theorem walk_sub (h : Less B s s1) (ht : Tree s) {fo : Bool} (n : Nat) :
    ∀ (p : List Str) (cur : Loc) {r : Loc × Nat}, s1.walk fo n cur p = .ok r → Here s1 r.1 → s.walk fo n cur p = .ok r := by
  induction n using Nat.strongRecOn with
  | ind n ihn =>
    intro p
    induction p with
    | nil => intro cur r hw _; rw [walk_nil] at hw ⊢; exact hw
    | cons x p ih =>
      intro cur r hw hr
      rw [walk_cons] at hw ⊢
      cases hg : s1.fs.get cur with
      | none => rw [hg] at hw; simp at hw
      | some nd =>
        rw [hg] at hw
        rw [h.get ht hg]
        cases nd with
        | file b => simp at hw
        | dir =>
          dsimp only at hw ⊢
          by_cases hx : x = dotdot
          · rw [if_pos hx] at hw ⊢; exact ih _ hw hr
          · rw [if_neg hx] at hw ⊢
            cases hk : s1.linkAt (cur ++ [x]) with
            | some k =>
              rw [hk] at hw
              rw [h.linkAt ht hk]
              dsimp only at hw ⊢
              by_cases hc : p = [] ∧ fo = false
              · rw [if_pos hc] at hw ⊢; exact hw
              · rw [if_neg hc] at hw ⊢
                cases n with
                | zero => simp [LFs.jump] at hw
                | succ n => exact ihn n (by omega) _ _ hw hr
            | none =>
              rw [hk] at hw
              dsimp only at hw
              cases hk' : s.linkAt (cur ++ [x]) with
              | none => exact ih _ hw hr
              | some k =>
                exfalso
                have hn : s1.fs.get (cur ++ [x]) = none := by
                  cases hc : s1.fs.get (cur ++ [x]) with
                  | none => rfl
                  | some nd =>
                    have := h.get ht hc
                    rw [ht.apart _ (by rw [hk']; simp)] at this
                    simp at this
                cases p with
                | nil =>
                  rw [walk_nil] at hw
                  cases hw
                  rcases hr with hr | hr
                  · exact hr hn
                  · exact hr hk
                | cons y p => rw [walk_cons, hn] at hw; simp at hw

theorem Less.del (h : Less B s s1) {l : Loc} (hl : B l) : Less B s { s1 with fs := s1.fs.del l } where
  ents := List.filter_sublist.trans h.ents
  links := h.links
  same k hk := by
    refine ⟨?_, (h.same k hk).2⟩
    show (s1.fs.del l).get k = _
    rw [Fs.get_del, if_neg (by rintro rfl; exact hk hl)]
    exact (h.same k hk).1

theorem Less.delLink (h : Less B s s1) {l : Loc} (hl : B l) :
    Less B s { s1 with links := s1.links.filter fun e => decide (e.1 ≠ l) } where
  ents := h.ents
  links := List.filter_sublist.trans h.links
  same k hk := by
    refine ⟨(h.same k hk).1, ?_⟩
    rw [linkAt_filter, if_neg (by rintro rfl; exact hk hl)]
    exact (h.same k hk).2

/-- The entry at a path is one that may be removed. -/
def At (B : Loc → Prop) (s : LFs) (p : List Str) : Prop := ∀ l n, s.locateEntry p = .ok (l, n) → B l

theorem unlink_less (h : Less B s s1) (ht : Tree s) {p : List Str} (hp : At B s p) (hu : s1.unlink p = .ok s2) :
    Less B s s2 := by
  unfold LFs.unlink at hu
  cases he : s1.locateEntry p with
  | err e => rw [he] at hu; simp at hu
  | panic => rw [he] at hu; simp at hu
  | ok r =>
    obtain ⟨l, n⟩ := r
    rw [he] at hu
    simp only at hu
    cases hk : s1.linkAt l with
    | some k =>
      rw [hk] at hu
      cases hu
      exact h.delLink (hp l n (walk_sub h ht _ _ _ he (.inr (by rw [hk]; simp))))
    | none =>
      rw [hk] at hu
      simp only at hu
      cases hg : s1.fs.get l with
      | none => rw [hg] at hu; simp at hu
      | some nd =>
        rw [hg] at hu
        cases nd with
        | dir => simp at hu
        | file c =>
          cases hu
          exact h.del (hp l n (walk_sub h ht _ _ _ he (.inl (by rw [hg]; simp))))

theorem rmdir_less (h : Less B s s1) (ht : Tree s) {p : List Str} (hp : At B s p) (hu : s1.rmdir p = .ok s2) :
    Less B s s2 := by
  unfold LFs.rmdir at hu
  cases he : s1.locateEntry p with
  | err e => rw [he] at hu; simp at hu
  | panic => rw [he] at hu; simp at hu
  | ok r =>
    obtain ⟨l, n⟩ := r
    rw [he] at hu
    simp only at hu
    cases hk : s1.linkAt l with
    | some k => rw [hk] at hu; simp at hu
    | none =>
      rw [hk] at hu
      simp only at hu
      cases hg : s1.fs.get l with
      | none => rw [hg] at hu; simp at hu
      | some nd =>
        rw [hg] at hu
        cases nd with
        | file c => simp at hu
        | dir =>
          simp only at hu
          split at hu
          · simp at hu
          · cases hu
            exact h.del (hp l n (walk_sub h ht _ _ _ he (.inl (by rw [hg]; simp))))

theorem removeFile_less (h : Less B s s1) (ht : Tree s) {p : List Str} (hp : At B s p) :
    Less B s (removeFile p s1).2 := by
  unfold removeFile
  split
  · split
    · cases hu : s1.unlink p with
      | ok s2 => exact unlink_less h ht hp hu
      | err e => exact h
      | panic => exact h
    · exact h
  · exact h
  · exact h

theorem eachName_inv {I : LFs → Prop} {f : Str → LFs → Outcome Unit × LFs} (xs : List Str) (hf : ∀ x ∈ xs, ∀ s, I s → I (f x s).2)
    {s : LFs} (h : I s) : I (eachName f xs s).2 := by
  induction xs generalizing s with
  | nil => exact h
  | cons x xs ih =>
    unfold eachName
    have h1 := hf x (by simp) s h
    cases hr : f x s with
    | mk a s1 =>
      rw [hr] at h1
      cases a with
      | ok u => exact ih (fun x hx => hf x (by simp [hx])) h1
      | err e => exact h1
      | panic => exact h1

theorem names_plain (h : Less B s s1) (ht : Tree s) {l : Loc} {z : Str} (hz : z ∈ s1.names l) : z ≠ dotdot := by
  have hp : Plain (l ++ [z]) := by
    unfold names at hz
    rcases List.mem_append.mp hz with hz | hz
    · obtain ⟨⟨y, nd⟩, hm, rfl⟩ := List.mem_map.mp hz
      unfold Fs.children at hm
      obtain ⟨e, he, hm⟩ := List.mem_filterMap.mp hm
      split at hm
      · simp at hm
      · rename_i y' r hrev
        split at hm
        · rename_i hr
          cases hm
          have e1 : e.1 = l ++ [y] := by
            rw [← List.reverse_reverse e.1, hrev, List.reverse_cons, hr]
          have := ht.wf.mem_iff.mp (h.ents.subset he)
          exact ht.names _ (.inl (by rw [← e1, this]; simp))
        · simp at hm
    · obtain ⟨e, he, hn⟩ := List.mem_filterMap.mp hz
      rw [nameIn_iff] at hn
      refine ht.names _ (.inr ?_)
      rw [← hn]
      exact linkAt_ne_none.mpr ⟨e.2, h.links.subset he⟩
  exact (plain_snoc hp).2

theorem removeDir_less (ht : Tree s) {e0 : Loc} (hB : ∀ l, e0 <+: l → B l) (N : Nat) : ∀ (p : List Str) (s1 : LFs),
    Less B s s1 → At B s p → (∀ l n, s.locate p = .ok (l, n) → e0 <+: l) → Less B s (removeDir N p s1).2 := by
  induction N with
  | zero => intro p s1 h _ _; exact h
  | succ N ih =>
    intro p s1 h hp hl
    unfold removeDir
    cases hs : s1.locate p with
    | err e => exact h
    | panic => exact h
    | ok r =>
      obtain ⟨l, n⟩ := r
      simp only
      cases hg : s1.fs.get l with
      | none => exact h
      | some nd =>
        cases nd with
        | file c => exact h
        | dir =>
          simp only
          have hs0 : s.locate p = .ok (l, n) := walk_sub h ht _ _ _ hs (.inl (by rw [hg]; simp))
          have hd0 := h.get ht hg
          have hel := hl l n hs0
          have hentry : ∀ z, z ≠ dotdot → s.locateEntry (p ++ [z]) = .ok (l ++ [z], n) := by
            intro z hz
            rw [locateEntry_snoc, hs0]
            exact entry_one hd0 hz
          have hat : ∀ z, z ≠ dotdot → At B s (p ++ [z]) := by
            intro z hz l' n' he
            rw [hentry z hz] at he
            cases he
            exact hB _ (hel.trans (List.prefix_append _ _))
          have h2 : Less B s (eachName (fun x s2 => if s1.fs.get (l ++ [x]) = some .dir then removeDir N (p ++ [x]) s2
              else removeFile (p ++ [x]) s2) (s1.names l) s1).2 := by
            refine eachName_inv (I := fun s2 => Less B s s2) _ ?_ h
            intro z hz s2 h2
            have hz' := names_plain h ht hz
            split
            · rename_i hdir
              refine ih _ _ h2 (hat z hz') ?_
              intro l' n' hl'
              have hk : s.linkAt (l ++ [z]) = none := Classical.byContradiction fun hk => by
                have := ht.apart _ hk
                rw [h.get ht hdir] at this
                simp at this
              rw [locate_snoc, hs0] at hl'
              simp only [Outcome.bind_ok] at hl'
              rw [walk_one hd0 hz' hk] at hl'
              cases hl'
              exact hel.trans (List.prefix_append _ _)
            · exact removeFile_less h2 ht (hat z hz')
          split
          · rename_i s3 e
            rw [e] at h2
            cases hr : s3.rmdir p with
            | ok s4 => exact rmdir_less h2 ht hp hr
            | err e => exact h2
            | panic => exact h2
          · exact h2

/-- What is below a path whose last component was a link that is gone is not reached any more. -/
theorem blocked (h : Less B s s1) (ht : Tree s) {p : List Str} {e0 : Loc} {n : Nat} (he : s.locateEntry p = .ok (e0, n))
    (hk : s.linkAt e0 ≠ none) (hk1 : s1.linkAt e0 = none) (z : Str) (r : Loc × Nat) : s1.locate (p ++ [z]) ≠ .ok r := by
  intro hr
  rw [locate_snoc] at hr
  cases hl : s1.locate p with
  | err e => rw [hl] at hr; simp at hr
  | panic => rw [hl] at hr; simp at hr
  | ok r1 =>
    rw [hl] at hr
    simp only [Outcome.bind_ok] at hr
    have hd : s1.fs.get r1.1 = some .dir := by
      cases hg : s1.fs.get r1.1 with
      | none => rw [walk_one_none hg] at hr; simp at hr
      | some nd =>
        cases nd with
        | file c => rw [walk_one_file hg] at hr; simp at hr
        | dir => rfl
    cases hp : p.reverse with
    | nil =>
      have : p = [] := by simpa using hp
      subst this
      unfold locateEntry at he
      rw [walk_nil] at he
      cases he
      exact hk ht.root
    | cons x q =>
      have hpx : p = q.reverse ++ [x] := by rw [← List.reverse_reverse p, hp]; simp
      generalize q.reverse = q' at hpx
      subst hpx
      rw [locate_snoc] at hl
      cases hq : s1.locate q' with
      | err e => rw [hq] at hl; simp at hl
      | panic => rw [hq] at hl; simp at hl
      | ok r2 =>
        rw [hq] at hl
        simp only [Outcome.bind_ok] at hl
        have hd2 : s1.fs.get r2.1 = some .dir := by
          cases hg : s1.fs.get r2.1 with
          | none => rw [walk_one_none hg] at hl; simp at hl
          | some nd =>
            cases nd with
            | file c => rw [walk_one_file hg] at hl; simp at hl
            | dir => rfl
        have hq0 : s.locate q' = .ok r2 := walk_sub h ht _ _ _ hq (.inl (by rw [hd2]; simp))
        have hd0 := h.get ht hd2
        rw [locateEntry_snoc, hq0] at he
        simp only [Outcome.bind_ok] at he
        by_cases hx : x = dotdot
        · rw [walk_cons, hd0] at he
          dsimp only at he
          rw [if_pos hx, walk_nil] at he
          cases he
          have : s.fs.get r2.1.dropLast ≠ none := by
            cases hr2 : r2.1.reverse with
            | nil =>
              have : r2.1 = [] := by simpa using hr2
              rw [this, List.dropLast_nil, ht.wf.root]; simp
            | cons y t =>
              have e : r2.1 = t.reverse ++ [y] := by rw [← List.reverse_reverse r2.1, hr2]; simp
              rw [e] at hd0 ⊢
              rw [List.dropLast_concat, ht.wf.parent _ _ _ hd0]; simp
          exact this (ht.apart _ hk)
        · rw [entry_one hd0 hx] at he
          cases he
          rw [walk_one hd2 hx hk1] at hl
          cases hl
          have := h.get ht hd
          simp only at this
          rw [ht.apart _ hk] at this
          simp at this

/-- A path whose entry is no link leads to its entry. -/
theorem walk_of_entry (s : LFs) (n : Nat) : ∀ (p : List Str) (cur : Loc) {r : Loc × Nat}, s.walk false n cur p = .ok r →
    s.linkAt r.1 = none → s.walk true n cur p = .ok r := by
  induction n using Nat.strongRecOn with
  | ind n ihn =>
    intro p
    induction p with
    | nil => intro cur r hw _; rw [walk_nil] at hw ⊢; exact hw
    | cons x p ih =>
      intro cur r hw hr
      rw [walk_cons] at hw ⊢
      cases hg : s.fs.get cur with
      | none => rw [hg] at hw; simp at hw
      | some nd =>
        rw [hg] at hw
        cases nd with
        | file b => simp at hw
        | dir =>
          dsimp only at hw ⊢
          by_cases hx : x = dotdot
          · rw [if_pos hx] at hw ⊢; exact ih _ hw hr
          · rw [if_neg hx] at hw ⊢
            cases hk : s.linkAt (cur ++ [x]) with
            | none => rw [hk] at hw; exact ih _ hw hr
            | some k =>
              rw [hk] at hw
              dsimp only at hw ⊢
              rw [if_neg (by simp)]
              by_cases hc : p = []
              · rw [if_pos ⟨hc, rfl⟩] at hw
                cases hw
                rw [hk] at hr; simp at hr
              · rw [if_neg (fun h => hc h.1)] at hw
                cases n with
                | zero => simp [LFs.jump] at hw
                | succ n => exact ihn n (by omega) _ _ hw hr

theorem locate_of_entry {p : List Str} {l : Loc} {n : Nat} (h : s.locateEntry p = .ok (l, n)) (hk : s.linkAt l = none) :
    s.locate p = .ok (l, n) := walk_of_entry s _ _ _ h hk

/-- The walk leaves alone what is not in the tree. -/
theorem removeAll_less (h : Less B s s1) (ht : Tree s) {p : List Str}
    (hB : ∀ e0 n, s.locateEntry p = .ok (e0, n) → ∀ l, e0 <+: l → B l) : Less B s (removeAll p s1).2 := by
  have hat : At B s p := fun l n he => hB l n he l List.prefix_rfl
  unfold removeAll
  cases he : s1.locateEntry p with
  | err e => exact h
  | panic => exact h
  | ok r =>
    obtain ⟨e0, n⟩ := r
    simp only
    cases hk : s1.linkAt e0 with
    | none =>
      simp only
      split
      · rename_i hd
        have he0 : s.locateEntry p = .ok (e0, n) := walk_sub h ht _ _ _ he (.inl (by rw [hd]; simp))
        refine removeDir_less ht (hB e0 n he0) _ _ _ h hat ?_
        intro l m hl
        -- the directory is no link
        have hk0 : s.linkAt e0 = none := Classical.byContradiction fun hk => by
          have := ht.apart _ hk
          rw [h.get ht hd] at this
          simp at this
        have : s.locate p = .ok (e0, n) := locate_of_entry he0 hk0
        rw [this] at hl
        cases hl
        exact List.prefix_rfl
      · exact removeFile_less h ht hat
    | some k =>
      simp only
      have he0 : s.locateEntry p = .ok (e0, n) := walk_sub h ht _ _ _ he (.inr (by rw [hk]; simp))
      cases hl : s1.locate p with
      | err e => exact h
      | panic => exact h
      | ok r =>
        obtain ⟨t, m⟩ := r
        simp only
        split
        · rename_i hd
          have h2 := removeFile_less h ht hat
          split
          · rename_i s2 e
            have hgone : s2.linkAt e0 = none := by
              unfold removeFile LFs.unlink at e
              rw [hl] at e
              simp only [hd, Option.isSome_some, if_true, he, hk, Prod.mk.injEq, true_and] at e
              rw [← e, linkAt_filter, if_pos rfl]
            rw [e] at h2
            have key : ∀ z s3, Less B s s3 ∧ s3.linkAt e0 = none →
                (if s1.fs.get (t ++ [z]) = some .dir then removeDir (s1.fs.ents.length + 1) (p ++ [z]) s3
                  else removeFile (p ++ [z]) s3).2 = s3 := by
              rintro z s3 ⟨i1, i2⟩
              have hbl := blocked i1 ht he0 (by rw [h.linkAt ht hk]; simp) i2 z
              split
              · unfold removeDir
                cases hc : s3.locate (p ++ [z]) with
                | ok r => exact absurd hc (hbl r)
                | err e => rfl
                | panic => rfl
              · unfold removeFile
                cases hc : s3.locate (p ++ [z]) with
                | ok r => exact absurd hc (hbl r)
                | err e => rfl
                | panic => rfl
            exact (eachName_inv (I := fun s3 => Less B s s3 ∧ s3.linkAt e0 = none) _
              (fun z _ s3 i => by rw [key z s3 i]; exact i) ⟨h2, hgone⟩).1
          · exact h2
        · exact removeFile_less h ht hat

end Zarr.Links
