import Verif.Lemmas.LinkCut
import Verif.Lemmas.CrashCalls
import Verif.Lemmas.SoloWalk
/-! The removal of a tree with symbolic links in it. -/

namespace Zarr.Links

open LFs _root_.Zarr.Spec _root_.Zarr.Links.Spec
open Wide (size size_child_lt)

variable {b : Loc} {s s' : LFs} {fs fs' : Fs} {D : List Str → Prop}

/-- What is kept during the removal. -/
structure Fine (b : Loc) (D : List Str → Prop) (s : LFs) (fs : Fs) : Prop where
  good : Good true b D s fs
  straight : StraightLinks s

/-- Paths in `A` and locations in `B` have been removed. -/
structure Removed (b : Loc) (s s' : LFs) (A : List Str → Prop) (B : Loc → Prop) : Prop where
  keep : ∀ q, Plain q → ¬ A q → ∀ r, s.locate (b ++ q) = .ok r → s'.locate (b ++ q) = .ok r
  same : ∀ l, ¬ B l → s'.fs.get l = s.fs.get l ∧ s'.linkAt l = s.linkAt l
  small : ∀ l, size s'.fs l ≤ size s.fs l
  links : s'.links.Sublist s.links

theorem Removed.refl (b : Loc) (s : LFs) (A : List Str → Prop) (B : Loc → Prop) : Removed b s s A B :=
  ⟨fun _ _ _ _ h => h, fun _ _ => ⟨rfl, rfl⟩, fun _ => Nat.le_refl _, List.Sublist.refl _⟩

theorem Removed.trans {s1 : LFs} {A A' A'' : List Str → Prop} {B B' B'' : Loc → Prop} (h : Removed b s s1 A B)
    (h' : Removed b s1 s' A' B') (ha : ∀ q, A q ∨ A' q → A'' q) (hb : ∀ q, B q ∨ B' q → B'' q) : Removed b s s' A'' B'' where
  keep q hq hn r hr := h'.keep q hq (fun h => hn (ha q (.inr h))) r (h.keep q hq (fun h => hn (ha q (.inl h))) r hr)
  same l hl := by
    obtain ⟨a1, a2⟩ := h.same l fun h => hl (hb l (.inl h))
    obtain ⟨b1, b2⟩ := h'.same l fun h => hl (hb l (.inr h))
    exact ⟨b1.trans a1, b2.trans a2⟩
  small l := Nat.le_trans (h'.small l) (h.small l)
  links := h'.links.trans h.links

theorem straight_sublist (h : StraightLinks s) (hs : s'.links.Sublist s.links) : StraightLinks s' :=
  fun e he => h e (hs.subset he)

theorem Shows.congr (h : Shows b s fs) (hwf : fs'.WF) (hg : ∀ l, fs'.get l = fs.get l) : Shows b s fs' :=
  ⟨h.tree, hwf, fun q hq => h.names q (hg _ ▸ hq), (hg _).trans h.base, fun q hq => (h.same q hq).trans (hg _).symm, h.whole⟩

theorem Fine.congr (h : Fine b D s fs) (hwf : fs'.WF) (hg : ∀ l, fs'.get l = fs.get l) : Fine b D s fs' :=
  ⟨⟨Shows.congr h.good.shows hwf hg, h.good.single, h.good.apart⟩, h.straight⟩

theorem Fine.cut (g : Fine b D s fs) (hb : Plain b) {p : List Str} {x : Str} {c : Loc} (k : Cut b s s' p x c)
    (hs : s'.links.Sublist s.links) (hm : ∀ l, size s'.fs l ≤ size s.fs l) :
    Fine b D s' (fs.delTree (b ++ (p ++ [x]))) ∧ Removed b s s' (fun q => p ++ [x] <+: q) (fun l => c ++ [x] <+: l) := by
  have hsh := g.good.shows
  have h1 := g.good.single rfl
  have hwf : (fs.delTree (b ++ (p ++ [x]))).WF := hsh.wf.delTree (by simp)
  have hget : ∀ l, (fs.delTree (b ++ (p ++ [x]))).get l = if b ++ (p ++ [x]) <+: l then none else fs.get l :=
    fun l => Fs.get_delTree ..
  refine ⟨⟨⟨k.shows hsh hb h1 hwf hget, fun _ => k.single hsh hb h1, fun _ q hD hq hne hl => ?_⟩,
    straight_sublist g.straight hs⟩, ⟨?_, ?_, hm, hs⟩⟩
  · exact g.good.apart rfl q hD hq hne (k.linkToDir hsh hb h1 hwf hget hq hl hne)
  · intro q hq hn r hr
    exact (k.other hsh hb h1 hq hn hr).1
  · intro l hl
    have : l ≠ c ++ [x] := by rintro rfl; exact hl List.prefix_rfl
    exact ⟨k.get l this, k.linkAt l this⟩

/-! ## The three kinds of entries -/

section
variable {p : List Str} {x : Str} {c : Loc} {n : Nat}

theorem size_del_le (fs : Fs) (l k : Loc) : size (fs.del l) k ≤ size fs k := by
  unfold size Fs.del
  rw [List.filter_filter]
  have : (fs.ents.filter fun e => k.isPrefixOf e.1 && decide (e.1 ≠ l)) =
      (fs.ents.filter fun e => k.isPrefixOf e.1).filter fun e => decide (e.1 ≠ l) := by
    rw [List.filter_filter]
    exact List.filter_congr fun _ _ => Bool.and_comm _ _
  refine Nat.le_trans (Nat.le_of_eq ?_) (Nat.le_trans (Nat.le_of_eq (congrArg List.length this)) (List.length_filter_le _ _))
  congr 1

/-- A file or an empty directory is removed. -/
theorem cut_node (g : Fine b D s fs) (hq : Plain (p ++ [x])) (hp : s.locate (b ++ p) = .ok (c, n))
    (hd : s.fs.get c = some .dir) (hn : s.fs.get (c ++ [x]) ≠ none)
    (he : ∀ z, s.fs.get (c ++ [x] ++ [z]) = none ∧ s.linkAt (c ++ [x] ++ [z]) = none) :
    Cut b s { s with fs := s.fs.del (c ++ [x]) } p x c := by
  have ht := g.good.shows.tree
  have hlk : s.linkAt (c ++ [x]) = none := Classical.byContradiction fun hk => hn (ht.apart _ hk)
  refine ⟨⟨ht.wf.del_empty (by simp) fun z => (he z).1, ht.once, ht.root, ?_, ?_, ?_⟩, g.straight, hq, ⟨n, hp⟩, hd, ?_,
    fun _ _ => rfl, ?_, hlk⟩
  · intro l hl
    show (s.fs.del (c ++ [x])).get l = none
    rw [Fs.get_del]; split
    · rfl
    · exact ht.apart l hl
  · intro l y hl
    show (s.fs.del (c ++ [x])).get l = _
    rw [Fs.get_del, if_neg]
    · exact ht.parent l y hl
    · rintro rfl; exact hl (he y).2
  · intro l hl
    refine ht.names l (hl.imp (fun hl => ?_) id)
    have hl : (s.fs.del (c ++ [x])).get l ≠ none := hl
    rw [Fs.get_del] at hl
    split at hl
    · simp at hl
    · exact hl
  · intro l hl
    show (s.fs.del (c ++ [x])).get l = _
    rw [Fs.get_del, if_neg hl]
  · show (s.fs.del (c ++ [x])).get _ = _
    rw [Fs.get_del, if_pos rfl]

/-- A link is removed. -/
theorem cut_link (g : Fine b D s fs) (hq : Plain (p ++ [x])) (hp : s.locate (b ++ p) = .ok (c, n))
    (hd : s.fs.get c = some .dir) (hk : s.linkAt (c ++ [x]) ≠ none) :
    Cut b s { s with links := s.links.filter fun e => decide (e.1 ≠ c ++ [x]) } p x c := by
  have ht := g.good.shows.tree
  have hlk' := linkAt_filter s (c ++ [x])
  generalize hs' : ({ s with links := s.links.filter fun e => decide (e.1 ≠ c ++ [x]) } : LFs) = s' at hlk' ⊢
  have hfs : s'.fs = s.fs := by rw [← hs']
  have hsub : ∀ l, s'.linkAt l ≠ none → s.linkAt l ≠ none := by
    intro l hl
    rw [hlk'] at hl
    split at hl
    · simp at hl
    · exact hl
  refine ⟨⟨by rw [hfs]; exact ht.wf, ?_, ?_, ?_, ?_, ?_⟩, g.straight, hq, ⟨n, hp⟩, hd, ?_, ?_, ?_, ?_⟩
  · rw [← hs']
    exact (List.filter_sublist.map Prod.fst).nodup ht.once
  · exact Classical.byContradiction fun e => hsub _ e ht.root
  · intro k hk; rw [hfs]; exact ht.apart k (hsub k hk)
  · intro k y hk; rw [hfs]; exact ht.parent k y (hsub _ hk)
  · intro k hk; rw [hfs] at hk; exact ht.names k (hk.imp id (hsub k))
  · intro l _; rw [hfs]
  · intro l hl; rw [hlk', if_neg hl]
  · rw [hfs]; exact ht.apart _ hk
  · rw [hlk', if_pos rfl]

theorem entry_at (hq : Plain (p ++ [x])) (hp : s.locate (b ++ p) = .ok (c, n)) (hd : s.fs.get c = some .dir) :
    s.locateEntry (b ++ (p ++ [x])) = .ok (c ++ [x], n) := by
  rw [← List.append_assoc, locateEntry_snoc, hp]
  exact entry_one hd (plain_snoc hq).2

theorem node_at (hq : Plain (p ++ [x])) (hp : s.locate (b ++ p) = .ok (c, n)) (hd : s.fs.get c = some .dir)
    (hk : s.linkAt (c ++ [x]) = none) : s.locate (b ++ (p ++ [x])) = .ok (c ++ [x], n) := by
  rw [← List.append_assoc, locate_snoc, hp]
  exact walk_one hd (plain_snoc hq).2 hk true

/-- A file or a link is removed by the walk. -/
theorem removeFile_links (g : Fine b D s fs) (hb : Plain b) (hq : Plain (p ++ [x])) (hp : s.locate (b ++ p) = .ok (c, n))
    (hd : s.fs.get c = some .dir) (hx : s.fs.get (c ++ [x]) ≠ none ∨ s.linkAt (c ++ [x]) ≠ none)
    (hnd : s.fs.get (c ++ [x]) ≠ some .dir) :
    ∃ s', removeFile (b ++ (p ++ [x])) s = (.ok (), s') ∧ Fine b D s' (fs.delTree (b ++ (p ++ [x]))) ∧
      Removed b s s' (fun q => p ++ [x] <+: q) (fun l => c ++ [x] <+: l) ∧
      s'.fs.get (c ++ [x]) = none ∧ s'.linkAt (c ++ [x]) = none := by
  have hsh := g.good.shows
  have he := entry_at hq hp hd
  unfold removeFile LFs.unlink
  by_cases hk : s.linkAt (c ++ [x]) = none
  · have hl := node_at hq hp hd hk
    cases hg : s.fs.get (c ++ [x]) with
    | none => exact absurd hx (by simp [hg, hk])
    | some nd =>
      cases nd with
      | dir => exact absurd hg hnd
      | file f =>
        have hcut := cut_node g hq hp hd (by rw [hg]; simp) fun z => by
          constructor
          · cases hz : s.fs.get (c ++ [x] ++ [z]) with
            | none => rfl
            | some m => have := hsh.tree.wf.parent _ _ _ hz; rw [hg] at this; simp at this
          · exact Classical.byContradiction fun hz => by
              have := hsh.tree.parent _ _ hz; rw [hg] at this; simp at this
        obtain ⟨a1, a2⟩ := g.cut hb hcut (List.Sublist.refl _) (size_del_le _ _)
        refine ⟨_, ?_, a1, a2, hcut.noNode, hcut.noLink⟩
        rw [hl, he]
        simp only [hg, hk, Option.isSome_some, if_true]
  · obtain ⟨k, hk'⟩ := Option.ne_none_iff_exists'.mp hk
    have hcut := cut_link g hq hp hd hk
    obtain ⟨a1, a2⟩ := g.cut hb hcut List.filter_sublist (fun _ => Nat.le_refl _)
    refine ⟨_, ?_, a1, a2, hcut.noNode, hcut.noLink⟩
    have := hsh.whole p (plain_snoc hq).1 c n x hp hd hk
    obtain ⟨nd, hnd⟩ := Option.ne_none_iff_exists'.mp this
    obtain ⟨t, m, e1, e2⟩ := stat_some hnd
    rw [List.append_assoc] at e1
    rw [e1, he]
    simp only [e2, hk', Option.isSome_some, if_true]

end

/-! ## The loop -/

/-- The entries of a directory are removed. -/
theorem eachName_links {P : List Str} {l : Loc} {m N : Nat} {kind : Str → Bool} (hPl : Plain P)
    {f : Str → LFs → Outcome Unit × LFs}
    (hf : ∀ z s fs, Fine b D s fs → Plain (P ++ [z]) → s.locate (b ++ P) = .ok (l, m) → s.fs.get l = some .dir →
      (s.fs.get (l ++ [z]) ≠ none ∨ s.linkAt (l ++ [z]) ≠ none) → (kind z = true ↔ s.fs.get (l ++ [z]) = some .dir) →
      size s.fs (l ++ [z]) ≤ N → ∃ s', f z s = (.ok (), s') ∧ Fine b D s' (fs.delTree (b ++ (P ++ [z]))) ∧
        Removed b s s' (fun q => P ++ [z] <+: q) (fun k => l ++ [z] <+: k) ∧
        s'.fs.get (l ++ [z]) = none ∧ s'.linkAt (l ++ [z]) = none) (xs : List Str) :
    ∀ s fs, Fine b D s fs → xs.Nodup → s.locate (b ++ P) = .ok (l, m) → s.fs.get l = some .dir →
      (∀ z ∈ xs, (s.fs.get (l ++ [z]) ≠ none ∨ s.linkAt (l ++ [z]) ≠ none) ∧
        (kind z = true ↔ s.fs.get (l ++ [z]) = some .dir) ∧ size s.fs (l ++ [z]) ≤ N) →
      ∃ s' fs', eachName f xs s = (.ok (), s') ∧ Fine b D s' fs' ∧
        (∀ k, ¬ b ++ P <+: k → fs'.get k = fs.get k) ∧
        Removed b s s' (fun q => ∃ z ∈ xs, P ++ [z] <+: q) (fun k => ∃ z ∈ xs, l ++ [z] <+: k) ∧
        ∀ z ∈ xs, s'.fs.get (l ++ [z]) = none ∧ s'.linkAt (l ++ [z]) = none := by
  induction xs with
  | nil =>
    intro s fs g _ _ _ _
    exact ⟨s, fs, rfl, g, fun _ _ => rfl, .refl .., by simp⟩
  | cons z xs ih =>
    intro s fs g hnd hl hd hxs
    obtain ⟨hzn, hnd'⟩ := List.nodup_cons.mp hnd
    obtain ⟨c1, c2, c3⟩ := hxs z (by simp)
    have hzp : Plain (P ++ [z]) := hPl.append (plain_append.mp (g.good.shows.tree.names _ c1)).2
    obtain ⟨s1, e1, g1, r1, n1, n2⟩ := hf z s fs g hzp hl hd c1 c2 c3
    have hself : ¬ P ++ [z] <+: P := not_prefix_self P z
    have hl1 := r1.keep P hPl hself _ hl
    have hd1 : s1.fs.get l = some .dir := (r1.same l (not_prefix_self l z)).1.trans hd
    have hsib : ∀ z' ∈ xs, ¬ l ++ [z] <+: l ++ [z'] := by
      intro z' hz' hc
      rw [List.prefix_append_right_inj] at hc
      have : z = z' := by simpa using hc
      exact hzn (this ▸ hz')
    obtain ⟨s2, fs2, e2, g2, k2, r2, n3⟩ := ih s1 _ g1 hnd' hl1 hd1 fun z' hz' => by
      obtain ⟨d1, d2, d3⟩ := hxs z' (by simp [hz'])
      obtain ⟨f1, f2⟩ := r1.same _ (hsib z' hz')
      rw [f1, f2]
      exact ⟨d1, d2, Nat.le_trans (r1.small _) d3⟩
    refine ⟨s2, fs2, ?_, g2, ?_, ?_, ?_⟩
    · unfold eachName
      rw [e1]; exact e2
    · intro k hk
      rw [k2 k hk, Fs.get_delTree, if_neg]
      intro hc
      refine hk (List.IsPrefix.trans ?_ hc)
      rw [← List.append_assoc]
      exact List.prefix_append _ _
    · refine r1.trans r2 ?_ ?_
      · rintro q (h | ⟨z', hz', h⟩)
        · exact ⟨z, by simp, h⟩
        · exact ⟨z', by simp [hz'], h⟩
      · rintro q (h | ⟨z', hz', h⟩)
        · exact ⟨z, by simp, h⟩
        · exact ⟨z', by simp [hz'], h⟩
    · intro z' hz'
      rcases List.mem_cons.mp hz' with rfl | hz'
      · have hout : ¬ ∃ z'' ∈ xs, l ++ [z''] <+: l ++ [z'] := by
          rintro ⟨z'', h1, h2⟩
          rw [List.prefix_append_right_inj] at h2
          have : z'' = z' := by simpa using h2
          exact hzn (this ▸ h1)
        obtain ⟨f1, f2⟩ := r2.same _ hout
        rw [f1, f2]
        exact ⟨n1, n2⟩
      · exact n3 z' hz'

/-- A directory is removed. -/
theorem removeDir_links (hb : Plain b) (N : Nat) : ∀ {p : List Str} {x : Str} {c : Loc} {n : Nat} (s : LFs) (fs : Fs),
    Fine b D s fs → Plain (p ++ [x]) → s.locate (b ++ p) = .ok (c, n) → s.fs.get c = some .dir →
    s.fs.get (c ++ [x]) = some .dir → size s.fs (c ++ [x]) ≤ N →
    ∃ s', removeDir N (b ++ (p ++ [x])) s = (.ok (), s') ∧ Fine b D s' (fs.delTree (b ++ (p ++ [x]))) ∧
      Removed b s s' (fun q => p ++ [x] <+: q) (fun l => c ++ [x] <+: l) ∧
      s'.fs.get (c ++ [x]) = none ∧ s'.linkAt (c ++ [x]) = none := by
  induction N with
  | zero =>
    intro p x c n s fs g hq hp hd hx hN
    have := size_child_lt (s := x) g.good.shows.tree.wf (show s.fs.get (c ++ [x]) ≠ none by rw [hx]; simp)
    omega
  | succ N ih =>
    intro p x c n s fs g hq hp hd hx hN
    have ht := g.good.shows.tree
    have hlk : s.linkAt (c ++ [x]) = none := Classical.byContradiction fun hk => by
      have := ht.apart _ hk; rw [hx] at this; simp at this
    have hl := node_at hq hp hd hlk
    obtain ⟨s1, fs1, e1, g1, k1, r1, n1⟩ := eachName_links (b := b) (D := D) (P := p ++ [x]) (l := c ++ [x]) (m := n) (N := N)
      (kind := fun z => decide (s.fs.get (c ++ [x] ++ [z]) = some .dir)) hq
      (f := fun z s1 => if s.fs.get (c ++ [x] ++ [z]) = some .dir then removeDir N (b ++ (p ++ [x]) ++ [z]) s1
        else removeFile (b ++ (p ++ [x]) ++ [z]) s1)
      (by
        intro z s0 fs0 g0 hz h1 h2 h3 h4 h5
        simp only [decide_eq_true_eq] at h4
        by_cases hz' : s.fs.get (c ++ [x] ++ [z]) = some .dir
        · simp only [hz', if_true]
          rw [List.append_assoc b]
          exact ih s0 fs0 g0 hz h1 h2 (h4.mp hz') h5
        · simp only [hz', if_false]
          rw [List.append_assoc b]
          exact removeFile_links g0 hb hz h1 h2 h3 fun h => hz' (h4.mpr h))
      (s.names (c ++ [x])) s fs g (names_nodup ht _) hl hx
      (by
        intro z hz
        refine ⟨(mem_names ht).mp hz, by simp, ?_⟩
        have := size_child_lt (s := z) ht.wf (show s.fs.get (c ++ [x]) ≠ none by rw [hx]; simp)
        omega)
    have hp1 : s1.locate (b ++ p) = .ok (c, n) := by
      refine r1.keep p (plain_snoc hq).1 ?_ _ hp
      rintro ⟨z, _, hc⟩
      exact not_prefix_self p x ((List.prefix_append _ _).trans hc)
    have hcx : ∀ z, ¬ c ++ [x] ++ [z] <+: c ++ [x] := fun z => not_prefix_self _ _
    obtain ⟨i1, i2⟩ := r1.same (c ++ [x]) (by rintro ⟨z, _, hc⟩; exact hcx z hc)
    obtain ⟨j1, _⟩ := r1.same c (by
      rintro ⟨z, _, hc⟩
      exact not_prefix_self c x ((List.prefix_append _ _).trans hc))
    have hd1 := j1.trans hd
    have hx1 := i1.trans hx
    have hk1 := i2.trans hlk
    have hempty : ∀ z, s1.fs.get (c ++ [x] ++ [z]) = none ∧ s1.linkAt (c ++ [x] ++ [z]) = none := by
      intro z
      by_cases hz : z ∈ s.names (c ++ [x])
      · exact n1 z hz
      · have hno := fun h => hz ((mem_names ht).mpr h)
        obtain ⟨a1, a2⟩ := r1.same (c ++ [x] ++ [z]) (by
          rintro ⟨z', hz', hc⟩
          rw [List.prefix_append_right_inj] at hc
          have : z' = z := by simpa using hc
          exact hz (this ▸ hz'))
        rw [a1, a2]
        exact ⟨Classical.byContradiction fun h => hno (.inl h), Classical.byContradiction fun h => hno (.inr h)⟩
    have hnames : s1.names (c ++ [x]) = [] := by
      refine List.eq_nil_iff_forall_not_mem.mpr fun z hz => ?_
      rw [mem_names g1.good.shows.tree] at hz
      obtain ⟨a1, a2⟩ := hempty z
      rcases hz with h | h
      · exact h a1
      · exact h a2
    have hcut := cut_node g1 hq hp1 hd1 (by rw [hx1]; simp) hempty
    obtain ⟨g2, r2⟩ := g1.cut hb hcut (List.Sublist.refl _) (size_del_le _ _)
    refine ⟨_, ?_, g2.congr (g.good.shows.wf.delTree (by simp)) ?_, r1.trans r2 ?_ ?_, hcut.noNode, hcut.noLink⟩
    · unfold removeDir LFs.rmdir
      rw [hl]
      simp only [hx]
      rw [e1]
      simp only
      rw [entry_at hq hp1 hd1]
      simp only [hk1, hx1]
      rw [if_neg (by simp [hnames])]
    · intro k
      rw [Fs.get_delTree, Fs.get_delTree]
      split
      · rfl
      · exact (k1 k ‹_›).symm
    · rintro q (⟨z, _, hc⟩ | hc)
      · exact (List.prefix_append _ _).trans hc
      · exact hc
    · rintro q (⟨z, _, hc⟩ | hc)
      · exact (List.prefix_append _ _).trans hc
      · exact hc

/-! ## The store -/

theorem storeErasePrefix_links {h : Hier} {key : Str} (hb : Plain (segs h.base)) (hk : Plain (segs key))
    (hne : segs key ≠ []) (hD : D (segs key)) (g : Fine (segs h.base) D s fs) :
    (Links.storeErasePrefix h key s).1 = (Zarr.storeErasePrefix h key fs).1 ∧
      Fine (segs h.base) D (Links.storeErasePrefix h key s).2 (Zarr.storeErasePrefix h key fs).2 := by
  obtain ⟨t, ht, hseg⟩ := getPath_loc (h := h) (key := key) (hb.append hk)
  obtain ⟨fs', f1, f2, f3⟩ := storeErasePrefix_spec (h := h) (key := key) g.good.shows.wf (hb.append hk)
    (by simp [Hier.loc, hne])
  rw [f1]
  unfold Links.storeErasePrefix
  rw [ht]
  simp only
  rw [hseg]
  rw [Hier.loc] at f3 ⊢
  have hap := g.good.apart rfl _ hD hk hne
  generalize segs h.base = b at *
  clear ht hseg f1
  generalize segs key = q at *
  obtain ⟨p, x, rfl⟩ := entry_split hne
  have hsame := g.good.shows.same _ hk
  have hfs : ∀ k, fs'.get k = (fs.delTree (b ++ (p ++ [x]))).get k := fun k => by rw [f3, Fs.get_delTree]
  cases hg : fs.get (b ++ (p ++ [x])) with
  | none =>
    have : s.pathExists (b ++ (p ++ [x])) = false := by unfold LFs.pathExists; rw [hsame, hg]; rfl
    rw [this]
    refine ⟨rfl, g.congr f2 fun k => ?_⟩
    rw [f3]
    split
    · rename_i hpre
      exact (g.good.shows.wf.none_below hpre hg).symm
    · rfl
  | some nd =>
    have hex : s.pathExists (b ++ (p ++ [x])) = true := by unfold LFs.pathExists; rw [hsame, hg]; rfl
    rw [hg] at hsame
    obtain ⟨l, n, h1, h2⟩ := stat_some hsame
    obtain ⟨⟨c, m⟩, a1, a2⟩ := locate_dropLast (show s.locate (b ++ p ++ [x]) = _ by rw [List.append_assoc]; exact h1)
    simp only at a2
    have he := entry_at hk a1 a2
    -- the walk removes everything
    have main : ∃ s', removeAll (b ++ (p ++ [x])) s = (.ok (), s') ∧ Fine b D s' (fs.delTree (b ++ (p ++ [x]))) := by
      have hfile : (s.fs.get (c ++ [x]) ≠ none ∨ s.linkAt (c ++ [x]) ≠ none) → s.fs.get (c ++ [x]) ≠ some .dir →
          ∃ s', removeFile (b ++ (p ++ [x])) s = (.ok (), s') ∧ Fine b D s' (fs.delTree (b ++ (p ++ [x]))) := by
        intro hx hnd
        obtain ⟨s', d1, d2, _⟩ := removeFile_links g hb hk a1 a2 hx hnd
        exact ⟨s', d1, d2⟩
      unfold removeAll
      rw [he]
      simp only
      cases hkl : s.linkAt (c ++ [x]) with
      | none =>
        simp only
        have hl := node_at hk a1 a2 hkl
        rw [h1] at hl
        cases hl
        split
        · rename_i hdir
          obtain ⟨s', d1, d2, _⟩ := removeDir_links hb (s.fs.ents.length + 1) s fs g hk a1 a2 hdir
            (Nat.le_trans (List.length_filter_le _ _) (Nat.le_succ _))
          exact ⟨s', d1, d2⟩
        · exact hfile (.inl (by rw [h2]; simp)) ‹_›
      | some k =>
        simp only
        rw [h1]
        simp only
        rw [if_neg]
        · refine hfile (.inr (by rw [hkl]; simp)) ?_
          rw [g.good.shows.tree.apart _ (by rw [hkl]; simp)]
          simp
        · intro hdir
          exact hap ⟨⟨_, _, he, by rw [hkl]; simp⟩, by rw [stat_of h1]; exact hdir⟩
    obtain ⟨s', e1, e2⟩ := main
    rw [if_pos hex, e1]
    simp only
    refine ⟨?_, e2.congr f2 hfs⟩
    unfold LFs.pathExists
    rw [e2.good.shows.same _ hk, Fs.get_delTree, if_pos List.prefix_rfl]
    rfl

/-! ## Programs -/

theorem mkdir_keeps {p : List Str} (h : s.mkdir p = .ok s') : s'.links = s.links := by
  unfold LFs.mkdir at h
  split at h
  · split at h
    · simp at h
    · cases h; rfl
  · simp at h
  · simp at h

theorem mkdirAllRev_keeps (r : List Str) (s : LFs) : (LFs.mkdirAllRev r s).2.links = s.links := by
  induction r generalizing s with
  | nil => unfold LFs.mkdirAllRev; split <;> rfl
  | cons x r ih =>
    unfold LFs.mkdirAllRev
    cases hm : s.mkdir (x :: r).reverse with
    | ok s1 => exact mkdir_keeps hm
    | panic => rfl
    | err e =>
      simp only
      split
      · have := ih s
        cases hr : LFs.mkdirAllRev r s with
        | mk a s1 =>
          rw [hr] at this
          cases a with
          | err e => exact this
          | panic => exact this
          | ok u =>
            simp only
            cases hm' : s1.mkdir (x :: r).reverse with
            | ok s2 => exact (mkdir_keeps hm').trans this
            | panic => exact this
            | err e' => simp only; split <;> exact this
      · split <;> rfl

theorem storeSet_keeps (h : Hier) (key : Str) (v : Bytes × Outcome Unit) (s : LFs) :
    (Links.storeSet h key v s).2.links = s.links := by
  unfold Links.storeSet
  cases getPath h.base key with
  | err e => rfl
  | panic => rfl
  | ok t =>
    simp only
    have hmk : (if (segs t).isEmpty = true ∨ s.pathExists (segs t).dropLast = true then (Outcome.ok (), s)
        else LFs.mkdirAll (segs t).dropLast s).2.links = s.links := by
      split
      · rfl
      · exact mkdirAllRev_keeps _ _
    split
    · rename_i e; rw [e] at hmk; exact hmk
    · rename_i e; rw [e] at hmk; exact hmk
    · rename_i s1 e
      rw [e] at hmk
      unfold LFs.openCreate
      cases s1.locate (segs t) with
      | err e => exact hmk
      | panic => exact hmk
      | ok r =>
        simp only
        cases s1.fs.get r.1 with
        | none => exact hmk
        | some nd => cases nd <;> exact hmk

theorem unlink_keeps {p : List Str} (h : s.unlink p = .ok s') : s'.links.Sublist s.links := by
  unfold LFs.unlink at h
  split at h
  · split at h
    · cases h; exact List.filter_sublist
    · split at h
      · cases h; exact List.Sublist.refl _
      · simp at h
      · simp at h
  · simp at h
  · simp at h

theorem storeErase_keeps (h : Hier) (key : Str) (s : LFs) : (Links.storeErase h key s).2.links.Sublist s.links := by
  unfold Links.storeErase
  cases getPath h.base key with
  | err e => exact List.Sublist.refl _
  | panic => exact List.Sublist.refl _
  | ok t =>
    simp only
    split
    · cases hu : s.unlink (segs t) with
      | ok s' => exact unlink_keeps hu
      | err e => exact List.Sublist.refl _
      | panic => exact List.Sublist.refl _
    · exact List.Sublist.refl _

/-- As `Through`, with the removal of trees in `D`. -/
def Passes {α : Type} (D : List Str → Prop) : Wide.Prog α → Prop
  | .done _ => True
  | .exists key k => Plain (segs key) ∧ ∀ r, Passes D (k r)
  | .get key k => Plain (segs key) ∧ ∀ r, Passes D (k r)
  | .set key _ k => Plain (segs key) ∧ ∀ r, Passes D (k r)
  | .erase key k => Plain (segs key) ∧ segs key ≠ [] ∧ D (segs key) ∧ ∀ r, Passes D (k r)
  | .erasePrefix key k => Plain (segs key) ∧ segs key ≠ [] ∧ D (segs key) ∧ ∀ r, Passes D (k r)
  | .listDir key k => Plain (segs key) ∧ (∀ r r', ListRel r r' → k r = k r') ∧ ∀ r, Passes D (k r)

theorem passes_of_through {α : Type} {w : Bool} (P : Wide.Prog α) (h : Through w D P) : Passes D P := by
  induction P with
  | done r => trivial
  | «exists» key k ih => exact ⟨h.1, fun r => ih r (h.2 r)⟩
  | get key k ih => exact ⟨h.1, fun r => ih r (h.2 r)⟩
  | set key v k ih => exact ⟨h.2.1, fun r => ih r (h.2.2 r)⟩
  | erase key k ih => exact ⟨h.2.1, h.2.2.1, h.2.2.2.1, fun r => ih r (h.2.2.2.2 r)⟩
  | erasePrefix key k ih => exact h.elim
  | listDir key k ih => exact ⟨h.1, h.2.1, fun r => ih r (h.2.2 r)⟩

theorem run_fine {α : Type} {h : Hier} (hb : Plain (segs h.base)) (P : Wide.Prog α) : ∀ {s : LFs} {fs : Fs}, Passes D P →
    Fine (segs h.base) D s fs → (run (Links.storeErasePrefix h) h P s).1 = (P.run h fs).1 ∧
      Fine (segs h.base) D (run (Links.storeErasePrefix h) h P s).2 (P.run h fs).2 := by
  induction P with
  | done r => intro s fs _ g; exact ⟨rfl, g⟩
  | «exists» key k ih =>
    intro s fs hu g
    simp only [run, Wide.Prog.run]
    rw [storeExists_links hb hu.1 g.good.shows]
    exact ih _ (hu.2 _) g
  | get key k ih =>
    intro s fs hu g
    simp only [run, Wide.Prog.run]
    rw [storeGet_links hb hu.1 g.good.shows]
    exact ih _ (hu.2 _) g
  | set key v k ih =>
    intro s fs hu g
    simp only [run, Wide.Prog.run]
    obtain ⟨h1, h2⟩ := storeSet_links hb hu.1 v g.good
    rw [h1]
    refine ih _ (hu.2 _) ⟨h2, straight_sublist g.straight ?_⟩
    rw [storeSet_keeps]
    exact List.Sublist.refl _
  | erase key k ih =>
    intro s fs hu g
    simp only [run, Wide.Prog.run]
    obtain ⟨hk, hne, hD, hu⟩ := hu
    obtain ⟨h1, h2⟩ := storeErase_links hb hk hne hD g.good
    rw [h1]
    exact ih _ (hu _) ⟨h2, straight_sublist g.straight (storeErase_keeps _ _ _)⟩
  | erasePrefix key k ih =>
    intro s fs hu g
    simp only [run, Wide.Prog.run]
    obtain ⟨hk, hne, hD, hu⟩ := hu
    obtain ⟨h1, h2⟩ := storeErasePrefix_links hb hk hne hD g
    rw [h1]
    exact ih _ (hu _) h2
  | listDir key k ih =>
    intro s fs hu g
    simp only [run, Wide.Prog.run]
    rw [hu.2.1 _ _ (storeListDir_links hb hu.1 g.good.shows)]
    exact ih _ (hu.2.2 _) g

end Zarr.Links
