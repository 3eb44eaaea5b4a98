import Verif.Props.LinkRemoval
import Verif.Props.Total
/-! `remove` of any node whose data directory is a symbolic link (C104). -/

namespace Zarr.Links

open LFs _root_.Zarr.Spec _root_.Zarr.Links.Spec

theorem locate_failed {s : LFs} {p : List Str} (h : ∀ r, s.locate p ≠ .ok r) : ∃ e, s.locate p = .err e := by
  cases hl : s.locate p with
  | ok r => exact (h r hl).elim
  | err e => exact ⟨e, rfl⟩
  | panic => exact (walk_ne_panic s _ _ _ hl).elim

/-- The walk removes a link at its root, and then does not find the entries that it read through the link. -/
theorem removeAll_linked {s : LFs} (ht : Tree s) {p : List Str} {l t : Loc} {n n' : Nat} {x : Str}
    (he : s.locateEntry p = .ok (l, n)) (hk : s.linkAt l ≠ none) (hl : s.locate p = .ok (t, n'))
    (hd : s.fs.get t = some .dir) (hx : x ∈ s.names t) : ∃ e s', removeAll p s = (.err e, s') := by
  obtain ⟨k, hk'⟩ := Option.ne_none_iff_exists'.mp hk
  let s3 : LFs := { s with links := s.links.filter fun e => decide (e.1 ≠ l) }
  have hf : removeFile p s = (.ok (), s3) := by
    unfold removeFile
    rw [hl]
    simp only [hd, Option.isSome_some, if_true]
    unfold LFs.unlink
    rw [he]
    simp only [hk']
    rfl
  have hless : Less (fun _ => True) s s3 := Less.delLink (.refl _ _) trivial
  have hgone : s3.linkAt l = none := by rw [linkAt_filter, if_pos rfl]
  unfold removeAll
  rw [he]
  simp only [hk', hl, hd, if_true, hf]
  cases hn : s.names t with
  | nil => rw [hn] at hx; simp at hx
  | cons z zs =>
    obtain ⟨e, hz⟩ := locate_failed (fun r => blocked hless ht he hk hgone z r)
    refine ⟨e, s3, ?_⟩
    unfold eachName
    by_cases hdz : s.fs.get (t ++ [z]) = some .dir
    · simp only [hdz, if_true]
      unfold removeDir
      rw [hz]
    · simp only [if_neg hdz]
      unfold removeFile
      rw [hz]

theorem meta_ne_data {b : Loc} {ext : Str} {p q : List Str} :
    b ++ extLast ext (str!"meta" :: str!"root" :: p) ≠ b ++ str!"data" :: q := by
  intro e
  have := List.append_cancel_left e
  unfold extLast at this
  simp at this

theorem storeErase_get {h : Hier} {key : Str} {fs : Fs} (hwf : fs.WF) (hp : Plain (h.loc key)) {l : Loc}
    (hl : h.loc key ≠ l) : (Zarr.storeErase h key fs).2.get l = fs.get l := by
  rw [storeErase_spec hwf hp]
  cases fs.get (h.loc key) with
  | none => rfl
  | some n =>
    cases n with
    | dir => rfl
    | file c => exact (Fs.get_del _ _ _).trans (if_neg (Ne.symm hl))

theorem storeErase_ne_panic {h : Hier} {key : Str} {fs : Fs} (hwf : fs.WF) (hp : Plain (h.loc key)) :
    (Zarr.storeErase h key fs).1 ≠ .panic := by
  rw [storeErase_spec hwf hp]
  cases fs.get (h.loc key) with
  | none => simp
  | some n => cases n <;> simp

theorem storeErase_dir {h : Hier} {key : Str} {fs : Fs} (hwf : fs.WF) (hp : Plain (h.loc key)) (e : ErrKind)
    (he : (Zarr.storeErase h key fs).1 = .err e) : fs.get (h.loc key) = some .dir := by
  rw [storeErase_spec hwf hp] at he
  cases hg : fs.get (h.loc key) with
  | none => rw [hg] at he; simp at he
  | some n => cases n with
    | dir => rfl
    | file c => rw [hg] at he; simp at he

theorem storeErase_gone {h : Hier} {key : Str} {fs : Fs} (hwf : fs.WF) (hp : Plain (h.loc key)) (b : Bool)
    (he : (Zarr.storeErase h key fs).1 = .ok b) : (Zarr.storeErase h key fs).2.get (h.loc key) = none := by
  rw [storeErase_spec hwf hp] at he ⊢
  cases hg : fs.get (h.loc key) with
  | none => exact hg
  | some n => cases n with
    | dir => rw [hg] at he; simp at he
    | file c => exact (Fs.get_del _ _ _).trans (if_pos rfl)

theorem storeErase_was {h : Hier} {key : Str} {fs : Fs} (hwf : fs.WF) (hp : Plain (h.loc key)) {l : Loc} {n : Node}
    (hl : (Zarr.storeErase h key fs).2.get l = some n) : fs.get l = some n := by
  by_cases e : h.loc key = l
  · subst e
    rw [storeErase_spec hwf hp] at hl
    cases hg : fs.get (h.loc key) with
    | none => rw [hg] at hl; exact hg.symm.trans hl
    | some k => cases k with
      | dir => rw [hg] at hl; exact hg.symm.trans hl
      | file c =>
        rw [hg] at hl
        have := (Fs.get_del fs (h.loc key) (h.loc key)).trans (if_pos rfl)
        exact absurd (this.symm.trans hl) (by simp)
  · rw [storeErase_get hwf hp e] at hl; exact hl

/-- **C104** fails for every node whose data directory is a symbolic link to a directory with something in it: `remove`
returns an error, whatever the rest of the hierarchy is. With a directory in place of the link it succeeds, if the
metadata files are no directories. The metadata files are gone nevertheless. -/
theorem C104_violated_always (env : Env) (h : Hier) (md : List Str → ArrayMetadata) (path : Str)
    (hb : Plain (segs h.base)) (hs : GoodSuffix h.entry) (hp : Plain (segs path)) (s : LFs) (fs : Fs)
    (hsh : Shows (segs h.base) s fs) (h1 : Single (segs h.base) s)
    (hE : ∀ key ∈ erasedKeys h md (.call (.call (.remove path))), ¬ LinkToDir s (h.loc key))
    (hd : LinkToDir s (h.loc (dataPathKey path))) (x : Str) (hx : fs.get (h.loc (dataPathKey path) ++ [x]) ≠ none) :
    ∃ e s', run (storeErasePrefix h) h (Wide.callProg env h md (.call (.call (.remove path)))) s =
      (.ok (.plain (.plain (.unit (.err e)))), s') ∧
      ((∀ key ∈ erasedKeys h md (.call (.call (.remove path))), fs.get (h.loc key) ≠ some .dir) →
        (Zarr.remove h path fs).1 = .ok () ∧
        ∀ key ∈ erasedKeys h md (.call (.call (.remove path))), s'.stat (h.loc key) = none) := by
  have k : ∀ key ∈ removedKeys h path, Plain (segs key) ∧ segs key ≠ [] := fun key hk => removedKeys_plain hs hp hk
  have k1 := k (groupMetadataKey h.entry path) (by simp [removedKeys])
  have k2 := k (arrayMetadataKey h.entry path) (by simp [removedKeys])
  have k3 := k (dataPathKey path) (by simp [removedKeys])
  let D : List Str → Prop := fun q => ∃ key ∈ erasedKeys h md (.call (.call (.remove path))), q = segs key
  have g0 : Good true (segs h.base) D s fs := ⟨hsh, fun _ => h1, fun _ q hq _ _ => by
    obtain ⟨key, hk, rfl⟩ := hq; exact hE key hk⟩
  obtain ⟨r1, g1⟩ := storeErase_links (h := h) (key := groupMetadataKey h.entry path) hb k1.1 k1.2
    ⟨_, by simp [erasedKeys], rfl⟩ g0
  have p1 := storeErase_ne_panic (h := h) (key := groupMetadataKey h.entry path) (fs := fs) hsh.wf (hb.append k1.1)
  obtain ⟨r2, g2⟩ := storeErase_links (h := h) (key := arrayMetadataKey h.entry path) hb k2.1 k2.2
    ⟨_, by simp [erasedKeys], rfl⟩ g1
  have p2 := storeErase_ne_panic (h := h) (key := arrayMetadataKey h.entry path) g1.shows.wf (hb.append k2.1)
  have n1 : ∀ q, h.loc (groupMetadataKey h.entry path) ≠ h.loc (dataPathKey path) ++ q := by
    intro q
    rw [Hier.loc, Hier.loc, segs_groupMetadataKey hs hp, segs_dataPathKey, List.append_assoc]
    exact meta_ne_data
  have n2 : ∀ q, h.loc (arrayMetadataKey h.entry path) ≠ h.loc (dataPathKey path) ++ q := by
    intro q
    rw [Hier.loc, Hier.loc, segs_arrayMetadataKey hs hp, segs_dataPathKey, List.append_assoc]
    exact meta_ne_data
  have hget : ∀ q, (Zarr.storeErase h (arrayMetadataKey h.entry path)
      (Zarr.storeErase h (groupMetadataKey h.entry path) fs).2).2.get (h.loc (dataPathKey path) ++ q) =
      fs.get (h.loc (dataPathKey path) ++ q) := fun q =>
    (storeErase_get g1.shows.wf (hb.append k2.1) (n2 q)).trans (storeErase_get hsh.wf (hb.append k1.1) (n1 q))
  have hless : Less (fun _ => True) s (Links.storeErase h (arrayMetadataKey h.entry path)
      (Links.storeErase h (groupMetadataKey h.entry path) s).2).2 :=
    storeErase_less (storeErase_less (.refl _ _) hsh.tree (hb.append k1.1) fun _ _ _ => trivial) hsh.tree
      (hb.append k2.1) fun _ _ _ => trivial
  have d1 := storeErase_dir (h := h) (key := groupMetadataKey h.entry path) hsh.wf (hb.append k1.1)
  have d2 := storeErase_dir (h := h) (key := arrayMetadataKey h.entry path) g1.shows.wf (hb.append k2.1)
  have c1 := storeErase_gone (h := h) (key := groupMetadataKey h.entry path) hsh.wf (hb.append k1.1)
  have c2 := storeErase_gone (h := h) (key := arrayMetadataKey h.entry path) g1.shows.wf (hb.append k2.1)
  have hok : (∀ key ∈ erasedKeys h md (.call (.call (.remove path))), fs.get (h.loc key) ≠ some .dir) →
      (Zarr.remove h path fs).1 = .ok () := by
    intro hdoc
    rw [remove_ok_iff hsh.wf hb hs hp, ← loc_groupKey hs hp, ← loc_arrayKey hs hp]
    exact ⟨hdoc _ (by simp [erasedKeys]), hdoc _ (by simp [erasedKeys])⟩
  have m1 := (hb.append k1.1 : Plain (h.loc (groupMetadataKey h.entry path)))
  have m2 := (hb.append k2.1 : Plain (h.loc (arrayMetadataKey h.entry path)))
  have hdir1 : ∀ l, (Zarr.storeErase h (groupMetadataKey h.entry path) fs).2.get l = some .dir → fs.get l = some .dir :=
    fun l => storeErase_was hsh.wf m1
  have hnone2 : ∀ l, (Zarr.storeErase h (groupMetadataKey h.entry path) fs).2.get l = none →
      (Zarr.storeErase h (arrayMetadataKey h.entry path)
        (Zarr.storeErase h (groupMetadataKey h.entry path) fs).2).2.get l = none := fun l e => by
    cases hg : (Zarr.storeErase h (arrayMetadataKey h.entry path)
        (Zarr.storeErase h (groupMetadataKey h.entry path) fs).2).2.get l with
    | none => rfl
    | some n => rw [storeErase_was g1.shows.wf m2 hg] at e; simp at e
  unfold Wide.callProg Wide.remove
  simp only [bind, pure, Wide.Prog.bind, Wide.Prog.record, run]
  generalize hA : Links.storeErase h (groupMetadataKey h.entry path) s = A at *
  obtain ⟨a, s1⟩ := A
  cases a with
  | panic => exact (p1 r1.symm).elim
  | err e => exact ⟨e, s1, rfl, fun hdoc => (hdoc _ (by simp [erasedKeys]) (d1 e r1.symm)).elim⟩
  | ok y =>
    simp only [Wide.Prog.bind, Wide.Prog.record, run]
    simp only at r2 g2 hless
    generalize hA2 : Links.storeErase h (arrayMetadataKey h.entry path) s1 = A at *
    obtain ⟨a, s2⟩ := A
    cases a with
    | panic => exact (p2 r2.symm).elim
    | err e => exact ⟨e, s2, rfl, fun hdoc => (hdoc _ (by simp [erasedKeys]) (hdir1 _ (d2 e r2.symm))).elim⟩
    | ok y =>
      simp only [Wide.Prog.bind, Wide.Prog.record, run]
      simp only at hless g2
      have key : ∃ e s', storeErasePrefix h (dataPathKey path) s2 = (.err e, s') := by
        have hstat : s2.stat (h.loc (dataPathKey path)) = some .dir := by
          have e1 := g2.shows.same _ k3.1
          have e2 := hget []
          have e3 := hsh.same _ k3.1
          have e4 := hd.2
          simp only [List.append_nil, Hier.loc] at e1 e2 e3 e4 ⊢
          rw [e1, e2, ← e3, e4]
        obtain ⟨t, m, hl, ht⟩ := stat_some hstat
        obtain ⟨⟨l, n, he, hk⟩, _⟩ := hd
        -- the entry is still the link
        have hentry : s2.locateEntry (h.loc (dataPathKey path)) = .ok (l, n) ∧ s2.linkAt l ≠ none := by
          obtain ⟨q, y, hq⟩ : ∃ q y, h.loc (dataPathKey path) = q ++ [y] := by
            have hne : h.loc (dataPathKey path) ≠ [] := by simp [Hier.loc, k3.2]
            exact ⟨_, _, (List.dropLast_concat_getLast hne).symm⟩
          have hy : y ≠ dotdot := by
            have : Plain (h.loc (dataPathKey path)) := hb.append k3.1
            rw [hq] at this
            exact (plain_snoc this).2
          rw [hq] at hl he ⊢
          rw [locate_snoc] at hl
          cases hlq : s2.locate q with
          | err e => rw [hlq] at hl; simp at hl
          | panic => rw [hlq] at hl; simp at hl
          | ok r =>
            rw [hlq] at hl
            simp only [Outcome.bind_ok] at hl
            have hdr : s2.fs.get r.1 = some .dir := by
              cases hg : s2.fs.get r.1 with
              | none => rw [walk_one_none hg] at hl; simp at hl
              | some nd =>
                cases nd with
                | file c => rw [walk_one_file hg] at hl; simp at hl
                | dir => rfl
            have hent : s2.locateEntry (q ++ [y]) = .ok (r.1 ++ [y], r.2) := by
              rw [locateEntry_snoc, hlq]
              exact entry_one hdr hy
            have here : Here s2 (r.1 ++ [y]) := by
              by_cases hnl : s2.linkAt (r.1 ++ [y]) = none
              · rw [walk_one hdr hy hnl] at hl
                cases hl
                exact .inl (by rw [ht]; simp)
              · exact .inr hnl
            have hback : s.locateEntry (q ++ [y]) = .ok (r.1 ++ [y], r.2) :=
              walk_sub hless hsh.tree _ _ _ hent here
            rw [he] at hback
            cases hback
            refine ⟨hent, fun hnl => ?_⟩
            rcases here with hg | hg
            · obtain ⟨nd, hnd⟩ := Option.ne_none_iff_exists'.mp hg
              have := hless.get hsh.tree hnd
              rw [hsh.tree.apart _ hk] at this
              simp at this
            · exact hg hnl
        have hname : x ∈ s2.names t := by
          have hfx := hget [x]
          have hpx : Plain (segs (dataPathKey path) ++ [x]) := by
            refine hsh.names _ ?_
            rw [← List.append_assoc]
            exact hx
          have e1 := g2.shows.same _ hpx
          rw [← List.append_assoc] at e1
          have hne : s2.stat (h.loc (dataPathKey path) ++ [x]) ≠ none := by
            rw [Hier.loc] at hfx hx ⊢
            rw [e1, hfx]
            exact hx
          rw [mem_names g2.shows.tree]
          by_cases hnl : s2.linkAt (t ++ [x]) = none
          · left
            intro hnone
            refine hne ?_
            unfold stat
            rw [locate_snoc, hl]
            simp only [Outcome.bind_ok]
            rw [walk_one ht (plain_snoc hpx).2 hnl]
            exact hnone
          · exact .inr hnl
        obtain ⟨e, s', hr⟩ := removeAll_linked g2.shows.tree hentry.1 hentry.2 hl ht hname
        obtain ⟨tt, f1, f2⟩ := getPath_loc (h := h) (key := dataPathKey path) (hb.append k3.1)
        refine ⟨e, s', ?_⟩
        unfold storeErasePrefix
        rw [f1]
        simp only
        rw [f2, hr]
        simp [pathExists, hstat]
      obtain ⟨e, s', hr⟩ := key
      have hless' : Less (fun _ => True) s2 s' := by
        have := storeErasePrefix_less (B := fun _ => True) (key := dataPathKey path) (.refl _ s2) g2.shows.tree
          (hb.append k3.1) fun _ _ _ _ _ => trivial
        rw [hr] at this
        exact this
      have hgone : ∀ key, Plain (segs key) → (Zarr.storeErase h (arrayMetadataKey h.entry path)
          (Zarr.storeErase h (groupMetadataKey h.entry path) fs).2).2.get (h.loc key) = none →
          s'.stat (h.loc key) = none := by
        intro key hkey hnone
        have e1 := g2.shows.same _ hkey
        rw [← Hier.loc, hnone] at e1
        cases hst : s'.stat (h.loc key) with
        | none => rfl
        | some nd =>
          obtain ⟨l, n, q1, q2⟩ := stat_some hst
          have q3 : s2.locate (h.loc key) = .ok (l, n) :=
            walk_sub hless' g2.shows.tree _ _ _ q1 (.inl (by rw [q2]; simp))
          rw [stat_of q3, hless'.get g2.shows.tree q2] at e1
          simp at e1
      rw [hr]
      refine ⟨e, s', rfl, fun hdoc => ⟨hok hdoc, fun key hkey => ?_⟩⟩
      simp only [erasedKeys, List.mem_cons, List.not_mem_nil, or_false] at hkey
      rcases hkey with rfl | rfl
      · exact hgone _ k1.1 (hnone2 _ (c1 _ r1.symm))
      · exact hgone _ k2.1 (c2 _ r2.symm)

/-- The array with its data on another disk. -/
example : LinkToDir demoOnDisk (Demo.hier.loc (dataPathKey str!"a")) ∧
    (∀ key ∈ erasedKeys Demo.hier (fun _ => Demo.arr) (.call (.call (.remove str!"a"))),
      ¬ LinkToDir demoOnDisk (Demo.hier.loc key)) ∧
    Demo.placeA.get (Demo.hier.loc (dataPathKey str!"a") ++ [str!"c1"]) ≠ none ∧
    ∀ key ∈ erasedKeys Demo.hier (fun _ => Demo.arr) (.call (.call (.remove str!"a"))),
      Demo.placeA.get (Demo.hier.loc key) ≠ some .dir := by
  refine ⟨⟨⟨[str!"h", str!"data", str!"root", str!"a"], 40, by decide +kernel⟩, by decide +kernel⟩, ?_, by decide +kernel,
    by decide +kernel⟩
  intro key hk hl
  simp only [erasedKeys, List.mem_cons, List.not_mem_nil, or_false] at hk
  have h2 := hl.2
  rcases hk with rfl | rfl <;> exact absurd h2 (by decide +kernel)

end Zarr.Links
