import Verif.Lemmas.LinkedCalls
/-!
# Symbolic links: C99

The specification (`Spec.Shows`, `Spec.Single`, `Spec.LinkToDir`, `Spec.Reading`, `Spec.results`) is at the beginning of
`Lemmas/LinkedCalls.lean`.
-/

namespace Zarr.Links

open LFs _root_.Zarr.Spec _root_.Zarr.Links.Spec

variable {b : Loc} {s : LFs} {fs : Fs}

/-! ## The theorems -/

/-- **C99** (reading). A call that only reads returns on a hierarchy with symbolic links in it what it returns on one
that has files and directories in their place, and changes nothing. Links may lead out of the hierarchy and several may
lead to the same place. -/
theorem C99_reads (prune : Str → LFs → Outcome Bool × LFs) (env : Env) (h : Hier) (md : List Str → ArrayMetadata)
    (c : WCall) (hb : Plain (segs h.base)) (hs : GoodSuffix h.entry) (hd : '.' ∉ stripDot h.entry.metadataKeySuffix)
    (hm : ∀ q, GoodSep (md q).separator) (hp : Plain (segs c.path)) (hc : Reading c = true) (s : LFs) (fs : Fs)
    (hsh : Shows (segs h.base) s fs) :
    run prune h (Wide.callProg env h md c) s = (.ok (c.run env h md fs).1, s) := by
  have hT : Through false (fun _ => True) (Wide.callProg env h md c) :=
    through_call hb hs hd hm hp (.inr hc) (by rintro p rfl; simp [Reading] at hc) fun _ _ _ => trivial
  obtain ⟨h1, _, h3⟩ := run_links (prune := prune) hb _ hT ⟨hsh, by simp, by simp⟩
  rw [Wide.run_call] at h1
  exact Prod.ext h1 (h3 rfl)

/-- **C99.** Symbolic links are transparent: whatever calls are made one after the other, `remove` left out, they return
on a hierarchy with symbolic links in it what they return on one that has files and directories in their place, and
afterwards the two still show the same. No link is broken, no two paths below the base directory lead to the same file
or directory, and the chunks deleted are not links to directories. -/
theorem C99 (prune : Str → LFs → Outcome Bool × LFs) (env : Env) (h : Hier) (md : List Str → ArrayMetadata)
    (cs : List WCall) (hb : Plain (segs h.base)) (hs : GoodSuffix h.entry)
    (hd : '.' ∉ stripDot h.entry.metadataKeySuffix) (hm : ∀ q, GoodSep (md q).separator)
    (hp : ∀ c ∈ cs, Plain (segs c.path)) (hr : ∀ p, .call (.call (.remove p)) ∉ cs) (s : LFs) (fs : Fs)
    (hsh : Shows (segs h.base) s fs) (h1 : Single (segs h.base) s)
    (hD : ∀ p pos, .call (.call (.deleteChunk p pos)) ∈ cs → ¬ LinkToDir s (h.loc (chunkKey p (md (segs p)) pos))) :
    (results prune env h md cs s).1 = (wResults env h md cs fs).map .ok ∧
    Shows (segs h.base) (results prune env h md cs s).2 (wState env h md cs fs) ∧
    Single (segs h.base) (results prune env h md cs s).2 := by
  -- the chunks that are deleted
  have main : ∀ (D : List Str → Prop) (cs : List WCall) (s : LFs) (fs : Fs), (∀ c ∈ cs, Plain (segs c.path)) →
      (∀ p, .call (.call (.remove p)) ∉ cs) →
      (∀ p pos, .call (.call (.deleteChunk p pos)) ∈ cs → D (segs (chunkKey p (md (segs p)) pos))) →
      Good true (segs h.base) D s fs →
      (results prune env h md cs s).1 = (wResults env h md cs fs).map .ok ∧
      Good true (segs h.base) D (results prune env h md cs s).2 (wState env h md cs fs) := by
    intro D cs
    induction cs with
    | nil => intro s fs _ _ _ g; exact ⟨rfl, g⟩
    | cons c cs ih =>
      intro s fs hp hr hD g
      have hT : Through true D (Wide.callProg env h md c) :=
        through_call hb hs hd hm (hp c (by simp)) (.inl rfl) (by rintro p rfl; exact hr p (by simp))
          (by rintro p pos rfl; exact hD p pos (by simp))
      obtain ⟨i1, i2, _⟩ := run_links (prune := prune) hb _ hT g
      rw [Wide.run_call] at i1 i2
      obtain ⟨j1, j2⟩ := ih _ _ (fun c hc => hp c (by simp [hc])) (fun p hm => hr p (by simp [hm]))
        (fun p pos hm => hD p pos (by simp [hm])) i2
      refine ⟨?_, j2⟩
      show _ :: _ = List.map _ (_ :: _)
      rw [List.map_cons, i1, j1]
  obtain ⟨a1, a2⟩ := main
    (fun q => ∃ p pos, .call (.call (.deleteChunk p pos)) ∈ cs ∧ q = segs (chunkKey p (md (segs p)) pos)) cs s fs hp hr
    (fun p pos hm => ⟨p, pos, hm, rfl⟩)
    ⟨hsh, fun _ => h1, fun _ q => by rintro ⟨p, pos, hm, rfl⟩ _ _; exact hD p pos hm⟩
  exact ⟨a1, a2.shows, a2.single rfl⟩

/-- **C99** (opening). A hierarchy with symbolic links in it is opened as one that has files and directories in their
place. -/
theorem C99_open (env : Env) (base : Str) (hb : Plain (segs base)) (s : LFs) (fs : Fs) (hsh : Shows (segs base) s fs) :
    Links.openHier env base s = (Zarr.openHier env base fs).1 := by
  have hk : Plain [str!"zarr.json"] := by decide
  unfold Links.openHier Zarr.openHier
  simp only [M.bind_apply, readEntryPointMetadata, M.read_apply]
  rw [segs_entryPoint, hsh.readFile hb hk]
  cases fs.readFile (segs base ++ [str!"zarr.json"]) with
  | err e => rfl
  | panic => rfl
  | ok x =>
    simp only [Outcome.bind_ok]
    cases parseEntryPoint env x <;> rfl

/-! ## Examples -/

/-- A test for `Tree`. -/
def checkTree (s : LFs) : Bool :=
  Wide.wellFormed s.fs && decide (s.links.map Prod.fst).Nodup && s.links.all (fun e =>
    decide (e.1 ≠ []) && decide (s.fs.get e.1 = none) && decide (s.fs.get e.1.dropLast = some .dir) &&
      decide (dotdot ∉ e.1)) && s.fs.ents.all fun e => decide (dotdot ∉ e.1)

/-- A test for `Shows`: the same names in all directories. -/
def checkShows (b : Loc) (s : LFs) (fs : Fs) : Bool :=
  checkTree s && Wide.wellFormed fs && fs.ents.all (fun e => decide (dotdot ∉ e.1)) && decide (fs.get b = some .dir) &&
    decide (s.stat b = some .dir) && fs.ents.all fun e =>
      if e.2 = .dir ∧ b <+: e.1 then
        match s.locate e.1 with
        | .ok (l, _) => (s.names l).all (fun x => decide (s.stat (e.1 ++ [x]) = fs.get (e.1 ++ [x])) &&
            decide (fs.get (e.1 ++ [x]) ≠ none)) && (fs.children e.1).all fun c => decide (c.1 ∈ s.names l)
        | _ => false
      else true

/-- A test for `Single`: the entries of the hierarchy are at different locations. -/
def checkSingle (b : Loc) (s : LFs) (fs : Fs) : Bool :=
  (fs.ents.filter fun e => decide (b <+: e.1)).all fun e => (fs.ents.filter fun e => decide (b <+: e.1)).all fun e' =>
    match s.locate e.1, s.locate e'.1 with
    | .ok (l, _), .ok (l', _) => decide (l = l' → e.1 = e'.1)
    | _, _ => true

theorem tree_of_check (h : checkTree s = true) : Tree s := by
  simp only [checkTree, Bool.and_eq_true, decide_eq_true_eq, List.all_eq_true] at h
  obtain ⟨⟨⟨h1, h2⟩, h3⟩, h4⟩ := h
  have hwf : s.fs.WF := (Wide.wf_of_wellFormed h1).1
  refine ⟨hwf, h2, ?_, ?_, ?_, ?_⟩
  · by_cases hk : s.linkAt [] = none
    · exact hk
    · obtain ⟨k, hm⟩ := linkAt_ne_none.mp hk
      exact absurd rfl (h3 _ hm).1.1.1
  · intro l hl
    obtain ⟨k, hm⟩ := linkAt_ne_none.mp hl
    exact (h3 _ hm).1.1.2
  · intro l x hl
    obtain ⟨k, hm⟩ := linkAt_ne_none.mp hl
    have := (h3 _ hm).1.2
    rwa [List.dropLast_concat] at this
  · rintro l (hl | hl)
    · obtain ⟨n, hn⟩ := Option.ne_none_iff_exists'.mp hl
      exact h4 _ (hwf.mem_iff.mpr hn)
    · obtain ⟨k, hm⟩ := linkAt_ne_none.mp hl
      exact (h3 _ hm).2

theorem shows_of_check (h : checkShows b s fs = true) : Shows b s fs := by
  simp only [checkShows, Bool.and_eq_true, decide_eq_true_eq, List.all_eq_true] at h
  obtain ⟨⟨⟨⟨⟨h1, h2⟩, h3⟩, h4⟩, h5⟩, h6⟩ := h
  have ht := tree_of_check h1
  have hwf : fs.WF := (Wide.wf_of_wellFormed h2).1
  have hdir : ∀ q, fs.get (b ++ q) = some .dir → ∃ l n, s.locate (b ++ q) = .ok (l, n) ∧
      (∀ x ∈ s.names l, s.stat (b ++ q ++ [x]) = fs.get (b ++ q ++ [x]) ∧ fs.get (b ++ q ++ [x]) ≠ none) ∧
      ∀ c ∈ fs.children (b ++ q), c.1 ∈ s.names l := by
    intro q hq
    have := h6 _ (hwf.mem_iff.mpr hq)
    rw [if_pos ⟨rfl, List.prefix_append _ _⟩] at this
    cases hl : s.locate (b ++ q) with
    | err e => rw [hl] at this; simp at this
    | panic => rw [hl] at this; simp at this
    | ok r =>
      rw [hl] at this
      simp only [Bool.and_eq_true, decide_eq_true_eq, List.all_eq_true] at this
      exact ⟨r.1, r.2, rfl, this.1, this.2⟩
  have hsame : ∀ q, Plain q → s.stat (b ++ q) = fs.get (b ++ q) := by
    intro q hq
    induction q using Fs.list_concat_induction with
    | h0 => rw [List.append_nil, h5, h4]
    | h1 q x ih =>
      obtain ⟨hq', hx⟩ := plain_snoc hq
      have ih := ih hq'
      rw [← List.append_assoc]
      have hstat : ∀ nd, s.stat (b ++ q) = some nd → nd ≠ .dir → s.stat (b ++ q ++ [x]) = none := by
        intro nd hnd hne
        obtain ⟨l, n, e1, e2⟩ := stat_some hnd
        unfold stat
        rw [locate_snoc, e1]
        simp only [Outcome.bind_ok]
        cases nd with
        | dir => exact absurd rfl hne
        | file c => rw [walk_one_file e2]
      cases hg : fs.get (b ++ q) with
      | none =>
        rw [hg] at ih
        have e1 : fs.get (b ++ q ++ [x]) = none := by
          cases hc : fs.get (b ++ q ++ [x]) with
          | none => rfl
          | some n => have := hwf.parent _ _ _ hc; rw [hg] at this; simp at this
        rw [e1]
        unfold stat at ih ⊢
        rw [locate_snoc]
        cases hl : s.locate (b ++ q) with
        | err e => rfl
        | panic => rfl
        | ok r =>
          rw [hl] at ih
          simp only [Outcome.bind_ok]
          rw [walk_one_none ih]
      | some nd =>
        cases nd with
        | file c =>
          have e1 : fs.get (b ++ q ++ [x]) = none := by
            cases hc : fs.get (b ++ q ++ [x]) with
            | none => rfl
            | some n => have := hwf.parent _ _ _ hc; rw [hg] at this; simp at this
          rw [e1]
          exact hstat _ (ih.trans hg) (by simp)
        | dir =>
          obtain ⟨l, n, a1, a2, a3⟩ := hdir q hg
          by_cases hm : x ∈ s.names l
          · exact (a2 x hm).1
          · have e1 : fs.get (b ++ q ++ [x]) = none := by
              cases hc : fs.get (b ++ q ++ [x]) with
              | none => rfl
              | some n => exact absurd (a3 _ ((Fs.mem_children hwf).mpr hc)) hm
            rw [mem_names ht] at hm
            have hd : s.fs.get l = some .dir := by
              have := ih.trans hg
              rwa [stat_of a1] at this
            have hk : s.linkAt (l ++ [x]) = none := Classical.byContradiction fun hk => hm (.inr hk)
            have hn : s.fs.get (l ++ [x]) = none := Classical.byContradiction fun hk => hm (.inl hk)
            rw [e1]
            unfold stat
            rw [locate_snoc, a1]
            simp only [Outcome.bind_ok]
            rw [walk_one hd hx hk]
            exact hn
  refine ⟨ht, hwf, ?_, h4, hsame, ?_⟩
  · intro q hq
    obtain ⟨n, hn⟩ := Option.ne_none_iff_exists'.mp hq
    exact (plain_append.mp (h3 _ (hwf.mem_iff.mpr hn))).2
  · intro q hq l n x hl hd hk
    have hg : fs.get (b ++ q) = some .dir := by rw [← hsame q hq, stat_of hl]; exact hd
    obtain ⟨l', n', a1, a2, _⟩ := hdir q hg
    rw [hl] at a1
    cases a1
    have := a2 x ((mem_names ht).mpr (.inr hk))
    rw [this.1]; exact this.2

theorem single_of_check (hs : Shows b s fs) (h : checkSingle b s fs = true) : Single b s := by
  simp only [checkSingle, List.all_eq_true, List.mem_filter, decide_eq_true_eq] at h
  intro q q' hq hq' l n n' e e' hg
  have hmem : ∀ {q : List Str} {n : Nat}, Plain q → s.locate (b ++ q) = .ok (l, n) → ∃ nd, (b ++ q, nd) ∈ fs.ents := by
    intro q n hq e
    obtain ⟨nd, hnd⟩ := Option.ne_none_iff_exists'.mp hg
    have := hs.same q hq
    rw [stat_of e] at this
    exact ⟨nd, hs.wf.mem_iff.mpr (this.symm.trans hnd)⟩
  obtain ⟨nd, m1⟩ := hmem hq e
  obtain ⟨nd', m2⟩ := hmem hq' e'
  have := h _ ⟨m1, List.prefix_append _ _⟩ _ ⟨m2, List.prefix_append _ _⟩
  rw [e, e'] at this
  simp only [decide_eq_true_eq] at this
  exact List.append_cancel_left (this trivial)

/-- The hierarchy of `Demo.placeA` with its data on another disk, and the metadata of a group kept elsewhere: `/h/data` is
a link to `/disk/d`, and `/h/meta/root/g.group.json` is a link to `../../../shared/g.json`. -/
def demoLinked : LFs where
  fs := ⟨Demo.placeA.ents.filterMap (fun e =>
      if e.1 = [str!"h", str!"meta", str!"root", str!"g.group.json"] then some ([str!"shared", str!"g.json"], e.2)
      else if e.1 = [str!"h", str!"data"] then none
      else if [str!"h", str!"data"] <+: e.1 then some ([str!"disk", str!"d"] ++ e.1.drop 2, e.2)
      else some e) ++ [([str!"disk"], .dir), ([str!"disk", str!"d"], .dir), ([str!"shared"], .dir)]⟩
  links := [([str!"h", str!"data"], ⟨true, [str!"disk", str!"d"]⟩),
    ([str!"h", str!"meta", str!"root", str!"g.group.json"], ⟨false, [dotdot, dotdot, dotdot, str!"shared", str!"g.json"]⟩)]

theorem demoLinked_shows : Shows [str!"h"] demoLinked Demo.placeA := shows_of_check (by decide +kernel)

theorem demoLinked_single : Single [str!"h"] demoLinked := single_of_check demoLinked_shows (by decide +kernel)

/-- What the hierarchy holds is there, behind the links. -/
example : storeGet Demo.hier (chunkKey str!"a" Demo.arr [1]) demoLinked =
      (Zarr.storeGet Demo.hier (chunkKey str!"a" Demo.arr [1]) Demo.placeA).1 ∧
    storeGet Demo.hier (chunkKey str!"a" Demo.arr [1]) demoLinked ≠ .ok none ∧
    demoLinked.fs.get (Demo.hier.loc (chunkKey str!"a" Demo.arr [1])) = none ∧
    storeExists Demo.hier (groupMetadataKey Demo.hier.entry str!"g") demoLinked = .ok true := by
  decide +kernel

/-- Some calls. -/
def demoCalls : List WCall := [.call (.call (.createGroup str!"b/c")), .listNodes str!"",
  .call (.call (.deleteChunk str!"a" [1])), .call (.call (.readChunk str!"a" .u16 [1])), .call (.call (.setAttributes str!"g" [(str!"k", .bool true)])),
  .call (.call (.listAttributes str!"g"))]

/-- The theorems for it. -/
example (prune : Str → LFs → Outcome Bool × LFs) :
    (results prune Demo.envJ Demo.hier (fun _ => Demo.arr) demoCalls demoLinked).1 =
      (wResults Demo.envJ Demo.hier (fun _ => Demo.arr) demoCalls Demo.placeA).map .ok :=
  (C99 prune Demo.envJ Demo.hier (fun _ => Demo.arr) demoCalls (by decide) (by unfold GoodSuffix; decide) (by decide)
    (fun _ => .inl rfl) (by decide) (by intro p; simp [demoCalls]) demoLinked Demo.placeA demoLinked_shows demoLinked_single
    (by
      intro p pos hm hl
      simp only [demoCalls, List.mem_cons, WCall.call.injEq, BCall.call.injEq, reduceCtorEq, HCall.deleteChunk.injEq,
        List.not_mem_nil, or_false, false_or] at hm
      obtain ⟨rfl, rfl⟩ := hm
      exact absurd hl.2 (by decide +kernel))).1

example (prune : Str → LFs → Outcome Bool × LFs) :
    run prune Demo.hier (Wide.callProg Demo.envJ Demo.hier (fun _ => Demo.arr) (.listNodes str!"")) demoLinked =
      (.ok ((WCall.listNodes str!"").run Demo.envJ Demo.hier (fun _ => Demo.arr) Demo.placeA).1, demoLinked) :=
  C99_reads prune Demo.envJ Demo.hier (fun _ => Demo.arr) _ (by decide) (by unfold GoodSuffix; decide) (by decide)
    (fun _ => .inl rfl) (by decide) rfl demoLinked Demo.placeA demoLinked_shows

/-- A hierarchy with its entry point metadata elsewhere. -/
example : let c := Demo.envJ.json.print EntryPointMetadata.default.toJson
    let s : LFs := ⟨⟨[([], .dir), ([str!"h"], .dir), ([str!"e.json"], .file c)]⟩,
      [([str!"h", str!"zarr.json"], ⟨false, [dotdot, str!"e.json"]⟩)]⟩
    let fs : Fs := ⟨[([], .dir), ([str!"h"], .dir), ([str!"h", str!"zarr.json"], .file c)]⟩
    Links.openHier Demo.envJ str!"/h" s = (Zarr.openHier Demo.envJ str!"/h" fs).1 ∧
    Links.openHier Demo.envJ str!"/h" s = .ok Demo.hier :=
  ⟨C99_open Demo.envJ str!"/h" (by decide) _ _ (shows_of_check (by decide +kernel)), by decide +kernel⟩

/-- Why links to directories are left out of the chunks deleted: the link is removed, where a directory is refused. -/
example : let l := Demo.hier.loc (chunkKey str!"a" Demo.arr [1])
    let s : LFs := ⟨⟨([str!"d"], .dir) :: Demo.placeA.ents.filter fun e => decide (e.1 ≠ l)⟩, [(l, ⟨true, [str!"d"]⟩)]⟩
    let fs : Fs := ⟨(l, .dir) :: Demo.placeA.ents.filter fun e => decide (e.1 ≠ l)⟩
    checkShows [str!"h"] s fs = true ∧
    (storeErase Demo.hier (chunkKey str!"a" Demo.arr [1]) s).1 = .ok true ∧
    (Zarr.storeErase Demo.hier (chunkKey str!"a" Demo.arr [1]) fs).1 = .err .isADirectory := by
  decide +kernel

/-- Attributes set through the link change the shared file, and the link stays. -/
example : let s := (results (fun _ s => (.ok true, s)) Demo.envJ Demo.hier (fun _ => Demo.arr) demoCalls demoLinked).2
    s.fs.get [str!"shared", str!"g.json"] ≠ demoLinked.fs.get [str!"shared", str!"g.json"] ∧
    s.linkAt [str!"h", str!"meta", str!"root", str!"g.group.json"] ≠ none ∧
    s.fs.get [str!"h", str!"meta", str!"root", str!"b"] = some .dir ∧
    s.linkAt [str!"h", str!"data"] ≠ none := by
  decide +kernel

end Zarr.Links
