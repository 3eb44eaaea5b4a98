import Verif.Props.ThreadRemove
/-!
# Other programs in the same directory: C94
-/

namespace Zarr

open Spec

/-! ## Specification -/

/-- A place that a call looks at or changes: the documents of the node, for `list_nodes` the directory of its
documents and all below, for `remove` the directory of its chunks and all below, or a chunk. -/
inductive Spec.WCall.Place (h : Hier) (md : List Str → ArrayMetadata) (c : WCall) : Loc → Prop
  | array : c.Touches md (.docs (segs c.path)) → Place h md c (docLoc h str!"array" c.path)
  | group : c.Touches md (.docs (segs c.path)) → Place h md c (docLoc h str!"group" c.path)
  | below : c.Touches md (.below (segs c.path)) → Place h md c (implicitLoc h c.path)
  | data : c.Touches md (.data (segs c.path)) → Place h md c (dataLoc h c.path)
  | chunk (pos : List Nat) : c.Touches md (.chunk (segs c.path) pos) →
      Place h md c (chunkLoc h c.path (md (segs c.path)).separator pos)

/-- The location is no place of the call, nor below or above one. -/
def Spec.WCall.Foreign (h : Hier) (md : List Str → ArrayMetadata) (c : WCall) (l : Loc) : Prop :=
  (∀ r, c.Place h md r → ¬ r <+: l ∧ ¬ l <+: r) ∧ (c.looksAtDir = true → l ≠ implicitLoc h c.path)

/-- A location that a filesystem can have. -/
def Spec.RealLoc (l : Loc) : Prop := ∀ s ∈ l, '/' ∉ s ∧ s ≠ str!".."

/-- A change that another program makes which has nothing to do with the calls: it writes or removes a file
or directory that is foreign to the calls, or makes a directory that is not at or below a place of the
calls. -/
inductive Spec.Unrelated (h : Hier) (md : List Str → ArrayMetadata) (cs : List WCall) (fs : Fs) : Fs → Prop
  | put (l : Loc) (n : Node) : RealLoc l → (∀ c ∈ cs, c.Foreign h md l) → (fs.put l n).WF →
      Unrelated h md cs fs (fs.put l n)
  | del (l : Loc) : RealLoc l → (∀ c ∈ cs, c.Foreign h md l) → (fs.del l).WF → Unrelated h md cs fs (fs.del l)
  | mkdir (l : Loc) : RealLoc l → (∀ c ∈ cs, ∀ r, c.Place h md r → ¬ r <+: l) → fs.get l = none →
      (fs.put l .dir).WF → Unrelated h md cs fs (fs.put l .dir)

namespace Wide

/-- A thread runs, in `n` steps of its own, while others change the filesystem between its steps. -/
inductive Among {α : Type} (h : Hier) (other : Fs → Fs → Prop) : Pc α → Fs → Nat → Pc α → Fs → Prop
  | refl (pc fs) : Among h other pc fs 0 pc fs
  | step {pc fs pc1 fs1 n pc2 fs2} : pc.next h [] fs = some (pc1, fs1) → Among h other pc1 fs1 n pc2 fs2 →
      Among h other pc fs (n + 1) pc2 fs2
  | other {pc fs fs1 n pc2 fs2} : other fs fs1 → Among h other pc fs1 n pc2 fs2 → Among h other pc fs n pc2 fs2

/-! ## One thread and its twin -/

section
variable {α : Type} {h : Hier} {fs0 fs fs1 : Fs} {P : Prog α} {R W : List Loc} {pc pc1 : Pc α} {m : Nat}

theorem Track.init (hwf : fs0.WF) (hnm : fs0.Named) (hne : ∀ r ∈ R, r ≠ []) (hpl : ∀ r ∈ R, Plain r)
    (hsub : ∀ r ∈ W, r ∈ R) (hab : ∀ l, Above R l → ∀ b, fs0.get l ≠ some (.file b))
    (hu : P.Uses h (Above R) (Under R) (Under W)) : ∃ m, Track h fs0 fs0 P R W (.prog P) m := by
  obtain ⟨fs', T⟩ := exists_twin hwf hnm hpl hab
  have hW : ¬ Under W [] := by
    rintro ⟨w, hw, hw2⟩
    exact hne w (hsub w hw) (List.prefix_nil.mp hw2)
  have R' : Rel h R W (.prog P) fs0 (.prog P) fs' 0 := ⟨T, .inl ⟨rfl, hu, rfl⟩⟩
  obtain ⟨f2, h1, h2⟩ := Rel.leads hne hsub (solo hW P fs0 hwf hnm hu) R'
  obtain ⟨c, hc⟩ := h1.costs
  exact ⟨0 + c, by intro Q; simp, .prog P, fs', f2, 0, c, R', h1, h2, hc, Nat.le_refl _⟩

theorem Track.step (hne : ∀ r ∈ R, r ≠ []) (hsub : ∀ r ∈ W, r ∈ R) (K : Track h fs0 fs P R W pc m)
    (hn : pc.next h [] fs = some (pc1, fs1)) :
    ∃ m', m' < m ∧ Track h fs0 fs1 P R W pc1 m' ∧ fs1.WF ∧ fs1.Named := by
  obtain ⟨_, pc', fs', f2, d, c, R', hl, T2, hc, hdc⟩ := K
  have hset := settled_next hn
  obtain ⟨_, hor⟩ := R'.step hne hsub hn
  rcases hor with ⟨d1, hd1, R1⟩ | ⟨pc1', fs1', d1, hn', R1, hroom⟩
  · exact ⟨d1 + c, by omega, ⟨hset, pc', fs', f2, d1, c, R1, hl, T2, hc, Nat.le_refl _⟩, R1.twin.wf, R1.twin.named⟩
  · obtain ⟨c1, hc1, hlt⟩ := hc.next hn'
    refine ⟨d1 + c1, by omega, ⟨hset, pc1', fs1', f2, d1, c1, R1, ?_, T2, hc1, Nat.le_refl _⟩, R1.twin.wf,
      R1.twin.named⟩
    exact hl.finish (.one hn')

theorem Track.other {X : List Loc} (hsub : ∀ r ∈ W, r ∈ R) (K : Track h fs0 fs P R W pc m) (ha : Apart X R)
    (he : Eff X fs fs1) (hw : fs1.WF) (hn : fs1.Named) : Track h fs0 fs1 P R W pc m := by
  obtain ⟨q0, q1, q2, q3, q4, q5, q6, q7, q8, q9, q10⟩ := K
  exact ⟨q0, q1, q2, q3, q4, q5, q6.other hsub ha he hw hn, q7, q8, q9, q10⟩

theorem Track.result {r : Outcome α} (K : Track h fs0 fs P R W (.prog (.done r)) m) :
    r = (P.run h fs0).1 ∧ ∀ l, Under R l → fs.get l = (P.run h fs0).2.get l := by
  obtain ⟨_, pc', fs', f2, d, c, R', hl, T2, _, _⟩ := K
  obtain ⟨T, ⟨rfl, _, _⟩ | ⟨p, a, v, k, t, h0, _⟩⟩ := R'
  · cases hl with
    | refl => exact ⟨rfl, fun l hl => by rw [T.get hl, T2.get hl]⟩
    | step hn _ => simp [Pc.next] at hn
  · simp at h0

theorem Track.progress (K : Track h fs0 fs P R W pc m) :
    (∃ r, pc = .prog (.done r)) ∨ ∃ x, pc.next h [] fs = some x := by
  cases hn : pc.next h [] fs with
  | some x => exact .inr ⟨x, rfl⟩
  | none =>
    obtain ⟨hset, pc', fs', f2, d, c, R', _⟩ := K
    rcases next_none hn with ⟨r, hd⟩ | ⟨r, hd⟩ | ⟨l, x, hw, hany⟩
    · exact .inl ⟨r, hd⟩
    · rw [hd] at R' hset
      obtain ⟨_, ⟨_, ok, _⟩ | ⟨p, a, v, k, t, h0, _, _, _, _, _, _, _, _, hdig⟩⟩ := R'
      · obtain ⟨P, hP', _⟩ := ok
        rw [hP'] at hset
        exact absurd rfl (hset P)
      · simp only [Pc.base.injEq] at h0
        rw [← h0] at hdig
        cases hdig
    · simp at hany

end

/-! ## Changes by others -/

section
variable {h : Hier} {md : List Str → ArrayMetadata}

theorem place_of_root {c : WCall} {r : Loc} (hs : ∀ q, GoodSep (md q).separator) (hk : RootKind h md c r) :
    c.Place h md r ∨ c.looksAtDir = true ∧ c.Touches md (.docs (segs c.path)) ∧
      r = implicitLoc h c.path ++ [str!"/"] := by
  cases hk with
  | array _ ht => exact .inl (.array ht)
  | group _ ht => exact .inl (.group ht)
  | spot _ _ hl ht => exact .inr ⟨hl, ht, rfl⟩
  | below _ _ ht => exact .inl (.below ht)
  | data _ ht => exact .inl (.data ht)
  | chunk pos _ _ ht =>
    rw [loc_chunkKey ((hs _).imp id (·.2))]
    exact .inl (.chunk pos ht)

theorem foreign_apart {c : WCall} {l r : Loc} (hs : ∀ q, GoodSep (md q).separator) (hl : RealLoc l)
    (hf : c.Foreign h md l) (hk : RootKind h md c r) : ¬ l <+: r ∧ ¬ r <+: l := by
  rcases place_of_root hs hk with hp | ⟨hd, ht, rfl⟩
  · exact (hf.1 r hp).symm
  · have hslash : ¬ implicitLoc h c.path ++ [str!"/"] <+: l := fun hp =>
      (hl str!"/" (hp.subset (by simp))).1 (by simp)
    refine ⟨fun hp => ?_, hslash⟩
    rcases prefix_snoc hp with e | hp
    · exact hslash (e ▸ List.prefix_rfl)
    · obtain ⟨i, a, e1, e2⟩ := meta_doc_split h str!"array" c.path
      have hne := hf.2 hd
      rw [e1, ← List.append_assoc] at hp hne
      rcases prefix_snoc hp with e | hp
      · exact hne e
      · refine (hf.1 _ (.array ht)).2 ?_
        rw [e2, ← List.append_assoc]
        exact hp.trans (List.prefix_append _ _)

/-- A name that is longer than all names in some locations. -/
theorem fresh_name (rs : List Loc) : ∃ x : Str, x ≠ str!".." ∧ ∀ r ∈ rs, x ∉ r := by
  have hb : ∃ n, ∀ r ∈ rs, ∀ s ∈ r, s.length < n := by
    induction rs with
    | nil => exact ⟨0, by simp⟩
    | cons r rs ih =>
      obtain ⟨n, hn⟩ := ih
      have hr : ∃ k, ∀ s ∈ r, s.length < k := by
        clear hn
        induction r with
        | nil => exact ⟨0, by simp⟩
        | cons s r ih =>
          obtain ⟨k, hk⟩ := ih
          refine ⟨k + s.length + 1, fun t ht => ?_⟩
          rcases List.mem_cons.mp ht with rfl | ht
          · omega
          · have := hk t ht; omega
      obtain ⟨k, hk⟩ := hr
      refine ⟨n + k, fun r' hr' s hs => ?_⟩
      rcases List.mem_cons.mp hr' with rfl | hr'
      · have := hk s hs; omega
      · have := hn r' hr' s hs; omega
  obtain ⟨n, hn⟩ := hb
  refine ⟨List.replicate (n + 3) 'a', fun e => ?_, fun r hr hx => ?_⟩
  · have := congrArg List.length e
    simp at this
  · have := hn r hr _ hx
    rw [List.length_replicate] at this
    omega

theorem unrelated_eff {cs : List WCall} {fs fs1 : Fs} (hs : ∀ q, GoodSep (md q).separator)
    (hok : ∀ c ∈ cs, c.Fits h md) (hn : fs.Named) (hu : Unrelated h md cs fs fs1) :
    ∃ X, Apart X (threadRoots h md cs) ∧ Eff X fs fs1 ∧ fs1.WF ∧ fs1.Named := by
  have hplain : ∀ {l}, RealLoc l → Plain l := fun hl he => (hl _ he).2 rfl
  have hroot : ∀ {l}, RealLoc l → (∀ c ∈ cs, c.Foreign h md l) → Apart [l] (threadRoots h md cs) := by
    intro l hl hf w hw r hr
    rw [List.mem_singleton.mp hw]
    obtain ⟨c, hc, hr⟩ := List.mem_flatMap.mp hr
    exact foreign_apart hs hl (hf c hc) (rootKind (hok c hc) hr)
  cases hu with
  | put l n hl hf hw =>
    exact ⟨[l], hroot hl hf, .write l n ⟨l, by simp, List.prefix_rfl⟩, hw, hn.put (hplain hl) n⟩
  | del l hl hf hw => exact ⟨[l], hroot hl hf, .del l ⟨l, by simp, List.prefix_rfl⟩, hw, hn.del l⟩
  | mkdir l hl hf hg hw =>
    obtain ⟨x, _, hx⟩ := fresh_name (threadRoots h md cs)
    refine ⟨[l ++ [x]], ?_, .mkdir l hg ⟨l ++ [x], by simp, List.prefix_append _ _⟩, hw, hn.put (hplain hl) .dir⟩
    intro w hw r hr
    rw [List.mem_singleton.mp hw]
    refine ⟨fun hp => hx r hr (hp.subset (by simp)), fun hp => ?_⟩
    rcases prefix_snoc hp with e | hp
    · exact hx r hr (e ▸ by simp)
    · obtain ⟨c, hc, hr⟩ := List.mem_flatMap.mp hr
      rcases place_of_root hs (rootKind (hok c hc) hr) with hpl | ⟨_, _, rfl⟩
      · exact hf c hc r hpl hp
      · exact (hl str!"/" (hp.subset (by simp))).1 (by simp)

theorem root_of_place {c : WCall} {r : Loc} (hs : ∀ q, GoodSep (md q).separator) (hok : c.Fits h md)
    (hp : c.Place h md r) : r ∈ rootsOf h md c := by
  have hbox : ∀ {b pos}, BoxMeetsChunks (md (segs c.path)) b → OverlapsBoth (md (segs c.path)) b pos →
      pos ∈ visited (md (segs c.path)) b := by
    intro b pos hm ho
    obtain ⟨p, h1, h2, h3⟩ := ho
    have hd : b.offset.length = b.shape.length := by have := Zarr.InBox.length h2; omega
    have ho' : b.offset.length = (md (segs c.path)).shape.length := by
      have := Zarr.InBox.length h2
      have := Inside.length h1
      omega
    obtain ⟨it, hit⟩ := boundedCoordIter_exists ho' hm.pos
    exact mem_visited hit ((mem_boundedCoordIter hm.dims hd hm.some hit).mpr (touches_of_overlap hm.pos hm.dims h1 h2 h3))
  have hch : ∀ pos, chunkLoc h c.path (md (segs c.path)).separator pos =
      h.loc (chunkKey c.path (md (segs c.path)) pos) := fun pos => (loc_chunkKey ((hs _).imp id (·.2))).symm
  cases hp with
  | array ht =>
    cases c with
    | listNodes p => simp [WCall.Touches] at ht
    | call c =>
      cases c with
      | readBox p t b => simp [WCall.Touches] at ht
      | writeBox p t o a => simp [WCall.Touches] at ht
      | call c => cases c <;> simp [WCall.Touches] at ht <;> simp [rootsOf, docRoots, WCall.path]
  | group ht =>
    cases c with
    | listNodes p => simp [WCall.Touches] at ht
    | call c =>
      cases c with
      | readBox p t b => simp [WCall.Touches] at ht
      | writeBox p t o a => simp [WCall.Touches] at ht
      | call c => cases c <;> simp [WCall.Touches] at ht <;> simp [rootsOf, docRoots, WCall.path]
  | below ht =>
    cases c with
    | listNodes p => simp [rootsOf, WCall.path]
    | call c =>
      cases c with
      | readBox p t b => simp [WCall.Touches] at ht
      | writeBox p t o a => simp [WCall.Touches] at ht
      | call c => cases c <;> simp [WCall.Touches] at ht
  | data ht =>
    cases c with
    | listNodes p => simp [WCall.Touches] at ht
    | call c =>
      cases c with
      | readBox p t b => simp [WCall.Touches] at ht
      | writeBox p t o a => simp [WCall.Touches] at ht
      | call c => cases c <;> simp [WCall.Touches] at ht <;> simp [rootsOf, WCall.path]
  | chunk pos ht =>
    rw [hch]
    cases c with
    | listNodes p => simp [WCall.Touches] at ht
    | call c =>
      cases c with
      | readBox p t b =>
        obtain ⟨pos', h1, h2⟩ := ht
        cases h2
        exact List.mem_map.mpr ⟨_, hbox hok.2 h1, rfl⟩
      | writeBox p t o a =>
        obtain ⟨pos', h1, h2⟩ := ht
        cases h2
        exact List.mem_map.mpr ⟨_, hbox hok.2 h1, rfl⟩
      | call c => cases c <;> simp [WCall.Touches] at ht <;> simp [rootsOf, WCall.path, ht]

end

/-- **C94.** While a thread makes calls, other programs write, remove and create anything that has nothing to do
with these calls, at any moments between the system calls. The thread gets the results it gets alone,
it finishes after a bounded number of its own steps and never has to wait, and the files and directories that
its calls are about are in the end those that the calls leave alone. -/
theorem C94 (env : Env) (h : Hier) (md : List Str → ArrayMetadata) (cs : List WCall) (fs : Fs) (hwf : fs.WF)
    (hnm : fs.Named) (hb : Plain (segs h.base)) (hsfx : GoodSuffix h.entry)
    (hdot : '.' ∉ stripDot h.entry.metadataKeySuffix) (hs : ∀ q, GoodSep (md q).separator)
    (hok : ∀ c ∈ cs, c.Fits h md ∧ c.Open h md fs) :
    ∃ N, ∀ n pc fs1, Among h (Unrelated h md cs) (.prog (threadProg env h md cs)) fs n pc fs1 →
      n ≤ N ∧ fs1.WF ∧
      (∀ r, pc = .prog (.done r) → r = .ok (wResults env h md cs fs) ∧
        ∀ c ∈ cs, ∀ l r, c.Place h md r → r <+: l → fs1.get l = (wState env h md cs fs).get l) ∧
      ((∀ r, pc ≠ .prog (.done r)) → ∃ x, pc.next h [] fs1 = some x) := by
  have hkind : ∀ r ∈ threadRoots h md cs, ∃ c ∈ cs, RootKind h md c r ∧ c.Open h md fs := by
    intro r hr
    obtain ⟨c, h1, h2⟩ := List.mem_flatMap.mp hr
    exact ⟨c, h1, rootKind (hok c h1).1 h2, (hok c h1).2⟩
  have hne : ∀ r ∈ threadRoots h md cs, r ≠ [] := by
    intro r hr
    obtain ⟨c, _, h2, _⟩ := hkind r hr
    exact h2.ne_nil
  have hsub := threadWrites_sub (h := h) (md := md) (cs := cs)
  obtain ⟨N, hN⟩ := Track.init (P := threadProg env h md cs) (h := h) hwf hnm hne
    (by
      intro r hr
      obtain ⟨c, _, h2, _⟩ := hkind r hr
      exact h2.plain hb hs) hsub
    (by
      rintro l ⟨hu, r, hr, hl⟩ b
      obtain ⟨c, _, h2, h3⟩ := hkind r hr
      exact h2.open hs h3 hl (fun e => hu ⟨r, hr, e ▸ List.prefix_rfl⟩) b)
    (uses_thread hb hsfx hdot hs fun c hc => (hok c hc).1)
  refine ⟨N, fun n pc fs1 hrun => ?_⟩
  have key : ∀ {pc0 f0 n pc fs1}, Among h (Unrelated h md cs) pc0 f0 n pc fs1 → ∀ m, f0.WF → f0.Named →
      Track h fs f0 (threadProg env h md cs) (threadRoots h md cs) (threadWrites h md cs) pc0 m →
      ∃ m', n + m' ≤ m ∧ fs1.WF ∧
        Track h fs fs1 (threadProg env h md cs) (threadRoots h md cs) (threadWrites h md cs) pc m' := by
    intro pc0 f0 n pc fs1 ha
    induction ha with
    | refl pc f => intro m hw _ K; exact ⟨m, by omega, hw, K⟩
    | step hn _ ih =>
      intro m hw hnm K
      obtain ⟨m1, hlt, K1, hw1, hnm1⟩ := K.step hne hsub hn
      obtain ⟨m2, h1, h2, h3⟩ := ih m1 hw1 hnm1 K1
      exact ⟨m2, by omega, h2, h3⟩
    | other ho _ ih =>
      intro m hw hnm K
      obtain ⟨X, ha, he, hw1, hnm1⟩ := unrelated_eff hs (fun c hc => (hok c hc).1) hnm ho
      exact ih m hw1 hnm1 (K.other hsub ha he hw1 hnm1)
  obtain ⟨m', hle, hw1, K⟩ := key hrun N hwf hnm hN
  refine ⟨by omega, hw1, fun r hr => ?_, fun hnot => ?_⟩
  · subst hr
    obtain ⟨h1, h2⟩ := K.result
    rw [run_thread] at h1 h2
    exact ⟨h1, fun c hc l r hp hl => h2 l ⟨r, List.mem_flatMap.mpr ⟨c, hc, root_of_place hs (hok c hc).1 hp⟩, hl⟩⟩
  · exact K.progress.resolve_left fun ⟨r, hr⟩ => hnot r hr

/-! ## Examples -/

/-- What happens next: a step of the thread, or a change by another program. -/
inductive Event
  | self
  | put (l : Loc) (n : Node)
  | del (l : Loc)
  | mkdir (l : Loc)

/-- A run as a computation. -/
def drive {α : Type} (h : Hier) : Pc α → Fs → List Event → Option (Nat × Pc α × Fs)
  | pc, fs, [] => some (0, pc, fs)
  | pc, fs, .self :: es =>
    match pc.next h [] fs with
    | some (pc1, fs1) => (drive h pc1 fs1 es).map fun x => (x.1 + 1, x.2)
    | none => none
  | pc, fs, .put l n :: es => if wellFormed (fs.put l n) then drive h pc (fs.put l n) es else none
  | pc, fs, .del l :: es => if wellFormed (fs.del l) then drive h pc (fs.del l) es else none
  | pc, fs, .mkdir l :: es =>
    if wellFormed (fs.put l .dir) && (fs.get l).isNone then drive h pc (fs.put l .dir) es else none

/-- The changes are unrelated to the calls. -/
def Event.Ok (h : Hier) (md : List Str → ArrayMetadata) (cs : List WCall) : Event → Prop
  | .self => True
  | .put l _ | .del l => RealLoc l ∧ ∀ c ∈ cs, c.Foreign h md l
  | .mkdir l => RealLoc l ∧ ∀ c ∈ cs, ∀ r, c.Place h md r → ¬ r <+: l

theorem among_of_drive {α : Type} {h : Hier} {md : List Str → ArrayMetadata} {cs : List WCall} :
    ∀ {es : List Event} {pc : Pc α} {fs : Fs} {n : Nat} {pc2 : Pc α} {fs2 : Fs}, (∀ e ∈ es, e.Ok h md cs) →
      drive h pc fs es = some (n, pc2, fs2) → Among h (Unrelated h md cs) pc fs n pc2 fs2
  | [], _, _, _, _, _, _, hd => by cases hd; exact .refl _ _
  | .self :: es, pc, fs, n, pc2, fs2, ho, hd => by
    unfold drive at hd
    split at hd
    · rename_i pc1 fs1 hn
      cases hr : drive h pc1 fs1 es with
      | none => rw [hr] at hd; cases hd
      | some x =>
        obtain ⟨n1, pc3, fs3⟩ := x
        rw [hr] at hd
        cases hd
        exact .step hn (among_of_drive (fun e he => ho e (.tail _ he)) hr)
    · cases hd
  | .put l m :: es, pc, fs, n, pc2, fs2, ho, hd => by
    have h0 := ho _ (.head _)
    unfold drive at hd
    split at hd
    · rename_i hw
      exact .other (.put l m h0.1 h0.2 (wf_of_wellFormed hw).1) (among_of_drive (fun e he => ho e (.tail _ he)) hd)
    · cases hd
  | .del l :: es, pc, fs, n, pc2, fs2, ho, hd => by
    have h0 := ho _ (.head _)
    unfold drive at hd
    split at hd
    · rename_i hw
      exact .other (.del l h0.1 h0.2 (wf_of_wellFormed hw).1) (among_of_drive (fun e he => ho e (.tail _ he)) hd)
    · cases hd
  | .mkdir l :: es, pc, fs, n, pc2, fs2, ho, hd => by
    have h0 := ho _ (.head _)
    unfold drive at hd
    split at hd
    · rename_i hw
      rw [Bool.and_eq_true, Option.isNone_iff_eq_none] at hw
      exact .other (.mkdir l h0.1 h0.2 hw.2 (wf_of_wellFormed hw.1).1)
        (among_of_drive (fun e he => ho e (.tail _ he)) hd)
    · cases hd

/-- The thread of the example: it writes and reads a chunk of `/b/b`, then asks whether `/b` exists. -/
def besideCalls : List WCall :=
  [.call (.call (.writeChunk str!"/b/b" .u16 Demo.chunk)), .call (.call (.readChunk str!"/b/b" .u16 [1])),
   .call (.call (.nodeExists str!"/b"))]

/-- The directory of the chunks of `/b/b`. -/
def besideDir : Loc := [str!"h", str!"data", str!"root", str!"b", str!"b"]

theorem beside_places {c : WCall} (hc : c ∈ besideCalls) {r : Loc} (hp : c.Place Demo.hier (fun _ => Demo.arr) r) :
    r ∈ [besideDir ++ [str!"c1"], docLoc Demo.hier str!"array" str!"/b", docLoc Demo.hier str!"group" str!"/b"] := by
  simp only [besideCalls, List.mem_cons, List.not_mem_nil, or_false] at hc
  rcases hc with rfl | rfl | rfl <;> cases hp with
    | array ht => simp [WCall.Touches, WCall.path] at ht ⊢
    | group ht => simp [WCall.Touches, WCall.path] at ht ⊢
    | below ht => simp [WCall.Touches] at ht
    | data ht => simp [WCall.Touches] at ht
    | chunk pos ht =>
      simp [WCall.Touches] at ht
      try (obtain ⟨_, rfl⟩ := ht; exact List.mem_cons.mpr (.inl (by decide)))

/-- Writing or removing another chunk of the same array is unrelated to the calls, as is making its directory. -/
theorem beside_foreign : ∀ c ∈ besideCalls, c.Foreign Demo.hier (fun _ => Demo.arr) (besideDir ++ [str!"c2"]) := by
  intro c hc
  refine ⟨fun r hp => ?_, fun _ => ?_⟩
  · have := beside_places hc hp
    clear hp hc c
    revert r
    decide
  · simp only [besideCalls, List.mem_cons, List.not_mem_nil, or_false] at hc
    rcases hc with rfl | rfl | rfl <;> decide

theorem beside_above : ∀ i, ∀ c ∈ besideCalls, ∀ r, c.Place Demo.hier (fun _ => Demo.arr) r → ¬ r <+: besideDir.take i := by
  intro i c hc r hp hle
  have := beside_places hc hp
  replace hle := hle.trans (List.take_prefix i besideDir)
  clear hp hc c i
  revert r
  decide

theorem beside_real : ∀ s ∈ besideDir ++ [str!"c2"], '/' ∉ s ∧ s ≠ str!".." := by decide

/-- Another program makes the directory of the chunks and writes a chunk there while the thread makes the same
directory, and removes this chunk while the thread writes its own. -/
def besideRun : List Event :=
  [.self, .self, .mkdir (besideDir.take 4), .mkdir besideDir, .put (besideDir ++ [str!"c2"]) (.file [1]), .self, .self,
   .del (besideDir ++ [str!"c2"])] ++ List.replicate 21 .self

theorem besideRun_ok : ∀ e ∈ besideRun, e.Ok Demo.hier (fun _ => Demo.arr) besideCalls := by
  have h4 : RealLoc (besideDir.take 4) := fun s hs => beside_real s (List.mem_append_left _ (List.mem_of_mem_take hs))
  have h5 : RealLoc besideDir := fun s hs => beside_real s (List.mem_append_left _ hs)
  intro e he
  rcases List.mem_append.mp he with he | he
  · simp only [List.mem_cons, List.not_mem_nil, or_false] at he
    rcases he with rfl | rfl | rfl | rfl | rfl | rfl | rfl | rfl
    · trivial
    · trivial
    · exact ⟨h4, beside_above 4⟩
    · exact ⟨h5, beside_above 5⟩
    · exact ⟨beside_real, beside_foreign⟩
    · trivial
    · trivial
    · exact ⟨beside_real, beside_foreign⟩
  · rw [(List.mem_replicate.mp he).2]
    trivial

/-- The thread has finished. -/
def finished {α : Type} : Option (Nat × Pc α × Fs) → Bool
  | some (_, .prog (.done _), _) => true
  | _ => false

set_option maxRecDepth 20000 in
/-- The calls meet the hypotheses of C94, and the run above is one of those it is about: the thread finishes and
got these results, and its chunk is there. -/
example : ∃ n fs1, Among Demo.hier (Unrelated Demo.hier (fun _ => Demo.arr) besideCalls)
      (.prog (threadProg Demo.envJ Demo.hier (fun _ => Demo.arr) besideCalls)) Wide.demoFs n
      (.prog (.done (.ok [.plain (.plain (.unit (.ok ()))), .plain (.plain (.data (.ok (some ⟨.u16, Demo.chunk.data⟩)))),
        .plain (.plain (.bool (.ok true)))]))) fs1 ∧
      fs1.content (besideDir ++ [str!"c1"]) =
        (wState Demo.envJ Demo.hier (fun _ => Demo.arr) besideCalls Wide.demoFs).content (besideDir ++ [str!"c1"]) := by
  have hfin : finished (drive Demo.hier (.prog (threadProg Demo.envJ Demo.hier (fun _ => Demo.arr) besideCalls))
      Wide.demoFs besideRun) = true := by decide +kernel
  have hp : ∀ {p : Str}, (segs p).all (fun s => decide (s = str!"a" ∨ s = str!"b")) = true → OrdinaryPath Demo.hier p :=
    Demo.ordinaryPath
  have ho : ∀ {p : Str}, (openAt Wide.demoFs (implicitLoc Demo.hier p) && openAt Wide.demoFs (dataLoc Demo.hier p)) = true →
      ∀ q, q <+: implicitLoc Demo.hier p ∨ q <+: dataLoc Demo.hier p → ∀ b, Wide.demoFs.get q ≠ some (.file b) := by
    intro p h q hq b
    rw [Bool.and_eq_true] at h
    exact hq.elim (fun hq => openAt_spec h.1 hq b) fun hq => openAt_spec h.2 hq b
  have hc : ∀ q, q <+: chunkLoc Demo.hier str!"/b/b" str!"/" [1] → ∀ b, Wide.demoFs.get q ≠ some (.file b) := by
    intro q hq b
    exact openAt_spec (l := chunkLoc Demo.hier str!"/b/b" str!"/" [1]) (by decide +kernel) hq b
  obtain ⟨N, hN⟩ := C94 Demo.envJ Demo.hier (fun _ => Demo.arr) besideCalls Wide.demoFs Wide.demoFs_wf.1 Wide.demoFs_wf.2
    (by decide) (by unfold GoodSuffix; decide) (by decide) (fun _ => .inl rfl) (by
      simp only [besideCalls, List.forall_mem_cons, List.not_mem_nil, false_imp_iff, implies_true, and_true]
      refine ⟨⟨⟨hp (by decide), rfl⟩, ho (by decide +kernel), ?_⟩, ⟨⟨hp (by decide), rfl⟩, ho (by decide +kernel), ?_⟩,
        hp (by decide), ho (by decide +kernel), ?_⟩ <;> intro pos ht
      · simp [WCall.Touches] at ht; obtain ⟨_, rfl⟩ := ht; exact fun q hq _ b => hc q hq b
      · simp [WCall.Touches] at ht; obtain ⟨_, rfl⟩ := ht; exact fun q hq _ b => hc q hq b
      · simp [WCall.Touches] at ht)
  generalize hd : drive Demo.hier (.prog (threadProg Demo.envJ Demo.hier (fun _ => Demo.arr) besideCalls))
    Wide.demoFs besideRun = x at hfin
  unfold finished at hfin
  split at hfin
  · rename_i n r fs1
    have hrun := among_of_drive besideRun_ok hd
    obtain ⟨_, _, hres, _⟩ := hN _ _ _ hrun
    obtain ⟨h1, h2⟩ := hres r rfl
    have e : wResults Demo.envJ Demo.hier (fun _ => Demo.arr) besideCalls Wide.demoFs =
        [.plain (.plain (.unit (.ok ()))), .plain (.plain (.data (.ok (some ⟨.u16, Demo.chunk.data⟩)))),
          .plain (.plain (.bool (.ok true)))] := rfl
    rw [h1, e] at hrun
    refine ⟨n, fs1, hrun, ?_⟩
    have := h2 _ (.head _) (besideDir ++ [str!"c1"]) _ (.chunk [1] rfl) (by decide)
    unfold Fs.content
    rw [this]
  · cases hfin

end Wide

end Zarr
