import Verif.Props.Terminate
import Verif.Props.WalkFaults
/-!
# Calls end although system calls fail: C95
-/

namespace Zarr

open Spec

namespace Threads

variable {α : Type} {h : Hier} {fs fs' : Fs} {pc pc' : Pc α}

/-- A step that fails leaves less to do. -/
theorem Pc.failed_less {f : Fault} (hf : pc.failed h f = some pc') : Less (pc'.rest fs) (pc.rest fs) := by
  cases pc with
  | prog p =>
    cases p with
    | done r => simp [Pc.failed] at hf
    | «exists» key k =>
      simp only [Pc.failed] at hf
      split at hf <;> cases hf
      exact .call (.exists _ _ _)
    | get key k =>
      simp only [Pc.failed] at hf
      split at hf <;> cases hf
      exact .call (.get _ _ _)
    | set key v k =>
      simp only [Pc.failed] at hf
      split at hf
      · split at hf <;> cases hf
        exact .phase (by decide)
      · cases hf
    | erase key k =>
      simp only [Pc.failed] at hf
      split at hf <;> cases hf
      exact .phase (by decide)
  | getOpen | getLock | getRead => cases hf; exact .call (.get _ _ _)
  | mkdirDown p n v k =>
    simp only [Pc.failed] at hf
    split at hf
    · cases hf; exact .call (.set _ _ _ _)
    · simp only [Option.some.injEq] at hf
      subst hf
      split
      · exact .part (by omega)
      · exact .phase (by decide)
  | mkdirUp p n v k =>
    simp only [Pc.failed] at hf
    split at hf
    · cases hf
    · cases hf; exact .part (by omega)
  | mkdirDir | setOpen | setLock | setTrunc => cases hf; exact .call (.set _ _ _ _)
  | setWrite l v n k =>
    simp only [Pc.failed] at hf
    split at hf
    · cases hf; exact .call (.set _ _ _ _)
    · cases hf
  | eraOpen | eraLock | eraUnlink | eraFinal => cases hf; exact .call (.erase _ _ _)

theorem stepFaulty_less {f : Option Fault} (hs : pc.stepFaulty h fs f = some (pc', fs')) :
    Less (pc'.rest fs') (pc.rest fs) := by
  unfold Pc.stepFaulty at hs
  split at hs
  · exact Pc.next_less hs
  · split at hs
    · rename_i hf
      simp only [Option.some.injEq, Prod.mk.injEq] at hs
      obtain ⟨rfl, rfl⟩ := hs
      exact Pc.failed_less hf
    · exact Pc.next_less hs

/-- A call that runs alone goes on until it has ended. -/
theorem next_alone (hn : pc.next h [] fs = none) : ∃ r, pc = .prog (.done r) := by
  cases pc with
  | prog p =>
    cases p with
    | done r => exact ⟨r, rfl⟩
    | _ => simp only [Pc.next] at hn; split at hn <;> cases hn
  | getRead l acc k =>
    simp only [Pc.next] at hn
    split at hn
    · cases hn
    · split at hn <;> cases hn
  | mkdirDown p n v k =>
    simp only [Pc.next] at hn
    split at hn
    · cases hn
    · split at hn <;> cases hn
  | mkdirUp p n v k =>
    simp only [Pc.next] at hn
    split at hn
    · cases hn
    · split at hn <;> cases hn
  | eraUnlink p l k =>
    simp only [Pc.next] at hn
    split at hn
    · split at hn <;> cases hn
    · cases hn
    · cases hn
  | getLock | setLock | eraLock => simp [Pc.next] at hn
  | mkdirDir | setTrunc | eraFinal => simp [Pc.next] at hn
  | getOpen | setOpen | setWrite | eraOpen => simp only [Pc.next] at hn; split at hn <;> cases hn

theorem stepFaulty_alone {f : Option Fault} (hs : pc.stepFaulty h fs f = none) : ∃ r, pc = .prog (.done r) := by
  unfold Pc.stepFaulty at hs
  split at hs
  · exact next_alone hs
  · split at hs
    · cases hs
    · exact next_alone hs

/-- **C95.** Whatever system calls of a call fail, with any errors and as often as they are tried, the call ends
(`p` is any program that calls the store, so every API call but `remove` and `list_nodes`, for which see below). -/
theorem C95 (h : Hier) (p : Prog α) (fs : Fs) (s : Nat → Option Fault) :
    ∃ n r fs', (Pc.prog p).runFaulty h fs ((List.range n).map s) = some (.prog (.done r), fs') := by
  suffices hm : ∀ x, Acc Less x → ∀ (pc : Pc α) (fs : Fs) (s : Nat → Option Fault), pc.rest fs = x →
      ∃ n r fs', pc.runFaulty h fs ((List.range n).map s) = some (.prog (.done r), fs') from
    hm _ (Less.acc _) _ fs s rfl
  intro x hx
  induction hx with
  | intro x _ ih =>
    rintro pc fs s rfl
    cases hs : pc.stepFaulty h fs (s 0) with
    | none =>
      obtain ⟨r, rfl⟩ := stepFaulty_alone hs
      exact ⟨0, r, fs, rfl⟩
    | some y =>
      obtain ⟨pc1, fs1⟩ := y
      obtain ⟨n, r, fs', hr⟩ := ih _ (stepFaulty_less hs) pc1 fs1 (fun i => s (i + 1)) rfl
      refine ⟨n + 1, r, fs', ?_⟩
      rw [List.range_succ_eq_map, List.map_cons, List.map_map]
      simp only [Pc.runFaulty, hs, Option.bind_some]
      exact hr

/-- A `write_chunk` of which every second system call fails, and one of which all fail but the first nine. -/
example : (∃ n r fs', (Pc.prog (writeChunk Demo.env Demo.path Demo.arr Demo.chunk)).runFaulty Demo.hier demoChunkFs
      ((List.range n).map fun i => if i % 2 = 0 then some demoFault else none) = some (.prog (.done r), fs')) ∧
    ∃ n r fs', (Pc.prog (writeChunk Demo.env Demo.path Demo.arr Demo.chunk)).runFaulty Demo.hier demoChunkFs
      ((List.range n).map fun i => if i < 9 then none else some demoFault) = some (.prog (.done r), fs') :=
  ⟨C95 .., C95 ..⟩

end Threads

namespace Wide

variable {α : Type} {h : Hier} {D : Loc → Prop} {T : Loc} {pc pc1 : Pc α} {fs fs1 : Fs}

/-- The call ends, whatever fails from here on. -/
inductive Ends (h : Hier) : Pc α → Fs → Prop
  | intro {pc : Pc α} {fs : Fs} : (∀ f pc1 fs1, pc.stepFaulty h fs f = some (pc1, fs1) → Ends h pc1 fs1) → Ends h pc fs

theorem Ends.of_next_failed (hn : ∀ pc1 fs1, pc.next h [] fs = some (pc1, fs1) → Ends h pc1 fs1)
    (hf : ∀ f pc1, pc.failed h f = some pc1 → Ends h pc1 fs) : Ends h pc fs := by
  refine .intro fun f pc1 fs1 hs => ?_
  unfold Pc.stepFaulty at hs
  split at hs
  · exact hn _ _ hs
  · split at hs
    · rename_i he
      simp only [Option.some.injEq, Prod.mk.injEq] at hs
      obtain ⟨rfl, rfl⟩ := hs
      exact hf _ _ he
    · exact hn _ _ hs

/-- In the loop of `erase_prefix`, or just after it. -/
inductive Busy (k : Outcome Bool → Prog α) : Pc α → Prop
  | walk (p : List Str) (items : List Item) : Busy k (.walk p items k)
  | lock (p q : List Str) (l : Loc) (items : List Item) : Busy k (.walkLock p q l items k)
  | unlink (p q : List Str) (l : Loc) (items : List Item) : Busy k (.walkUnlink p q l items k)
  | over (r : Outcome Bool) : Busy k (.prog (k r))

theorem Busy.next {k : Outcome Bool → Prog α} (hb : Busy k pc) (hp : ∀ r, pc ≠ .prog (k r))
    (hn : pc.next h [] fs = some (pc1, fs1)) : Busy k pc1 := by
  cases hb with
  | over r => exact absurd rfl (hp r)
  | walk p items =>
    cases items with
    | nil =>
      simp only [Pc.next, Option.some.injEq, Prod.mk.injEq] at hn
      rw [← hn.1]; exact .over _
    | cons i r =>
      cases i with
      | stat q | «open» q =>
        simp only [Pc.next] at hn
        split at hn <;> (try split at hn) <;>
          · simp only [Option.some.injEq, Prod.mk.injEq] at hn
            rw [← hn.1]; first | exact .over _ | exact .walk _ _
      | rmdir q =>
        simp only [Pc.next] at hn
        split at hn <;>
          · simp only [Option.some.injEq, Prod.mk.injEq] at hn
            rw [← hn.1]; first | exact .over _ | exact .walk _ _
      | file q =>
        simp only [Pc.next] at hn
        split at hn <;>
          · simp only [Option.some.injEq, Prod.mk.injEq] at hn
            rw [← hn.1]; first | exact .over _ | (split <;> first | exact .over _ | exact .lock _ _ _ _)
  | lock p q l items =>
    simp only [Pc.next] at hn
    split at hn
    · cases hn
    · simp only [Option.some.injEq, Prod.mk.injEq] at hn
      rw [← hn.1]; exact .unlink _ _ _ _
  | unlink p q l items =>
    simp only [Pc.next] at hn
    split at hn <;> (try split at hn) <;>
      · simp only [Option.some.injEq, Prod.mk.injEq] at hn
        rw [← hn.1]; first | exact .over _ | exact .walk _ _

/-- A failure in the loop ends it. -/
theorem Busy.failed {k : Outcome Bool → Prog α} (hb : Busy k pc) (hp : ∀ r, pc ≠ .prog (k r)) {f : Threads.Fault}
    (hf : pc.failed h f = some pc1) : ∃ r, pc1 = .prog (k r) := by
  cases hb with
  | over r => exact absurd rfl (hp r)
  | walk p items => cases items <;> (simp only [Pc.failed, Option.some.injEq] at hf; exact ⟨_, hf.symm⟩)
  | lock | unlink => simp only [Pc.failed, Option.some.injEq] at hf; exact ⟨_, hf.symm⟩

theorem Ends.busy {k : Outcome Bool → Prog α} {r : Outcome Bool} {pc2 : Pc α} {fs2 : Fs}
    (hk : ∀ r fs, fs.WF → fs.Named → Ends h (.prog (k r)) fs) (hl : Leads h pc fs pc2 fs2) (he : pc2 = .prog (k r))
    (hb : Busy k pc) (hi : Tame h D T pc) (hw : fs.WF) (hm : fs.Named) : Ends h pc fs := by
  induction hl with
  | refl pc fs => subst he; exact hk r fs hw hm
  | @step pc pc1 _ fs fs1 _ hn hl ih =>
    by_cases hp : ∃ r, pc = .prog (k r)
    · obtain ⟨r, rfl⟩ := hp; exact hk r fs hw hm
    · have hp : ∀ r, pc ≠ .prog (k r) := fun r e => hp ⟨r, e⟩
      refine .of_next_failed (fun pc' fs' hn' => ?_) fun f pc' hf => ?_
      · rw [hn] at hn'
        cases hn'
        obtain ⟨h1, h2⟩ := hi.next hw hm hn
        exact ih he (hb.next hp hn) h1 h2.1 h2.2.1
      · obtain ⟨r, rfl⟩ := hb.failed hp hf
        exact hk r fs hw hm

theorem Ends.erasing {k : Outcome Bool → Prog α} (hk : ∀ r fs, fs.WF → fs.Named → Ends h (.prog (k r)) fs)
    (hR : Blunt (·.Removes h D T) k) {q : Loc} (hq : Plain q) (hD : D q) :
    (∀ fs, fs.WF → fs.Named → Ends h (.base (.eraOpen q fun r => .done (.ok (k r)))) fs) ∧
    (∀ fs, fs.WF → fs.Named → Ends h (.base (.eraFinal q fun r => .done (.ok (k r)))) fs) := by
  have hfin : ∀ fs, fs.WF → fs.Named → Ends h (.base (.eraFinal q fun r => .done (.ok (k r)))) fs := by
    intro fs hw hm
    refine .of_next_failed (fun pc' fs' hn => ?_) fun f pc' hf => ?_
    · simp only [Pc.next, baseNext, Threads.Pc.next, Option.map_some, Option.some.injEq, Prod.mk.injEq] at hn
      obtain ⟨rfl, rfl⟩ := hn
      exact hk _ _ hw hm
    · simp only [Pc.failed, Threads.Pc.failed, Option.map_some, Option.some.injEq] at hf
      subst hf
      exact hk _ _ hw hm
  have hunl : ∀ l fs, fs.WF → fs.Named → Ends h (.base (.eraUnlink q l fun r => .done (.ok (k r)))) fs := by
    intro l fs hw hm
    refine .of_next_failed (fun pc' fs' hn => ?_) fun f pc' hf => ?_
    · have ht := (Tame.eraUnlink (l := l) hq hD hR).next hw hm hn
      simp only [Pc.next, baseNext, Threads.Pc.next] at hn
      split at hn <;> (try split at hn) <;>
        · simp only [Option.map_some, Option.some.injEq, Prod.mk.injEq] at hn
          obtain ⟨rfl, rfl⟩ := hn
          first | exact hfin _ ht.2.1 ht.2.2.1 | exact hk _ _ hw hm
    · simp only [Pc.failed, Threads.Pc.failed, Option.map_some, Option.some.injEq] at hf
      subst hf
      exact hk _ _ hw hm
  have hlock : ∀ l fs, fs.WF → fs.Named → Ends h (.base (.eraLock q l fun r => .done (.ok (k r)))) fs := by
    intro l fs hw hm
    refine .of_next_failed (fun pc' fs' hn => ?_) fun f pc' hf => ?_
    · simp only [Pc.next, baseNext, Threads.Pc.next] at hn
      split at hn
      · cases hn
      · simp only [Option.map_some, Option.some.injEq, Prod.mk.injEq] at hn
        obtain ⟨rfl, rfl⟩ := hn
        exact hunl _ _ hw hm
    · simp only [Pc.failed, Threads.Pc.failed, Option.map_some, Option.some.injEq] at hf
      subst hf
      exact hk _ _ hw hm
  refine ⟨fun fs hw hm => ?_, hfin⟩
  refine .of_next_failed (fun pc' fs' hn => ?_) fun f pc' hf => ?_
  · simp only [Pc.next, baseNext, Threads.Pc.next] at hn
    split at hn <;>
      · simp only [Option.map_some, Option.some.injEq, Prod.mk.injEq] at hn
        obtain ⟨rfl, rfl⟩ := hn
        first | exact hk _ _ hw hm | (split <;> first | exact hlock _ _ hw hm | exact hk _ _ hw hm)
  · simp only [Pc.failed, Threads.Pc.failed, Option.map_some, Option.some.injEq] at hf
    subst hf
    exact hk _ _ hw hm

theorem Ends.listing {k : Outcome (List Str × List Str) → Prog α} (hk : ∀ r, Ends h (.prog (k r)) fs) (pre : Str)
    (p ns : List Str) : ∀ keys prefixes, Ends h (.listing pre p ns keys prefixes k) fs := by
  induction ns with
  | nil =>
    intro keys prefixes
    refine .of_next_failed (fun pc' fs' hn => ?_) fun f pc' hf => ?_
    · simp only [Pc.next, Option.some.injEq, Prod.mk.injEq] at hn
      obtain ⟨rfl, rfl⟩ := hn
      exact hk _
    · simp [Pc.failed] at hf
  | cons n ns ih =>
    intro keys prefixes
    refine .of_next_failed (fun pc' fs' hn => ?_) fun f pc' hf => ?_
    · simp only [Pc.next] at hn
      split at hn <;>
        · simp only [Option.some.injEq, Prod.mk.injEq] at hn
          obtain ⟨rfl, rfl⟩ := hn
          exact ih _ _
    · simp only [Pc.failed, Option.some.injEq] at hf
      subst hf
      exact ih _ _

/-- A program that only erases and lists ends. -/
theorem Ends.removes (p : Prog α) : p.Removes h D T → ∀ fs : Fs, fs.WF → fs.Named → Ends h (.prog p) fs := by
  induction p with
  | done r =>
    intro _ fs _ _
    exact .of_next_failed (fun _ _ hn => by simp [Pc.next] at hn) fun _ _ hf => by simp [Pc.failed] at hf
  | «exists» | get | set => exact fun hp => hp.elim
  | erase key k ih =>
    intro hp fs hw hm
    have hk := fun r fs => ih r (hp.2.2.2.2 r) fs
    have hR : Blunt (·.Removes h D T) k := hp.2.2
    obtain ⟨ho, hf⟩ := Ends.erasing hk hR hp.1 hp.2.1
    obtain ⟨t, ht, hs⟩ := getPath_loc hp.1
    refine .of_next_failed (fun pc' fs' hn => ?_) fun f pc' hf' => ?_
    · simp only [Pc.next, baseNext, Threads.Pc.next, ht, Option.map_some, Option.some.injEq, Prod.mk.injEq] at hn
      obtain ⟨rfl, rfl⟩ := hn
      rw [hs]
      split
      · exact ho _ hw hm
      · exact hf _ hw hm
    · simp only [Pc.failed, Threads.Pc.failed, ht, Option.map_some, Option.some.injEq] at hf'
      subst hf'
      rw [hs]
      exact hf _ hw hm
  | erasePrefix key k ih =>
    intro hp fs hw hm
    have hk := fun r fs => ih r (hp.2.2.2.2.2 r) fs
    obtain ⟨t, ht, hs⟩ := getPath_loc hp.1
    have hl := leads_erasePrefix (h := h) hw hm key k hp.1 (by rw [hp.2.1]; exact hp.2.2.1)
    have ht0 : Tame h D T (.prog (.erasePrefix key k)) := .prog hp
    refine .of_next_failed (fun pc' fs' hn => ?_) fun f pc' hf => ?_
    · generalize hq : Pc.prog (k (storeErasePrefix h key fs).1) = pc2 at hl
      generalize (storeErasePrefix h key fs).2 = fs2 at hl
      cases hl with
      | refl =>
        have := hk (storeErasePrefix h key fs).1 fs hw hm
        rw [hq] at this
        cases this with
        | intro g => exact g none _ fs' hn
      | step hn' hl =>
        rw [hn] at hn'
        cases hn'
        obtain ⟨h1, h2⟩ := ht0.next hw hm hn
        refine Ends.busy hk hl hq.symm ?_ h1 h2.1 h2.2.1
        simp only [Pc.next, ht, Option.some.injEq, Prod.mk.injEq] at hn
        rw [← hn.1]; exact .walk _ _
    · simp only [Pc.failed, ht, Option.some.injEq] at hf
      subst hf
      refine .of_next_failed (fun pc' fs' hn => ?_) fun f pc' hf => ?_
      · simp only [Pc.next, Option.some.injEq, Prod.mk.injEq] at hn
        obtain ⟨rfl, rfl⟩ := hn
        exact hk _ _ hw hm
      · simp only [Pc.failed, Option.some.injEq] at hf
        subst hf
        exact hk _ _ hw hm
  | listDir pre k ih =>
    intro hp fs hw hm
    have hk := fun r => ih r (hp.2.2 r) fs hw hm
    refine .of_next_failed (fun pc' fs' hn => ?_) fun f pc' hf => ?_
    · simp only [Pc.next] at hn
      split at hn <;> (try split at hn) <;> (try split at hn) <;>
        · simp only [Option.some.injEq, Prod.mk.injEq] at hn
          obtain ⟨rfl, rfl⟩ := hn
          first | exact Ends.listing hk _ _ _ _ _ | exact hk _
    · simp only [Pc.failed] at hf
      split at hf
      · cases hf; exact hk _
      · cases hf

theorem baseNext_alone {pc : Threads.Pc (Prog α)} (hp : ∀ r, pc ≠ .prog (.done r)) : baseNext h [] fs pc ≠ none := by
  intro hn
  unfold baseNext at hn
  cases hx : pc.next h [] fs with
  | none => obtain ⟨r, e⟩ := Threads.next_alone hx; exact hp r e
  | some y => rw [show ([] : List (Pc α)).filterMap Pc.locks = [] from rfl, hx] at hn; cases hn

/-- A call of these that runs alone goes on until it has ended. -/
theorem Tame.alone (hi : Tame h D T pc) (hn : pc.next h [] fs = none) : ∃ r, pc = .prog (.done r) := by
  cases hi with
  | @prog p hp =>
    cases p with
    | done r => exact ⟨r, rfl⟩
    | «exists» | get | set => exact hp.elim
    | erase key k => exact absurd hn (baseNext_alone (by simp))
    | erasePrefix key k => simp only [Pc.next] at hn; split at hn <;> cases hn
    | listDir pre k =>
      simp only [Pc.next] at hn
      split at hn <;> (try split at hn) <;> (try split at hn) <;> cases hn
  | eraOpen | eraLock | eraUnlink | eraFinal => exact absurd hn (baseNext_alone (by simp))
  | @walk p items k h0 h1 hk =>
    cases items with
    | nil => simp [Pc.next] at hn
    | cons i r =>
      cases i with
      | stat q | «open» q | rmdir q | file q => simp only [Pc.next] at hn; split at hn <;> (try split at hn) <;> cases hn
  | walkLock => simp [Pc.next] at hn
  | walkUnlink => simp only [Pc.next] at hn; split at hn <;> (try split at hn) <;> cases hn
  | @listing pre p ns keys prefixes k h3 h5 =>
    cases ns with
    | nil => simp [Pc.next] at hn
    | cons n ns => simp only [Pc.next] at hn; split at hn <;> cases hn

theorem Ends.run (he : Ends h pc fs) (hi : Tame h D T pc) (hw : fs.WF) (hm : fs.Named)
    (s : Nat → Option Threads.Fault) :
    ∃ n r fs', pc.runFaulty h fs ((List.range n).map s) = some (.prog (.done r), fs') := by
  induction he generalizing s with
  | @intro pc fs _ ih =>
    cases hs : pc.stepFaulty h fs (s 0) with
    | none =>
      have : pc.next h [] fs = none := by
        unfold Pc.stepFaulty at hs
        split at hs
        · exact hs
        · split at hs
          · cases hs
          · exact hs
      obtain ⟨r, rfl⟩ := hi.alone this
      exact ⟨0, r, fs, rfl⟩
    | some y =>
      obtain ⟨pc1, fs1⟩ := y
      obtain ⟨h1, h2⟩ := hi.step hw hm hs
      obtain ⟨n, r, fs', hr⟩ := ih _ _ _ hs h1 h2.1 h2.2.1 fun i => s (i + 1)
      refine ⟨n + 1, r, fs', ?_⟩
      rw [List.range_succ_eq_map, List.map_cons, List.map_map]
      simp only [Pc.runFaulty, hs, Option.bind_some]
      exact hr

/-- **C95, `remove`.** Whatever system calls of `remove` fail, it ends. -/
theorem C95_remove (h : Hier) (p : Str) (hp : Plain (segs p)) (fs : Fs) (hwf : fs.WF) (hnm : fs.Named)
    (hb : Plain (segs h.base)) (hsfx : GoodSuffix h.entry) (s : Nat → Option Threads.Fault) :
    ∃ n r fs', (Pc.prog (remove h p)).runFaulty h fs ((List.range n).map s) = some (.prog (.done r), fs') := by
  have hr : (remove h p).Removes h (fun _ => True) (dataLoc h p) := removes_remove hb hsfx hp rfl trivial trivial
  exact (Ends.removes _ hr fs hwf hnm).run (.prog hr) hwf hnm s

/-- **C95, `list_nodes`.** Whatever system calls of `list_nodes` fail, it ends. -/
theorem C95_listNodes (env : Env) (h : Hier) (p : Str) (hp : Plain (segs p)) (fs : Fs) (hwf : fs.WF)
    (hnm : fs.Named) (hb : Plain (segs h.base)) (s : Nat → Option Threads.Fault) :
    ∃ n r fs', (Pc.prog (listNodes env h p)).runFaulty h fs ((List.range n).map s) = some (.prog (.done r), fs') := by
  have hr : (listNodes env h p).Removes h (fun _ => True) [] := removes_listNodes hb hp
  exact (Ends.removes _ hr fs hwf hnm).run (.prog hr) hwf hnm s

/-! ## Concrete cases -/

/-- `remove` of the array with every third system call failing. The first that fails is the look at the document of
a group, unnoticed; the second is the `open` of the document of the array, which ends the call. -/
example : ∃ n r fs', (Pc.prog (remove Demo.hier Demo.path)).runFaulty Demo.hier Wide.demoFs
    ((List.range n).map fun i => if i % 3 = 0 then some Threads.demoFault else none) = some (.prog (.done r), fs') :=
  C95_remove Demo.hier Demo.path (by decide) Wide.demoFs Wide.demoFs_wf.1 Wide.demoFs_wf.2 (by decide)
    (by unfold GoodSuffix; decide) _

/-- With four steps it has ended. -/
example : ∃ fs', (Pc.prog (remove Demo.hier Demo.path)).runFaulty Demo.hier Wide.demoFs
    ((List.range 4).map fun i => if i % 3 = 0 then some Threads.demoFault else none) =
      some (.prog (.done (.err .other)), fs') := ⟨_, rfl⟩

/-- `list_nodes` with all system calls but the first failing. -/
example : ∃ n r fs', (Pc.prog (listNodes Demo.envJ Demo.hier str!"/b")).runFaulty Demo.hier Wide.demoFs
    ((List.range n).map fun i => if i = 0 then none else some Threads.demoFault) = some (.prog (.done r), fs') :=
  C95_listNodes Demo.envJ Demo.hier str!"/b" (by decide) Wide.demoFs Wide.demoFs_wf.1 Wide.demoFs_wf.2 (by decide) _

end Wide

end Zarr
