import Verif.Props.SideBySide
import Verif.Lemmas.Loose
/-!
# Programs whose system calls fail, among others: C114
-/

namespace Zarr

open Spec

/-! ## Specification -/

/-- The steps that program `i` takes. -/
def Spec.stepsOf (i : Nat) (ts : List (Nat × Option Threads.Fault)) : List (Option Threads.Fault) :=
  (ts.filter fun x => decide (x.1 = i)).map (·.2)

/-- No system call of program `i` fails. -/
def Spec.Healthy (i : Nat) (ts : List (Nat × Option Threads.Fault)) : Prop := ∀ f ∈ stepsOf i ts, f = none

namespace Wide

/-- Thread `x.1`, whose handle is `hs x.1`, takes its next step, and if `x.2` is a failure then its system call fails
so, if it makes one (store/filesystem.rs:195-312, see `Model/WalkFaults.lean`). -/
def Sys.advanceFaulty {α : Type} (hs : Nat → Option Hier) (s : Sys α) (x : Nat × Option Threads.Fault) : Option (Sys α) :=
  match x.2 with
  | none => s.advanceIn hs x.1
  | some f =>
    (hs x.1).bind fun h => (s.pcs[x.1]?).bind fun pc =>
      match pc.failed h f with
      | some pc' => some ⟨s.fs, s.pcs.set x.1 pc'⟩
      | none => s.advanceIn hs x.1

/-- Run a schedule in which system calls fail. -/
def Sys.runFaulty {α : Type} (hs : Nat → Option Hier) (s : Sys α) : List (Nat × Option Threads.Fault) → Option (Sys α)
  | [] => some s
  | x :: xs => (s.advanceFaulty hs x).bind fun s' => s'.runFaulty hs xs

/-! ## The invariant -/

/-- What a schedule leads to in which only system calls of `bad` programs fail. -/
structure FInv (us : List User) (fs0 : Fs) (bad : Nat → Prop) (s : Sys (List WResult)) (ms : List Nat) : Prop where
  len : s.pcs.length = us.length
  mlen : ms.length = us.length
  wf : s.fs.WF
  named : s.fs.Named
  track : ∀ (i : Nat) (u : User) (pc : Pc (List WResult)) (m : Nat), ¬ bad i → us[i]? = some u → s.pcs[i]? = some pc →
    ms[i]? = some m → Track u.h fs0 s.fs (threadProg u.env u.h u.md u.calls) (threadRoots u.h u.md u.calls)
      (threadWrites u.h u.md u.calls) pc m
  loose : ∀ (i : Nat) (u : User) (pc : Pc (List WResult)), us[i]? = some u → s.pcs[i]? = some pc →
    Loose u.h (threadRoots u.h u.md u.calls) (threadWrites u.h u.md u.calls) s.fs pc ∧ pc.Settled
  frame : ∀ l, (∀ u ∈ us, ¬ Under (threadWrites u.h u.md u.calls) l) → s.fs.content l = fs0.content l

section
variable {us : List User} {fs0 : Fs} {bad : Nat → Prop}

theorem UInv.faulty (hok : ∀ u ∈ us, u.Fine fs0) {ms : List Nat} (I : UInv us fs0 (usersInitial fs0 us) ms) :
    FInv us fs0 bad (usersInitial fs0 us) ms where
  len := I.len
  mlen := I.mlen
  wf := I.wf
  named := I.named
  track i u pc m _ := I.track i u pc m
  loose := by
    intro i u pc hu hpc
    simp only [usersInitial, Sys.initial, List.map_map, List.getElem?_map, hu, Option.map_some, Function.comp_apply,
      Option.some.injEq] at hpc
    rw [← hpc]
    have hF := hok u (List.mem_of_getElem? hu)
    exact ⟨uses_thread hF.base hF.suffix hF.dot hF.sep fun c hc => (hF.calls c hc).1, fun Q => by simp⟩
  frame := I.frame

theorem le_sum_getElem : ∀ (xs : List Nat) (i : Nat) (hi : i < xs.length), xs[i] ≤ xs.sum := by
  intro xs
  induction xs with
  | nil => intro i hi; simp at hi
  | cons x xs ih =>
    intro i hi
    cases i with
    | zero => simp
    | succ i =>
      have := ih i (by simpa using hi)
      simp only [List.getElem_cons_succ, List.sum_cons]; omega

/-- A step in which nothing fails. -/
theorem FInv.step (hok : ∀ u ∈ us, u.Fine fs0)
    (hsep : ∀ (i j : Nat) u v, us[i]? = some u → us[j]? = some v → i ≠ j → u.Apart v)
    {s s' : Sys (List WResult)} {ms : List Nat} (I : FInv us fs0 bad s ms) {t : Nat}
    (hs : s.advanceIn (handles us) t = some s') :
    ∃ ms', FInv us fs0 bad s' ms' ∧ (∀ i, i ≠ t → ms'[i]? = ms[i]?) ∧
      (¬ bad t → ∀ m m', ms[t]? = some m → ms'[t]? = some m' → m' < m) := by
  unfold Sys.advanceIn handles at hs
  rw [Option.bind_eq_some_iff] at hs
  obtain ⟨h, hh, hs⟩ := hs
  rw [Option.map_eq_some_iff] at hh
  obtain ⟨u, hu, rfl⟩ := hh
  unfold Sys.advance at hs
  rw [Option.bind_eq_some_iff] at hs
  obtain ⟨pc, hpc, hs⟩ := hs
  rw [Option.map_eq_some_iff] at hs
  obtain ⟨⟨pc1, fs1⟩, hnx, hs⟩ := hs
  simp only at hs
  have htl : t < s.pcs.length := by rw [List.getElem?_eq_some_iff] at hpc; exact hpc.1
  have ht : t < us.length := by rw [← I.len]; exact htl
  have htm : t < ms.length := by rw [I.mlen]; exact ht
  have hm : ms[t]? = some ms[t] := List.getElem?_eq_getElem htm
  have hF := hok u (List.mem_of_getElem? hu)
  have hnil := next_nil hnx
  obtain ⟨heff, hwf1, hnm1, hloose⟩ := (I.loose t u pc hu hpc).1.next I.wf I.named hnil
  have hset := settled_next hnil
  have hm' : ∃ m', ¬ bad t → m' < ms[t] ∧ Track u.h fs0 fs1 (threadProg u.env u.h u.md u.calls)
      (threadRoots u.h u.md u.calls) (threadWrites u.h u.md u.calls) pc1 m' := by
    by_cases hb : bad t
    · exact ⟨0, fun hb' => absurd hb hb'⟩
    · obtain ⟨m', h1, h2, _⟩ := (I.track t u pc _ hb hu hpc hm).step (user_ne hF) threadWrites_sub hnil
      exact ⟨m', fun _ => ⟨h1, h2⟩⟩
  obtain ⟨m', hm'⟩ := hm'
  have hap := fun (i : Nat) (v : User) (hv : us[i]? = some v) (hit : i ≠ t) =>
    users_apart hF (hok v (List.mem_of_getElem? hv)) (hsep t i u v hu hv (Ne.symm hit))
  refine ⟨ms.set t m', ⟨?_, ?_, ?_, ?_, ?_, ?_, ?_⟩, fun i hi => List.getElem?_set_ne (Ne.symm hi), ?_⟩
  · rw [← hs]; simp [I.len]
  · simp [I.mlen]
  · rw [← hs]; exact hwf1
  · rw [← hs]; exact hnm1
  · intro i v pci m hb hv hpci hmi
    rw [← hs] at hpci ⊢
    simp only at hpci ⊢
    by_cases hit : i = t
    · subst hit
      rw [List.getElem?_set_self htl] at hpci
      rw [List.getElem?_set_self htm] at hmi
      rw [hu] at hv
      simp only [Option.some.injEq] at hpci hmi hv
      rw [← hpci, ← hmi, ← hv]; exact (hm' hb).2
    · rw [List.getElem?_set_ne (Ne.symm hit)] at hpci hmi
      exact (I.track i v pci m hb hv hpci hmi).other threadWrites_sub (hap i v hv hit) heff hwf1 hnm1
  · intro i v pci hv hpci
    rw [← hs] at hpci ⊢
    simp only at hpci ⊢
    by_cases hit : i = t
    · subst hit
      rw [List.getElem?_set_self htl] at hpci
      rw [hu] at hv
      simp only [Option.some.injEq] at hpci hv
      rw [← hpci, ← hv]; exact ⟨hloose, hset⟩
    · rw [List.getElem?_set_ne (Ne.symm hit)] at hpci
      obtain ⟨l1, l2⟩ := I.loose i v pci hv hpci
      exact ⟨l1.other threadWrites_sub (hap i v hv hit) heff, l2⟩
  · intro l hl'
    rw [← hs, ← I.frame l hl']
    simp only
    have hnu := hl' u (List.mem_of_getElem? hu)
    unfold Fs.content
    cases heff with
    | same => rfl
    | write x n hx => rw [Fs.get_put, if_neg (by rintro rfl; exact hnu hx)]
    | del x hx => rw [Fs.get_del, if_neg (by rintro rfl; exact hnu hx)]
    | mkdir x hx hw =>
      rw [Fs.get_put]
      by_cases e : l = x
      · subst e; rw [if_pos rfl, hx]
      · rw [if_neg e]
  · intro hb m m1 h1 h2
    rw [List.getElem?_set_self htm] at h2
    rw [hm] at h1
    simp only [Option.some.injEq] at h1 h2
    rw [← h1, ← h2]
    exact (hm' hb).1

/-- A step that may fail. -/
theorem FInv.stepFaulty (hok : ∀ u ∈ us, u.Fine fs0)
    (hsep : ∀ (i j : Nat) u v, us[i]? = some u → us[j]? = some v → i ≠ j → u.Apart v)
    {s s' : Sys (List WResult)} {ms : List Nat} (I : FInv us fs0 bad s ms) {x : Nat × Option Threads.Fault}
    (hx : x.2 ≠ none → bad x.1) (hs : s.advanceFaulty (handles us) x = some s') :
    ∃ ms', FInv us fs0 bad s' ms' ∧ (∀ i, i ≠ x.1 → ms'[i]? = ms[i]?) ∧
      (¬ bad x.1 → ∀ m m', ms[x.1]? = some m → ms'[x.1]? = some m' → m' < m) := by
  obtain ⟨t, f⟩ := x
  cases f with
  | none => exact I.step hok hsep hs
  | some f =>
    have hbad : bad t := hx (by simp)
    simp only [Sys.advanceFaulty] at hs
    rw [Option.bind_eq_some_iff] at hs
    obtain ⟨h, hh, hs⟩ := hs
    rw [Option.bind_eq_some_iff] at hs
    obtain ⟨pc, hpc, hs⟩ := hs
    cases hf : pc.failed h f with
    | none => rw [hf] at hs; exact I.step hok hsep hs
    | some pc1 =>
      rw [hf] at hs
      simp only [Option.some.injEq] at hs
      subst hs
      have htl : t < s.pcs.length := by rw [List.getElem?_eq_some_iff] at hpc; exact hpc.1
      simp only [handles, Option.map_eq_some_iff] at hh
      obtain ⟨u, hu, rfl⟩ := hh
      refine ⟨ms, ⟨by simp [I.len], I.mlen, I.wf, I.named, ?_, ?_, I.frame⟩, fun _ _ => rfl,
        fun hb => absurd hbad hb⟩
      · intro i v pci m hb hv hpci hmi
        have hit : i ≠ t := by rintro rfl; exact hb hbad
        simp only [List.getElem?_set_ne (Ne.symm hit)] at hpci
        exact I.track i v pci m hb hv hpci hmi
      · intro i v pci hv hpci
        simp only at hpci
        by_cases hit : i = t
        · subst hit
          rw [List.getElem?_set_self htl] at hpci
          rw [hu] at hv
          simp only [Option.some.injEq] at hpci hv
          rw [← hpci, ← hv]
          exact (I.loose i u pc hu hpc).1.failed hf
        · rw [List.getElem?_set_ne (Ne.symm hit)] at hpci
          exact I.loose i v pci hv hpci

theorem FInv.run (hok : ∀ u ∈ us, u.Fine fs0)
    (hsep : ∀ (i j : Nat) u v, us[i]? = some u → us[j]? = some v → i ≠ j → u.Apart v)
    {s s' : Sys (List WResult)} {ms : List Nat} (I : FInv us fs0 bad s ms) (ts : List (Nat × Option Threads.Fault))
    (hb : ∀ x ∈ ts, x.2 ≠ none → bad x.1) (hs : s.runFaulty (handles us) ts = some s') :
    ∃ ms', FInv us fs0 bad s' ms' ∧
      ∀ i, ¬ bad i → ∀ m m', ms[i]? = some m → ms'[i]? = some m' → m' + (stepsOf i ts).length ≤ m := by
  induction ts generalizing s ms with
  | nil =>
    simp only [Sys.runFaulty, Option.some.injEq] at hs
    rw [← hs]
    refine ⟨ms, I, fun i _ m m' h1 h2 => ?_⟩
    rw [h1] at h2
    cases h2
    simp [stepsOf]
  | cons x ts ih =>
    simp only [Sys.runFaulty, Option.bind_eq_some_iff] at hs
    obtain ⟨s1, h1, h2⟩ := hs
    obtain ⟨ms1, I1, hsame, hlt⟩ := I.stepFaulty hok hsep (hb x (.head _)) h1
    obtain ⟨ms2, I2, hle⟩ := ih I1 (fun y hy => hb y (.tail _ hy)) h2
    refine ⟨ms2, I2, fun i hbi m m' hm hm' => ?_⟩
    have hi : i < ms.length := by rw [List.getElem?_eq_some_iff] at hm; exact hm.1
    have hi1 : i < ms1.length := by rw [I1.mlen, ← I.mlen]; exact hi
    have hm1 : ms1[i]? = some ms1[i] := List.getElem?_eq_getElem hi1
    have := hle i hbi _ m' hm1 hm'
    by_cases hxi : x.1 = i
    · subst hxi
      have := hlt hbi _ _ hm hm1
      simp only [stepsOf, List.filter_cons, decide_true, if_true, List.map_cons, List.length_cons] at *
      omega
    · have e := hsame i (Ne.symm hxi)
      rw [hm1, hm] at e
      simp only [Option.some.injEq] at e
      simp only [stepsOf, List.filter_cons, hxi, decide_false, Bool.false_eq_true, if_false] at *
      omega

theorem FInv.result {s : Sys (List WResult)} {ms : List Nat} (I : FInv us fs0 bad s ms) {i : Nat} {u : User}
    {r : Outcome (List WResult)} (hb : ¬ bad i) (hu : us[i]? = some u) (hr : s.result i = some r) :
    r = .ok (u.alone fs0) ∧ ∀ l, Under (threadRoots u.h u.md u.calls) l → s.fs.get l = (u.after fs0).get l := by
  have hi : i < us.length := by rw [List.getElem?_eq_some_iff] at hu; exact hu.1
  have hm : ms[i]? = some (ms[i]'(by rw [I.mlen]; exact hi)) := List.getElem?_eq_getElem (by rw [I.mlen]; exact hi)
  unfold Sys.result at hr
  split at hr
  · rename_i r' hpc
    simp only [Option.some.injEq] at hr
    subst hr
    have := (I.track i u _ _ hb hu hpc hm).result
    rw [run_thread] at this
    exact this
  · simp at hr

/-- Nobody waits for anybody. -/
theorem FInv.progress (hok : ∀ u ∈ us, u.Fine fs0)
    (hsep : ∀ (i j : Nat) u v, us[i]? = some u → us[j]? = some v → i ≠ j → u.Apart v)
    {s : Sys (List WResult)} {ms : List Nat} (I : FInv us fs0 bad s ms) {i : Nat} (hi : i < us.length)
    (hr : s.result i = none) : ∃ s', s.advanceIn (handles us) i = some s' := by
  have hil : i < s.pcs.length := by rw [I.len]; exact hi
  have hpc : s.pcs[i]? = some s.pcs[i] := List.getElem?_eq_getElem hil
  have hu : us[i]? = some us[i] := List.getElem?_eq_getElem hi
  obtain ⟨K, hset⟩ := I.loose i _ _ hu hpc
  cases hn : (s.pcs[i]).next us[i].h s.pcs s.fs with
  | some r => exact ⟨_, by unfold Sys.advanceIn handles Sys.advance; rw [hu, hpc]; simp [hn]; rfl⟩
  | none =>
    exfalso
    rcases next_none hn with ⟨r, hd⟩ | ⟨r, hd⟩ | ⟨l, x, hw, hany⟩
    · unfold Sys.result at hr
      rw [hpc, hd] at hr
      simp at hr
    · rw [hd] at K hset
      obtain ⟨P, hP, _⟩ := K
      rw [hP] at hset
      exact hset P rfl
    · rw [List.any_eq_true] at hany
      obtain ⟨t, ht, hhold⟩ := hany
      obtain ⟨q, hq, hqt⟩ := List.mem_filterMap.mp ht
      obtain ⟨j, hj, hqj⟩ := List.getElem_of_mem hq
      have hjp : j < us.length := by rw [← I.len]; exact hj
      have hqj' : s.pcs[j]? = some q := by rw [List.getElem?_eq_getElem hj, hqj]
      have huj : us[j]? = some us[j] := List.getElem?_eq_getElem hjp
      have hlk := (I.loose j _ _ huj hqj').1.locks threadWrites_sub hqt (l := l)
      have hwt := K.waits hw
      have hFi := hok _ (List.getElem_mem hi)
      have hFj := hok _ (List.getElem_mem hjp)
      by_cases hij : i = j
      · subst hij
        rw [hpc] at hqj'
        simp only [Option.some.injEq] at hqj'
        rw [hqj'] at hw
        cases hw with
        | get l k =>
          simp only [Pc.locks, Option.some.injEq] at hqt
          rw [← hqt] at hhold; simp [Threads.Pc.exclusive] at hhold
        | set l v k =>
          simp only [Pc.locks, Option.some.injEq] at hqt
          rw [← hqt] at hhold; simp [Threads.Pc.holds, Threads.Pc.exclusive] at hhold
        | erase p l k =>
          simp only [Pc.locks, Option.some.injEq] at hqt
          rw [← hqt] at hhold; simp [Threads.Pc.holds, Threads.Pc.exclusive] at hhold
        | walk p q l items k => simp [Pc.locks] at hqt
      · cases x with
        | true =>
          simp only [if_true] at hhold hwt
          exact (users_apart hFi hFj (hsep i j _ _ hu huj hij)).not_under hwt (hlk.2 hhold)
        | false =>
          simp only [Bool.false_eq_true, if_false] at hhold hwt
          exact (users_apart hFj hFi (hsep j i _ _ huj hu (Ne.symm hij))).not_under (hlk.1 hhold) hwt

end

end Wide

open Wide in
/-- **C114.** Several programs use hierarchies in one filesystem as in C113, and now any system call of any of them
may fail, any number of times and in any way. A program none of whose system calls fail gets the results it gets
alone, after a number of steps that does not depend on the others, and when it has finished the files and directories
that its calls are about are those that the calls leave alone. No program, not even one whose system calls fail, ever
waits for another; and no file has changed other than those that some program's calls are about. -/
theorem C114 (us : List User) (fs : Fs) (hwf : fs.WF) (hnm : fs.Named) (hok : ∀ u ∈ us, u.Fine fs)
    (hsep : ∀ (i j : Nat) u v, us[i]? = some u → us[j]? = some v → i ≠ j → u.Apart v) :
    ∃ N, ∀ ts s, (usersInitial fs us).runFaulty (handles us) ts = some s →
      s.fs.WF ∧
      (∀ (i : Nat) u, us[i]? = some u → Healthy i ts → (stepsOf i ts).length ≤ N ∧
        ∀ r, s.result i = some r → r = .ok (u.alone fs) ∧
          ∀ c ∈ u.calls, ∀ r l, c.Place u.h u.md r → r <+: l → s.fs.get l = (u.after fs).get l) ∧
      (∀ i, i < us.length → s.result i = none → ∃ s', s.advanceFaulty (handles us) (i, none) = some s') ∧
      ∀ l, (∀ u ∈ us, ∀ c ∈ u.calls, c.changes = true → ∀ r, c.Place u.h u.md r → ¬ r <+: l) →
        s.fs.content l = fs.content l := by
  obtain ⟨ms, I⟩ := UInv.init hwf hnm hok
  refine ⟨ms.sum, fun ts s hrun => ?_⟩
  obtain ⟨ms', I', hle⟩ := (I.faulty (bad := fun i => ¬ Healthy i ts) hok).run hok hsep ts
    (by
      intro x hx hne hall
      refine hne (hall x.2 ?_)
      unfold stepsOf
      exact List.mem_map.mpr ⟨x, List.mem_filter.mpr ⟨hx, by simp⟩, rfl⟩) hrun
  refine ⟨I'.wf, ?_, fun i hi hr => I'.progress hok hsep hi hr, ?_⟩
  · intro i u hu hh
    have hi : i < us.length := by rw [List.getElem?_eq_some_iff] at hu; exact hu.1
    have him : i < ms.length := by rw [I.mlen]; exact hi
    have him' : i < ms'.length := by rw [I'.mlen]; exact hi
    have h1 := hle i (fun hb => hb hh) _ _ (List.getElem?_eq_getElem him) (List.getElem?_eq_getElem him')
    have h2 : ms[i] ≤ ms.sum := le_sum_getElem ms i him
    refine ⟨by omega, fun r hr => ?_⟩
    obtain ⟨h1, h2⟩ := I'.result (fun hb => hb hh) hu hr
    have hF := hok u (List.mem_of_getElem? hu)
    exact ⟨h1, fun c hc r l hp hl => h2 l
      ⟨r, List.mem_flatMap.mpr ⟨c, hc, root_of_place hF.sep (hF.calls c hc).1 hp⟩, hl⟩⟩
  · intro l hl
    refine I'.frame l fun u hu => ?_
    rintro ⟨w, hw, hwl⟩
    obtain ⟨c, h1, h2⟩ := List.mem_flatMap.mp hw
    obtain ⟨h1, hch⟩ := List.mem_filter.mp h1
    have hF := hok u hu
    have hk := rootKind (hF.calls c h1).1 h2
    rcases place_of_root hF.sep hk with hp | ⟨hd, _, _⟩
    · exact hl u hu c h1 hch w hp hwl
    · cases c with
      | listNodes p => cases hd
      | call c =>
        cases c with
        | readBox p t b => cases hd
        | writeBox p t o a => cases hd
        | call c => cases c <;> simp [WCall.looksAtDir] at hd <;> cases hch

/-! ## A concrete case -/

namespace Wide

/-- The device of the hierarchy at `/h/n` is broken: every system call of the third program fails. The programs of
C113 meet the hypotheses, and the fourth program gets its results, whatever the schedule. -/
example : ∃ N, ∀ ts s, (usersInitial demoFs demoUsers).runFaulty (handles demoUsers) ts = some s → Healthy 3 ts →
    (stepsOf 3 ts).length ≤ N ∧ ∀ r, s.result 3 = some r → r = .ok [.plain (.plain (.unit (.ok ()))),
      .plain (.plain (.data (.ok (some ⟨.u16, Demo.chunk.data⟩))))] := by
  obtain ⟨N, hN⟩ := C114 demoUsers demoFs demoFs_wf.1 demoFs_wf.2 demoUsers_fine demoUsers_apart
  refine ⟨N, fun ts s hrun hh => ?_⟩
  obtain ⟨_, h2, _⟩ := hN ts s hrun
  exact ⟨(h2 3 _ rfl hh).1, fun r hr => ((h2 3 _ rfl hh).2 r hr).1⟩

/-- A disk that answers nothing. -/
def brokenDisk : Threads.Fault := ⟨.other, false⟩

/-- The four system calls of the third program fail, between the 27 of the fourth. -/
def demoBroken : List (Nat × Option Threads.Fault) :=
  [(3, none), (2, some brokenDisk), (3, none), (2, some brokenDisk), (3, none), (3, none), (2, some brokenDisk)] ++
    List.replicate 23 (3, none) ++ [(2, some brokenDisk)]

/-- The third program was told that the write failed and that there is no chunk. -/
def toldOtherwise (s : Sys (List WResult)) : Bool :=
  match s.result 2 with
  | some (.ok [.plain (.plain (.unit (.err .other))), .plain (.plain (.data (.ok none)))]) => true
  | _ => false

/-- The fourth program wrote the chunk and read it. -/
def wroteAndRead (s : Sys (List WResult)) : Bool :=
  match s.result 3 with
  | some (.ok [.plain (.plain (.unit (.ok ()))), .plain (.plain (.data (.ok (some ⟨.u16, d⟩))))]) =>
    decide (d = Demo.chunk.data)
  | _ => false

set_option maxRecDepth 20000 in
/-- Such a schedule. Both programs finish; the third does not get the results it gets alone, so nothing of the kind
can be claimed of programs whose own system calls fail. -/
theorem C114_needed : ∃ s, (usersInitial demoFs demoUsers).runFaulty (handles demoUsers) demoBroken = some s ∧
    Healthy 3 demoBroken ∧ ¬ Healthy 2 demoBroken ∧ wroteAndRead s = true ∧ toldOtherwise s = true ∧
    ∃ u, demoUsers[2]? = some u ∧ s.result 2 ≠ some (.ok (u.alone demoFs)) := by
  have key : (((usersInitial demoFs demoUsers).runFaulty (handles demoUsers) demoBroken).map fun s =>
      wroteAndRead s && toldOtherwise s) = some true := by decide +kernel
  rw [Option.map_eq_some_iff] at key
  obtain ⟨s, h1, h2⟩ := key
  rw [Bool.and_eq_true] at h2
  refine ⟨s, h1, ?_, ?_, h2.1, h2.2, _, rfl, fun hr => ?_⟩
  · unfold Healthy stepsOf demoBroken; decide
  · unfold Healthy stepsOf demoBroken; decide
  · have h3 := h2.2
    unfold toldOtherwise at h3
    rw [hr] at h3
    revert h3
    decide +kernel

end Wide

end Zarr
