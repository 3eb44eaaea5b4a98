import Verif.Lemmas.Interfere
/-!
# Concurrent calls: C75
-/

namespace Zarr.Threads

/-- What the threads are, between steps: the filesystem is a tree, nothing is in the way of a file to be
written, files nobody changes are as at first, and each thread sees what it would see alone. -/
structure Inv {α : Type} (h : Hier) (fs0 : Fs) (ps : List (Prog α)) (R W : Nat → Loc → Prop) (N n : Nat) (s : Sys α) :
    Prop where
  wf : s.fs.WF
  free : ∀ l, Writable fs0 l → (∀ i a, W i a → (a <+: l → a = l) ∧ (l <+: a → a = l)) → Writable s.fs l
  others : ∀ l, (∀ i, i < ps.length → ¬ W i l) → s.fs.content l = fs0.content l
  len : s.pcs.length = ps.length
  threads : ∃ cs : List Nat, cs.length = ps.length ∧ cs.sum + n ≤ N ∧ ∀ i p pc c, ps[i]? = some p →
    s.pcs[i]? = some pc → cs[i]? = some c → PcInv h (R i) (W i) (p.eval h fs0.content) c s.fs pc

theorem sum_set {cs : List Nat} {i c c' : Nat} (hi : cs[i]? = some c) (hlt : c' < c) :
    (cs.set i c').sum + 1 ≤ cs.sum := by
  induction cs generalizing i with
  | nil => simp at hi
  | cons x xs ih =>
    cases i with
    | zero => simp at hi; subst hi; simp; omega
    | succ i => simp at hi; have := ih hi; simp; omega

section
variable {α : Type} {h : Hier} {fs0 : Fs} {ps : List (Prog α)} {R W : Nat → Loc → Prop} {N n : Nat} {s s' : Sys α}

theorem Inv.own (hfree : ∀ i l, W i l → Writable fs0 l)
    (hsep : ∀ i j a b, W i a → W j b → a <+: b → a = b ∧ i = j) (hi : Inv h fs0 ps R W N n s) :
    ∀ i l, W i l → Writable s.fs l :=
  fun i l hl => hi.free l (hfree i l hl) fun _ _ ha =>
    ⟨fun hp => (hsep _ _ _ _ ha hl hp).1, fun hp => (hsep _ _ _ _ hl ha hp).1.symm⟩

theorem Inv.step (hfree : ∀ i l, W i l → Writable fs0 l)
    (hsep : ∀ i j a b, W i a → W j b → a <+: b → a = b ∧ i = j) (hread : ∀ i j a, W i a → R j a → i = j)
    (hi : Inv h fs0 ps R W N n s) {t : Nat} (hs : s.advance h t = some s') : Inv h fs0 ps R W N (n + 1) s' := by
  have own := hi.own hfree hsep
  obtain ⟨wf, free, others, len, cs, hcl, hsum, hth⟩ := hi
  unfold Sys.advance at hs
  cases hpc : s.pcs[t]? with
  | none => rw [hpc] at hs; simp at hs
  | some pc =>
    rw [hpc] at hs
    simp only [Option.bind_some, Option.map_eq_some_iff] at hs
    obtain ⟨⟨pc', fs'⟩, hn, rfl⟩ := hs
    have htl : t < s.pcs.length := (List.getElem?_eq_some_iff.mp hpc).1
    have hp : ps[t]? = some ps[t] := List.getElem?_eq_getElem (by omega)
    have hc : cs[t]? = some cs[t] := List.getElem?_eq_getElem (by omega)
    obtain ⟨⟨c', hlt, hi'⟩, hch⟩ := (hth t _ _ _ hp hpc hc).step wf (own t) hn
    refine ⟨hch.wf, fun l hl hn => hch.writable (free l hl hn) (fun a ha => (hn t a ha).1) (fun a ha => (hn t a ha).2), fun l hl => ?_, by simpa using len,
      cs.set t c', by simpa using hcl, ?_, ?_⟩
    · rw [hch.content (hl t (by omega))]; exact others l hl
    · have := sum_set hc hlt; omega
    · intro i p q c e1 e2 e3
      by_cases e : t = i
      · subst e
        rw [hp] at e1
        rw [List.getElem?_set_self htl] at e2
        rw [List.getElem?_set_self (by omega)] at e3
        simp only [Option.some.injEq] at e1 e2 e3
        subst e1 e2 e3
        exact hi'
      · simp only [List.getElem?_set_ne e] at e2 e3
        refine (hth i p q c e1 e2 e3).frame hch ?_
        rintro l (hl | hl) hw
        · exact e (hread _ _ _ hw hl)
        · exact e (hsep _ _ _ _ hw hl (List.prefix_refl _)).2

theorem Inv.run (hfree : ∀ i l, W i l → Writable fs0 l)
    (hsep : ∀ i j a b, W i a → W j b → a <+: b → a = b ∧ i = j) (hread : ∀ i j a, W i a → R j a → i = j)
    (hi : Inv h fs0 ps R W N n s) {ts : List Nat} (hs : s.run h ts = some s') :
    Inv h fs0 ps R W N (n + ts.length) s' := by
  induction ts generalizing n s with
  | nil => simp only [Sys.run, Option.some.injEq] at hs; subst hs; exact hi
  | cons t ts ih =>
    simp only [Sys.run, Option.bind_eq_some_iff] at hs
    obtain ⟨s1, h1, h2⟩ := hs
    have := ih (hi.step hfree hsep hread h1) h2
    rwa [List.length_cons, Nat.add_comm ts.length, ← Nat.add_assoc]

/-- The invariant holds at first. -/
theorem Inv.init (hwf : fs0.WF) (huse : ∀ (i : Nat) (p : Prog α), ps[i]? = some p → p.Uses h (R i) (W i)) :
    Inv h fs0 ps R W (ps.map fun p => p.cost h fs0.content).sum 0 (Sys.initial fs0 ps) := by
  refine ⟨hwf, fun _ h _ => h, fun _ _ => rfl, by simp [Sys.initial], _, by simp, Nat.le_refl _, ?_⟩
  intro i p pc c e1 e2 e3
  simp only [Sys.initial, List.getElem?_map, e1, Option.map_some, Option.some.injEq] at e2 e3
  subst e2 e3
  exact ⟨fs0.content, huse i p e1, rfl, Nat.le_refl _, fun _ _ => rfl⟩

theorem Inv.get (hi : Inv h fs0 ps R W N n s) {i : Nat} {p : Prog α} (hp : ps[i]? = some p) :
    ∃ pc c, s.pcs[i]? = some pc ∧ PcInv h (R i) (W i) (p.eval h fs0.content) c s.fs pc := by
  obtain ⟨wf, free, others, len, cs, hcl, hsum, hth⟩ := hi
  have := (List.getElem?_eq_some_iff.mp hp).1
  exact ⟨_, _, List.getElem?_eq_getElem (by omega), hth i p _ _ hp (List.getElem?_eq_getElem (by omega))
    (List.getElem?_eq_getElem (by omega))⟩

/-- A thread that has finished has the result and leaves the files of its program. -/
theorem Inv.finished (hi : Inv h fs0 ps R W N n s) {i : Nat} {p : Prog α} (hp : ps[i]? = some p) {r : Outcome α}
    (hr : s.result i = some r) :
    r = (p.eval h fs0.content).1 ∧ ∀ l, R i l ∨ W i l → s.fs.content l = (p.eval h fs0.content).2 l := by
  obtain ⟨pc, c, e1, hv⟩ := hi.get hp
  unfold Sys.result at hr
  rw [e1] at hr
  split at hr
  · rename_i r' e3
    simp only [Option.some.injEq] at hr e3
    subst hr e3
    obtain ⟨m, _, a2, _, a4⟩ := hv
    rw [← a2]
    exact ⟨rfl, a4⟩
  · simp at hr

/-- A thread that has not finished can go on. -/
theorem Inv.progress (hsep : ∀ i j a b, W i a → W j b → a <+: b → a = b ∧ i = j)
    (hread : ∀ i j a, W i a → R j a → i = j) (hi : Inv h fs0 ps R W N n s) {i : Nat} {p : Prog α}
    (hp : ps[i]? = some p) (hr : s.result i = none) : ∃ s', s.advance h i = some s' := by
  obtain ⟨pc, c, e1, hv⟩ := hi.get hp
  have hnd : ∀ r, pc ≠ .prog (.done r) := by
    intro r e
    rw [Sys.result, e1, e] at hr
    simp at hr
  have own : ∀ l, pc.holds l = true → ∃ q, pc.next h s.pcs s.fs = some q := by
    intro l hl
    cases pc <;> simp [Pc.holds, Pc.exclusive] at hl
    · simp only [Pc.next]
      split
      · exact ⟨_, rfl⟩
      · split <;> exact ⟨_, rfl⟩
    · exact ⟨_, rfl⟩
    · simp only [Pc.next]; split <;> exact ⟨_, rfl⟩
    · simp only [Pc.next]
      split
      · split <;> exact ⟨_, rfl⟩
      · exact ⟨_, rfl⟩
      · exact ⟨_, rfl⟩
  have hq : ∃ q, pc.next h s.pcs s.fs = some q := by
    by_cases hown : ∃ l, pc.holds l = true
    · obtain ⟨l, hl⟩ := hown; exact own l hl
    · have hother : ∀ l q, q ∈ s.pcs → q.holds l = true → ∃ j, j ≠ i ∧ (R j l ∨ W j l) ∧ (q.exclusive l = true → W j l) := by
        intro l q hq hl
        obtain ⟨j, hj⟩ := List.mem_iff_getElem?.mp hq
        have hjl := (List.getElem?_eq_some_iff.mp hj).1
        have hjn : j < ps.length := hi.len ▸ hjl
        have hjp : ps[j]? = some ps[j] := List.getElem?_eq_getElem hjn
        obtain ⟨q', c', e2, hv'⟩ := hi.get hjp
        rw [hj] at e2
        simp only [Option.some.injEq] at e2
        subst e2
        refine ⟨j, ?_, hv'.holds hl⟩
        rintro rfl
        rw [e1] at hj
        simp only [Option.some.injEq] at hj
        exact hown ⟨l, hj ▸ hl⟩
      refine hv.next ?_ ?_ hnd
      · intro l hl
        rw [List.any_eq_false]
        intro q hq hx
        obtain ⟨j, hne, _, h2⟩ := hother l q hq (Pc.holds_of_exclusive hx)
        rcases hl with hl | hl
        · exact hne (hread _ _ _ (h2 hx) hl)
        · exact hne (hsep _ _ _ _ (h2 hx) hl (List.prefix_refl _)).2
      · intro l hl
        rw [List.any_eq_false]
        intro q hq hx
        obtain ⟨j, hne, h1, _⟩ := hother l q hq hx
        rcases h1 with h1 | h1
        · exact hne (hread _ _ _ hl h1).symm
        · exact hne (hsep _ _ _ _ h1 hl (List.prefix_refl _)).2
  obtain ⟨q, hq⟩ := hq
  exact ⟨⟨q.2, s.pcs.set i q.1⟩, by simp [Sys.advance, e1, hq]⟩

/-- The programs run one after the other: their results and the filesystem afterwards. -/
def runAll (h : Hier) : List (Prog α) → Fs → List (Outcome α) × Fs
  | [], fs => ([], fs)
  | p :: ps, fs => ((p.run h fs).1 :: (runAll h ps (p.run h fs).2).1, (runAll h ps (p.run h fs).2).2)

/-- The programs one after the other: each has its effect. -/
theorem runAll_spec (hwf : fs0.WF) (huse : ∀ (i : Nat) (p : Prog α), ps[i]? = some p → p.Uses h (R i) (W i))
    (hfree : ∀ i l, W i l → Writable fs0 l)
    (hsep : ∀ i j a b, W i a → W j b → a <+: b → a = b ∧ i = j) (hread : ∀ i j a, W i a → R j a → i = j) :
    (runAll h ps fs0).2.WF ∧ (∀ (i : Nat) (p : Prog α), ps[i]? = some p →
        (runAll h ps fs0).1[i]? = some (p.eval h fs0.content).1 ∧
        ∀ l, W i l → (runAll h ps fs0).2.content l = (p.eval h fs0.content).2 l) ∧
      (∀ l, (∀ i, i < ps.length → ¬ W i l) → (runAll h ps fs0).2.content l = fs0.content l) ∧
      (runAll h ps fs0).1.length = ps.length := by
  induction ps generalizing fs0 R W with
  | nil => exact ⟨hwf, by simp, fun _ _ => rfl, rfl⟩
  | cons q ps ih =>
    obtain ⟨k1, k2, k3⟩ := q.run_eval (fun a b ha hb hp => (hsep 0 0 a b ha hb hp).1) (huse 0 q rfl) hwf (hfree 0)
    have hother : ∀ i l, R (i + 1) l ∨ W (i + 1) l → (q.run h fs0).2.content l = fs0.content l := by
      intro i l hl
      refine k3.content fun hw => ?_
      rcases hl with hl | hl
      · exact absurd (hread _ _ _ hw hl) (by omega)
      · exact absurd (hsep _ _ _ _ hw hl (List.prefix_refl _)).2 (by omega)
    obtain ⟨i1, i2, i3, i4⟩ := ih (fs0 := (q.run h fs0).2) (R := fun i => R (i + 1)) (W := fun i => W (i + 1)) k3.wf
      (fun i p hp => huse (i + 1) p hp)
      (fun i l hl => k3.writable (hfree _ l hl) (fun a ha hp => (hsep _ _ _ _ ha hl hp).1)
        (fun a ha hp => (hsep _ _ _ _ hl ha hp).1.symm))
      (fun i j a b ha hb hp => by
        obtain ⟨e1, e2⟩ := hsep _ _ a b ha hb hp
        exact ⟨e1, by omega⟩)
      (fun i j a ha hb => by have := hread _ _ a ha hb; omega)
    refine ⟨i1, ?_, ?_, by simp [runAll, i4]⟩
    · intro i p hp
      cases i with
      | zero =>
        simp only [List.getElem?_cons_zero, Option.some.injEq] at hp
        subst hp
        refine ⟨by simp [runAll, k1], fun l hl => ?_⟩
        simp only [runAll]
        rw [i3 l fun i _ hw => absurd (hsep _ _ _ _ hl hw (List.prefix_refl _)).2 (by omega), k2]
      | succ i =>
        simp only [List.getElem?_cons_succ] at hp
        obtain ⟨j1, j2⟩ := i2 i p hp
        obtain ⟨c1, c2⟩ := p.eval_congr (huse (i + 1) p hp) (hother i)
        refine ⟨by simp only [runAll, List.getElem?_cons_succ, j1, c1], fun l hl => ?_⟩
        simp only [runAll]
        rw [j2 l hl]
        exact c2 l (.inr hl)
    · intro l hl
      simp only [runAll]
      rw [i3 l fun i hi => hl (i + 1) (by simp; omega)]
      exact k3.content (hl 0 (by simp))

end

/-- **C75.** Threads whose calls change different files do not interfere. Let each of any number of
threads run a program of store calls that changes only files at locations in `W i`, and reads only those
and files at locations in `R i` that no other thread changes, all at the same time and interleaved in
any way. Then every thread that has finished returned what its program returns when it is run alone, and
the files it uses hold what they hold when it is run alone; files nobody changes are as before; no
thread ever waits for another, and the threads finish within a number of steps that does not depend on
the interleaving. When all have finished, results and files are those of the programs run one after the
other. (A concrete case is at `demoStore` in `Props/ThreadCalls.lean`.) -/
theorem C75 {α : Type} (h : Hier) (fs : Fs) (ps : List (Prog α)) (R W : Nat → Loc → Prop) (hwf : fs.WF)
    (huse : ∀ (i : Nat) (p : Prog α), ps[i]? = some p → p.Uses h (R i) (W i))
    (hfree : ∀ i l, W i l → Writable fs l)
    (hsep : ∀ i j a b, W i a → W j b → a <+: b → a = b ∧ i = j)
    (hread : ∀ i j a, W i a → R j a → i = j) :
    ∃ N, ∀ ts s, (Sys.initial fs ps).run h ts = some s →
      (∀ i p r, ps[i]? = some p → s.result i = some r → r = (p.run h fs).1 ∧
        ∀ l, R i l ∨ W i l → s.fs.content l = (p.run h fs).2.content l) ∧
      (∀ l, (∀ i, i < ps.length → ¬ W i l) → s.fs.content l = fs.content l) ∧ s.fs.WF ∧
      (∀ i p, ps[i]? = some p → s.result i = none → ∃ s', s.advance h i = some s') ∧
      ts.length ≤ N ∧
      ((∀ i, i < ps.length → (s.result i).isSome) →
        (∀ i, i < ps.length → s.result i = (runAll h ps fs).1[i]?) ∧
        ∀ l, s.fs.content l = (runAll h ps fs).2.content l) := by
  refine ⟨(ps.map fun p => p.cost h fs.content).sum, fun ts s hs => ?_⟩
  have hi := (Inv.init hwf huse).run hfree hsep hread hs
  refine ⟨fun i p r hp hr => ?_, hi.others, hi.wf, fun i p hp hr => hi.progress hsep hread hp hr, ?_, fun hall => ?_⟩
  · obtain ⟨k1, k2, _⟩ := p.run_eval (fun a b ha hb hp => (hsep i i a b ha hb hp).1) (huse i p hp) hwf (hfree i)
    rw [k1, k2]
    exact hi.finished hp hr
  · obtain ⟨cs, _, h2, _⟩ := hi.threads
    exact Nat.le_trans (by omega) h2
  · obtain ⟨_, a2, a3, _⟩ := runAll_spec hwf huse hfree hsep hread
    have hfin : ∀ i (hil : i < ps.length), s.result i = some (ps[i].eval h fs.content).1 ∧
        ∀ l, W i l → s.fs.content l = (ps[i].eval h fs.content).2 l := by
      intro i hil
      obtain ⟨r, hr⟩ := Option.isSome_iff_exists.mp (hall i hil)
      obtain ⟨f1, f2⟩ := hi.finished (List.getElem?_eq_getElem hil) hr
      exact ⟨by rw [hr, f1], fun l hl => f2 l (.inr hl)⟩
    refine ⟨fun i hil => ?_, fun l => ?_⟩
    · rw [(hfin i hil).1, (a2 i _ (List.getElem?_eq_getElem hil)).1]
    · by_cases hw : ∃ i, i < ps.length ∧ W i l
      · obtain ⟨i, hil, hw⟩ := hw
        rw [(a2 i _ (List.getElem?_eq_getElem hil)).2 l hw]
        exact (hfin i hil).2 l hw
      · rw [a3 l fun i hil hw' => hw ⟨i, hil, hw'⟩]
        exact hi.others l fun i hil hw' => hw ⟨i, hil, hw'⟩

end Zarr.Threads
