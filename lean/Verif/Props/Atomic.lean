import Verif.Lemmas.Atomic
/-!
# Store calls of concurrent threads are atomic: C79
-/

namespace Zarr.Threads

/-! ## Specification: store calls as single steps -/

/-- The filesystem and the rest of the program of each thread. -/
structure ASys (α : Type) where
  fs : Fs
  progs : List (Prog α)

/-- Thread `t` makes its next store call, all of it. -/
def ASys.advance {α : Type} (h : Hier) (s : ASys α) (t : Nat) : Option (ASys α) :=
  (s.progs[t]?).bind fun p => (p.call h s.fs).map fun r => ⟨r.2, s.progs.set t r.1⟩

/-- Store calls of the threads one after the other. -/
def ASys.run {α : Type} (h : Hier) (s : ASys α) : List Nat → Option (ASys α)
  | [] => some s
  | t :: ts => (s.advance h t).bind fun s' => s'.run h ts

/-- The threads whose steps are marked. -/
def marked : List Nat → List Bool → List Nat
  | t :: ts, b :: bs => if b then t :: marked ts bs else marked ts bs
  | _, _ => []

/-! ## The simulation -/

structure Sim {α : Type} (h : Hier) (fs0 : Fs) (W : Nat → Loc → Prop) (S : Loc → Prop) (s : Sys α) (a : ASys α) :
    Prop where
  len : a.progs.length = s.pcs.length
  change : Change (Touched W S) fs0 s.fs
  achange : Change (Touched W S) fs0 a.fs
  thr : ∀ (i : Nat) (pc : Pc α) (q : Prog α), s.pcs[i]? = some pc → a.progs[i]? = some q →
    Thr h fs0.content W S i s.fs a.fs.content pc q
  clean : ∀ l, (∀ (i : Nat) (pc : Pc α), s.pcs[i]? = some pc → ¬ Dirty W i pc l) → s.fs.content l = a.fs.content l
  lock : ∀ (i j : Nat) (p q : Pc α) (l : Loc), s.pcs[i]? = some p → s.pcs[j]? = some q → p.exclusive l = true →
    q.holds l = true → i = j
  shared : ∀ l, S l → (s.fs.content l).isSome ∧ (a.fs.content l).isSome

section
variable {α : Type} {h : Hier} {W : Nat → Loc → Prop} {S : Loc → Prop} {fs0 : Fs} {s s' : Sys α} {a : ASys α}

theorem Sim.init (hl : Layout fs0 W S) {ps : List (Prog α)}
    (hu : ∀ (i : Nat) (p : Prog α), ps[i]? = some p → p.Shares h fs0.content W S i) :
    Sim h fs0 W S (Sys.initial fs0 ps) ⟨fs0, ps⟩ where
  len := by simp [Sys.initial]
  change := .refl hl.wf
  achange := .refl hl.wf
  thr i pc q e1 e2 := by
    simp only [Sys.initial, List.getElem?_map, e2, Option.map_some, Option.some.injEq] at e1
    subst e1
    exact ⟨hu i q e2, rfl⟩
  clean _ _ := rfl
  lock i j p q l e1 _ e3 _ := by
    simp only [Sys.initial, List.getElem?_map, Option.map_eq_some_iff] at e1
    obtain ⟨r, _, rfl⟩ := e1
    simp [Pc.exclusive] at e3
  shared l hs := by
    obtain ⟨b, hb⟩ := hl.stored l hs
    simp [Sys.initial, Fs.content, hb]

theorem Sim.step (hl : Layout fs0 W S) (hs : Sim h fs0 W S s a) {t : Nat} (ha : s.advance h t = some s') :
    ∃ (b : Bool) (a' : ASys α), (if b then a.advance h t = some a' else a' = a) ∧ Sim h fs0 W S s' a' := by
  obtain ⟨len, hc, hca, thr, clean, lock, shared⟩ := hs
  have hsep : ∀ i j l, W i l → W j l → i = j := fun i j l h1 h2 => (hl.sep i j l l h1 h2 (List.prefix_refl _)).2
  unfold Sys.advance at ha
  cases hpc : s.pcs[t]? with
  | none => rw [hpc] at ha; simp at ha
  | some pc =>
    rw [hpc] at ha
    simp only [Option.bind_some, Option.map_eq_some_iff] at ha
    obtain ⟨⟨pc', fs'⟩, hn, rfl⟩ := ha
    have htl : t < s.pcs.length := (List.getElem?_eq_some_iff.mp hpc).1
    have hq : a.progs[t]? = some a.progs[t] := List.getElem?_eq_getElem (by omega)
    generalize a.progs[t] = q at hq
    have ht := thr t pc q hpc hq
    have hex : ∀ (j : Nat) (pj : Pc α), s.pcs[j]? = some pj → ∃ qj, a.progs[j]? = some qj ∧ Thr h fs0.content W S j s.fs a.fs.content pj qj := by
      intro j pj e
      have : j < s.pcs.length := (List.getElem?_eq_some_iff.mp e).1
      exact ⟨_, List.getElem?_eq_getElem (by omega), thr j pj _ e (List.getElem?_eq_getElem (by omega))⟩
    obtain ⟨q', m', h1, h2, he⟩ := ht.step hc.wf (fun l => hl.writable hc) hl.apart shared
      (fun l k1 k2 k3 => clean l fun j pj e d => by
        obtain ⟨qj, _, tj⟩ := hex j pj e
        rcases tj.dirty d with w | w
        · obtain rfl := k1 j w
          rw [hpc, Option.some.injEq] at e
          exact k3 (e ▸ d)
        · exact k2 w)
      (fun l k1 k2 k3 => clean l fun j pj e d => by
        have hne : pj.exclusive l = false := by
          rw [List.any_eq_false] at k2
          simpa using k2 pj (List.mem_of_getElem? e)
        obtain ⟨qj, _, tj⟩ := hex j pj e
        have : W j l := by
          cases pj <;> simp only [Dirty] at d <;> simp_all [Pc.exclusive]
        obtain rfl := k1 j this
        rw [hpc, Option.some.injEq] at e
        exact k3 (e ▸ d))
      (fun j l k1 k2 => (hsep _ _ l k1 k2).symm)
      (fun l k1 k2 => hca.content fun x => x.elim k1 fun ⟨i, x⟩ => k2 i x) hn
    -- the locks after the step
    have lock' : ∀ (i j : Nat) (p r : Pc α) (l : Loc), (s.pcs.set t pc')[i]? = some p → (s.pcs.set t pc')[j]? = some r →
        p.exclusive l = true → r.holds l = true → i = j := by
      intro i j p r l e1 e2 x1 x2
      by_cases hi : t = i
      · subst hi
        by_cases hj : t = j
        · exact hj
        rw [List.getElem?_set_self htl, Option.some.injEq] at e1
        rw [List.getElem?_set_ne hj] at e2
        subst e1
        rcases (Pc.locks hn l).1 x1 with y | y
        · exact lock _ _ _ _ l hpc e2 y x2
        · rw [List.any_eq_false] at y
          exact absurd x2 (y r (List.mem_of_getElem? e2))
      · rw [List.getElem?_set_ne hi] at e1
        by_cases hj : t = j
        · subst hj
          rw [List.getElem?_set_self htl, Option.some.injEq] at e2
          subst e2
          rcases (Pc.locks hn l).2 x2 with y | y
          · exact lock _ _ _ _ l e1 hpc x1 y
          · rw [List.any_eq_false] at y
            exact absurd x1 (y p (List.mem_of_getElem? e1))
        · rw [List.getElem?_set_ne hj] at e2
          exact lock _ _ _ _ l e1 e2 x1 x2
    -- the threads after the step
    have thr' : ∀ (i : Nat) (p : Pc α) (r : Prog α), (s.pcs.set t pc')[i]? = some p → (a.progs.set t q')[i]? = some r →
        Thr h fs0.content W S i fs' m' p r := by
      intro i p r e1 e2
      by_cases hi : t = i
      · subst hi
        rw [List.getElem?_set_self htl, Option.some.injEq] at e1
        rw [List.getElem?_set_self (by omega), Option.some.injEq] at e2
        subst e1 e2
        exact h2
      · have e1' := e1
        rw [List.getElem?_set_ne hi] at e1 e2
        refine (thr i p r e1 e2).frame hsep (fun e => hi e.symm) he (fun l x => ⟨?_, ht.excl x⟩)
          (fun l x => ⟨?_, h2.excl x⟩) hl.apart (fun l x => (shared l x).1)
        · cases y : p.holds l with
          | false => rfl
          | true => exact absurd (lock _ _ _ _ l hpc e1 x y) hi
        · cases y : p.holds l with
          | false => rfl
          | true => exact absurd (lock' _ _ _ _ l (List.getElem?_set_self htl) e1' x y) hi
    have clean' : ∀ l, (∀ (i : Nat) (p : Pc α), (s.pcs.set t pc')[i]? = some p → ¬ Dirty W i p l) →
        fs'.content l = m' l := by
      intro l hd
      refine he.agree l (hd t pc' (List.getElem?_set_self htl)) ?_
      by_cases x : Dirty W t pc l
      · exact .inl x
      · refine .inr (clean l fun i p e => ?_)
        by_cases hi : t = i
        · subst hi
          rw [hpc, Option.some.injEq] at e
          exact e ▸ x
        · exact hd i p (by rw [List.getElem?_set_ne hi]; exact e)
    have hc' := hc.trans (fun x y hx hy hp => hl.chain hx hy hp) he.change
    rcases h1 with ⟨rfl, rfl⟩ | h1
    · refine ⟨false, a, rfl, by simpa using len, hc', hca, fun i p r e1 e2 => ?_, clean', lock', he.shared⟩
      refine thr' i p r e1 ?_
      by_cases hi : t = i
      · subst hi
        rw [List.getElem?_set_self (by omega), ← hq, e2]
      · rw [List.getElem?_set_ne hi, e2]
    · obtain ⟨fa, k1, rfl, k3⟩ := Prog.call_astep hl hca ht.1 h1
      refine ⟨true, ⟨fa, a.progs.set t q'⟩, ?_, by simpa using len, hc', k3, thr', clean', lock', he.shared⟩
      simp [ASys.advance, hq, k1]

theorem Sim.run (hl : Layout fs0 W S) (hs : Sim h fs0 W S s a) {ts : List Nat} (hr : s.run h ts = some s') :
    ∃ bs : List Bool, bs.length = ts.length ∧ ∀ n s1, s.run h (ts.take n) = some s1 →
      ∃ a1, a.run h (marked (ts.take n) (bs.take n)) = some a1 ∧ Sim h fs0 W S s1 a1 := by
  induction ts generalizing s a with
  | nil =>
    refine ⟨[], rfl, fun n s1 e => ⟨a, by simp [marked, ASys.run], ?_⟩⟩
    simp only [List.take_nil, Sys.run, Option.some.injEq] at e
    exact e ▸ hs
  | cons t ts ih =>
    simp only [Sys.run, Option.bind_eq_some_iff] at hr
    obtain ⟨s2, h1, h2⟩ := hr
    obtain ⟨b, a', h3, h4⟩ := hs.step hl h1
    obtain ⟨bs, h5, h6⟩ := ih h4 h2
    refine ⟨b :: bs, by simp [h5], fun n s1 e => ?_⟩
    cases n with
    | zero =>
      simp only [List.take_zero, Sys.run, Option.some.injEq] at e
      exact ⟨a, by simp [marked, ASys.run], e ▸ hs⟩
    | succ n =>
      simp only [List.take_succ_cons, Sys.run, h1, Option.bind_some] at e
      obtain ⟨a1, h7, h8⟩ := h6 n s1 e
      refine ⟨a1, ?_, h8⟩
      simp only [List.take_succ_cons, marked]
      cases b with
      | false =>
        simp only [Bool.false_eq_true, if_false] at h3 ⊢
        exact h3 ▸ h7
      | true =>
        simp only [if_true] at h3 ⊢
        simp only [ASys.run, h3, Option.bind_some, h7]

end

/-- **C79.** Store calls of concurrent threads take effect at once. Let each thread create, overwrite and
erase files of its own, and let all overwrite and read files that exist. Whatever the order of the system
calls, some of them can be marked such that, at every moment, the threads are where they would be had the
store calls been made whole, one after the other, in the order of the marks: a thread between two calls has
got the same results, hence goes on with the same program; if all are between calls, the files are the
same. (A call's mark lies between its begin and its end: before the begin the program has not made the
call, after the end it has.) A concrete case is at `sharers` in `Props/Terminate.lean`. -/
theorem C79 {α : Type} {h : Hier} {W : Nat → Loc → Prop} {S : Loc → Prop} {fs : Fs} {ps : List (Prog α)}
    (hl : Layout fs W S) (hu : ∀ (i : Nat) (p : Prog α), ps[i]? = some p → p.Shares h fs.content W S i)
    {ts : List Nat} {s : Sys α} (hr : (Sys.initial fs ps).run h ts = some s) :
    ∃ bs : List Bool, bs.length = ts.length ∧ ∀ n s1, (Sys.initial fs ps).run h (ts.take n) = some s1 →
      ∃ a, (⟨fs, ps⟩ : ASys α).run h (marked (ts.take n) (bs.take n)) = some a ∧
        (∀ (i : Nat) (p : Prog α), s1.pcs[i]? = some (.prog p) → a.progs[i]? = some p) ∧
        ((∀ pc ∈ s1.pcs, ∃ p, pc = .prog p) → s1.fs.content = a.fs.content) := by
  obtain ⟨bs, h1, h2⟩ := (Sim.init hl hu).run hl hr
  refine ⟨bs, h1, fun n s1 e => ?_⟩
  obtain ⟨a, h3, h4⟩ := h2 n s1 e
  refine ⟨a, h3, fun i p e => ?_, fun hq => funext fun l => h4.clean l fun i pc e => ?_⟩
  · have hlt : i < a.progs.length := by rw [h4.len]; exact (List.getElem?_eq_some_iff.mp e).1
    have hq := List.getElem?_eq_getElem hlt
    rw [hq]
    exact congrArg some (h4.thr i _ _ e hq).2
  · obtain ⟨p, rfl⟩ := hq pc (List.mem_of_getElem? e)
    exact fun x => x

/-- **C79 (no deadlock).** Whatever the threads do, if one has not finished, one can go on. -/
theorem C79_progress {α : Type} (h : Hier) (s : Sys α) {i : Nat} (hi : i < s.pcs.length) (hr : s.result i = none) :
    ∃ j s', s.advance h j = some s' := by
  have adv : ∀ (j : Nat) (pc : Pc α) r, s.pcs[j]? = some pc → pc.next h s.pcs s.fs = some r → ∃ j s', s.advance h j = some s' :=
    fun j pc r e1 e2 => ⟨j, ⟨r.2, s.pcs.set j r.1⟩, by simp [Sys.advance, e1, e2]⟩
  have held : ∀ l, s.pcs.any (Pc.holds l) = true → ∃ j s', s.advance h j = some s' := by
    intro l hx
    rw [List.any_eq_true] at hx
    obtain ⟨pc, hm, hx⟩ := hx
    obtain ⟨j, e⟩ := List.getElem?_of_mem hm
    obtain ⟨r, e2⟩ := Pc.next_of_holds s.pcs hx
    exact adv j pc r e e2
  have e := List.getElem?_eq_getElem hi
  generalize s.pcs[i] = pc at e
  cases hn : pc.next h s.pcs s.fs with
  | some r => exact adv i pc r e hn
  | none =>
    cases pc with
    | prog p =>
      cases p with
      | done r => simp [Sys.result, e] at hr
      | _ => simp only [Pc.next] at hn; split at hn <;> simp at hn
    | getLock l k =>
      simp only [Pc.next] at hn
      split at hn
      · rename_i hx
        refine held l ?_
        rw [List.any_eq_true] at hx ⊢
        obtain ⟨x, h1, h2⟩ := hx
        exact ⟨x, h1, Pc.holds_of_exclusive h2⟩
      · simp at hn
    | setLock l v k =>
      simp only [Pc.next] at hn
      split at hn
      · rename_i hx; exact held l hx
      · simp at hn
    | eraLock p l k =>
      simp only [Pc.next] at hn
      split at hn
      · rename_i hx; exact held l hx
      · simp at hn
    | _ => simp only [Pc.next] at hn; (repeat' split at hn) <;> simp at hn

end Zarr.Threads
