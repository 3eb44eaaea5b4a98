import Verif.Lemmas.RegionSim
/-!
# Threads below different roots

Threads whose programs stay below their own roots do what they do alone. -/

namespace Zarr

namespace Wide

/-! ## The filesystem with the directories above the roots -/

section
variable {roots : List Loc} {fs : Fs}

/-- Part of the way to a twin. -/
structure Partly (roots : List Loc) (fs fs' : Fs) : Prop where
  wf : fs'.WF
  named : fs'.Named
  part : part roots fs = part roots fs'
  above : ∀ l, Above roots l → ∀ b, fs'.get l ≠ some (.file b)

theorem Partly.add {f : Fs} (hp : Partly roots fs f) {r : Loc} (hr : r ∈ roots) (hpl : Plain r) (n : Nat) :
    ∃ f1, Partly roots fs f1 ∧ (∀ x, f.get x = some .dir → f1.get x = some .dir) ∧
      ∀ m, m < n → ¬ Under roots (r.take m) → f1.get (r.take m) = some .dir := by
  induction n with
  | zero => exact ⟨f, hp, fun _ h => h, fun m hm => absurd hm (by omega)⟩
  | succ n ih =>
    obtain ⟨f1, h1, h2, h3⟩ := ih
    by_cases hu : Under roots (r.take n)
    · refine ⟨f1, h1, h2, fun m hm hmu => ?_⟩
      rcases Nat.lt_succ_iff_lt_or_eq.mp hm with hlt | rfl
      · exact h3 m hlt hmu
      · exact absurd hu hmu
    · have hab : Above roots (r.take n) := ⟨hu, r, hr, List.take_prefix _ _⟩
      cases hg : f1.get (r.take n) with
      | some nd =>
        have hd : f1.get (r.take n) = some .dir := by
          cases nd with
          | dir => exact hg
          | file b => exact absurd hg (h1.above _ hab b)
        refine ⟨f1, h1, h2, fun m hm hmu => ?_⟩
        rcases Nat.lt_succ_iff_lt_or_eq.mp hm with hlt | rfl
        · exact h3 m hlt hmu
        · exact hd
      | none =>
        have hne : r.take n ≠ [] := by
          intro e
          rw [e, h1.wf.root] at hg
          simp at hg
        have hn0 : n ≠ 0 := by rintro rfl; simp at hne
        have hplt : Plain (r.take n) := hpl.of_prefix (List.take_prefix _ _)
        have e1 := List.dropLast_concat_getLast hne
        have hpar : f1.get (r.take n).dropLast = some .dir := by
          have hpre : (r.take n).dropLast <+: r.take n := List.dropLast_prefix _
          have heq : (r.take n).dropLast = r.take ((r.take n).length - 1) := by
            rw [List.dropLast_eq_take, List.take_take]
            congr 1
            simp only [List.length_take]
            omega
          rw [heq]
          refine h3 _ ?_ ?_
          · have := List.length_pos_iff.mpr hne
            simp only [List.length_take] at this ⊢
            omega
          · intro hx
            rw [← heq] at hx
            exact hu (hx.below hpre)
        have w : (f1.put (r.take n) .dir).WF := by
          have := h1.wf.put_dir (s := (r.take n).getLast hne) hpar
          rwa [e1] at this
        refine ⟨f1.put (r.take n) .dir, ⟨w, h1.named.put hplt _, ?_, ?_⟩, ?_, ?_⟩
        · rw [part_put_of_not hu]; exact h1.part
        · intro l hl b
          rw [Fs.get_put]
          split
          · simp
          · exact h1.above l hl b
        · intro x hx
          rw [Fs.get_put]
          split
          · rfl
          · exact h2 x hx
        · intro m hm hmu
          rw [Fs.get_put]
          split
          · rfl
          · rcases Nat.lt_succ_iff_lt_or_eq.mp hm with hlt | rfl
            · exact h3 m hlt hmu
            · rename_i hne'; exact absurd rfl hne'

theorem exists_twin (hwf : fs.WF) (hnm : fs.Named) (hpl : ∀ r ∈ roots, Plain r)
    (hab : ∀ l, Above roots l → ∀ b, fs.get l ≠ some (.file b)) : ∃ fs', Twin roots fs fs' := by
  have key : ∀ rs : List Loc, (∀ r ∈ rs, r ∈ roots) → ∃ f, Partly roots fs f ∧
      ∀ r ∈ rs, ∀ l, l <+: r → ¬ Under roots l → f.get l = some .dir := by
    intro rs
    induction rs with
    | nil => intro _; exact ⟨fs, ⟨hwf, hnm, rfl, hab⟩, by simp⟩
    | cons r rs ih =>
      intro hrs
      obtain ⟨f, h1, h2⟩ := ih fun x hx => hrs x (by simp [hx])
      obtain ⟨f1, h3, h4, h5⟩ := h1.add (hrs r (by simp)) (hpl r (hrs r (by simp))) (r.length + 1)
      refine ⟨f1, h3, fun x hx l hl hu => ?_⟩
      rcases List.mem_cons.mp hx with rfl | hx
      · have e : l = x.take l.length := List.prefix_iff_eq_take.mp hl
        rw [e] at hu ⊢
        exact h5 _ (by have := hl.length_le; omega) hu
      · exact h4 l (h2 x hx l hl hu)
  obtain ⟨f, h1, h2⟩ := key roots fun _ h => h
  exact ⟨f, hwf, h1.wf, hnm, h1.named, h1.part, hab, fun l ⟨hu, r, hr, hl⟩ => h2 r hr l hl hu⟩

end

/-! ## Finishing -/

section
variable {α : Type} {h : Hier} {roots wroots : List Loc}

/-- How many steps the thread among others takes at most after the thread alone is here. -/
inductive Costs (h : Hier) : Pc α → Fs → Nat → Prop
  | done (r : Outcome α) (fs : Fs) (c : Nat) : Costs h (.prog (.done r)) fs c
  | step {pc pc1 : Pc α} {fs fs1 : Fs} {c c' : Nat} : pc.next h [] fs = some (pc1, fs1) → Costs h pc1 fs1 c →
      c + room pc1 < c' → Costs h pc fs c'

theorem Leads.costs {pc : Pc α} {fs fs2 : Fs} {r : Outcome α} (hl : Leads h pc fs (.prog (.done r)) fs2) :
    ∃ c, Costs h pc fs c := by
  generalize he : (Pc.prog (.done r) : Pc α) = q at hl
  induction hl with
  | refl => subst he; exact ⟨0, .done _ _ _⟩
  | @step pc pc1 pc2 fs fs1 fs2 hn _ ih =>
    obtain ⟨c, hc⟩ := ih he
    exact ⟨c + room pc1 + 1, .step hn hc (Nat.lt_succ_self _)⟩

theorem Costs.next {pc pc1 : Pc α} {fs fs1 : Fs} {c : Nat} (hc : Costs h pc fs c)
    (hn : pc.next h [] fs = some (pc1, fs1)) : ∃ c1, Costs h pc1 fs1 c1 ∧ c1 + room pc1 < c := by
  cases hc with
  | done r => simp [Pc.next] at hn
  | step hn' h1 h2 =>
    rw [hn] at hn'
    simp only [Option.some.injEq, Prod.mk.injEq] at hn'
    rw [hn'.1, hn'.2]
    exact ⟨_, h1, h2⟩

/-- The thread alone in the twin does what the thread alone does. -/
theorem Rel.leads (hr : ∀ r ∈ roots, r ≠ []) (hsub : ∀ r ∈ wroots, r ∈ roots) {pc : Pc α} {fs fs2 : Fs}
    {r : Outcome α} (hl : Leads h pc fs (.prog (.done r)) fs2) : ∀ {pc' : Pc α} {fs' : Fs} {d : Nat},
    Rel h roots wroots pc fs pc' fs' d → ∃ fs2', Leads h pc' fs' (.prog (.done r)) fs2' ∧ Twin roots fs2 fs2' := by
  generalize he : (Pc.prog (.done r) : Pc α) = q at hl
  induction hl with
  | refl =>
    subst he
    intro pc' fs' d R
    obtain ⟨T, ⟨rfl, _, _⟩ | ⟨p, a, v, k, t, h0, _⟩⟩ := R
    · exact ⟨fs', .refl .., T⟩
    · simp at h0
  | step hn _ ih =>
    intro pc' fs' d R
    obtain ⟨_, ⟨d1, _, R1⟩ | ⟨pc1', fs1', d1, hn', R1, _⟩⟩ := R.step hr hsub hn
    · exact ih he R1
    · obtain ⟨fs2', h1, h2⟩ := ih he R1
      exact ⟨fs2', .step hn' h1, h2⟩

/-! ## Waiting -/

/-- A thread is not in a call that has returned. -/
def Pc.Settled (pc : Pc α) : Prop := ∀ P, pc ≠ .base (.prog (.done (.ok P)))

theorem settled_ofBase (t : Threads.Pc (Prog α)) : (Pc.ofBase t).Settled := by
  intro P
  unfold Pc.ofBase
  split
  · simp
  · rename_i hne
    intro e
    simp only [Pc.base.injEq] at e
    exact hne P e

theorem settled_next {pcs : List (Pc α)} {fs fs1 : Fs} {pc pc1 : Pc α} (hn : pc.next h pcs fs = some (pc1, fs1)) :
    pc1.Settled := by
  have hb : ∀ t, baseNext h pcs fs t = some (pc1, fs1) → pc1.Settled := by
    intro t ht
    unfold baseNext at ht
    rw [Option.map_eq_some_iff] at ht
    obtain ⟨a, _, he⟩ := ht
    simp only [Prod.mk.injEq] at he
    rw [← he.1]; exact settled_ofBase _
  cases pc with
  | prog p =>
    cases p with
    | done _ => simp [Pc.next] at hn
    | «exists» key k => exact hb _ hn
    | get key k => exact hb _ hn
    | set key v k => exact hb _ hn
    | erase key k => exact hb _ hn
    | erasePrefix key k =>
      simp only [Pc.next] at hn
      split at hn <;> simp at hn <;> (rw [← hn.1]; intro P; simp)
    | listDir key k =>
      simp only [Pc.next] at hn
      split at hn
      · split at hn
        · split at hn <;> simp at hn <;> (rw [← hn.1]; intro P; simp)
        · simp at hn; rw [← hn.1]; intro P; simp
        · simp at hn; rw [← hn.1]; intro P; simp
      · simp at hn; rw [← hn.1]; intro P; simp
      · simp at hn; rw [← hn.1]; intro P; simp
  | base t => exact hb _ hn
  | walk p items k =>
    cases items with
    | nil => simp [Pc.next] at hn; rw [← hn.1]; intro P; simp
    | cons it r =>
      cases it with
      | stat q =>
        simp only [Pc.next] at hn
        split at hn
        · split at hn <;> simp at hn <;> (rw [← hn.1]; intro P; simp)
        · simp at hn; rw [← hn.1]; intro P; simp
        · simp at hn; rw [← hn.1]; intro P; simp
      | «open» q =>
        simp only [Pc.next] at hn
        split at hn
        · split at hn <;> simp at hn <;> (rw [← hn.1]; intro P; simp)
        · simp at hn; rw [← hn.1]; intro P; simp
        · simp at hn; rw [← hn.1]; intro P; simp
      | file q =>
        simp only [Pc.next] at hn
        split at hn
        · simp at hn; rw [← hn.1]; intro P; split <;> simp
        · simp at hn; rw [← hn.1]; intro P; simp
        · simp at hn; rw [← hn.1]; intro P; simp
      | rmdir q =>
        simp only [Pc.next] at hn
        split at hn <;> simp at hn <;> (rw [← hn.1]; intro P; simp)
  | walkLock p q l items k =>
    simp only [Pc.next] at hn
    split at hn
    · simp at hn
    · simp at hn; rw [← hn.1]; intro P; simp
  | walkUnlink p q l items k =>
    simp only [Pc.next] at hn
    split at hn
    · split at hn <;> simp at hn <;> (rw [← hn.1]; intro P; simp)
    · simp at hn; rw [← hn.1]; intro P; simp
    · simp at hn; rw [← hn.1]; intro P; simp
  | listing pre p names keys prefixes k =>
    cases names with
    | nil => simp [Pc.next] at hn; rw [← hn.1]; intro P; simp
    | cons n ns =>
      simp only [Pc.next] at hn
      split at hn <;> simp at hn <;> (rw [← hn.1]; intro P; simp)

/-- The thread waits for a lock on the file at `l`, shared or exclusive. -/
inductive Waits : Pc α → Loc → Bool → Prop
  | get (l k) : Waits (.base (.getLock l k)) l false
  | set (l v k) : Waits (.base (.setLock l v k)) l true
  | erase (p l k) : Waits (.base (.eraLock p l k)) l true
  | walk (p q l items k) : Waits (.walkLock p q l items k) l true

theorem base_none {β : Type} {pcs : List (Threads.Pc β)} {fs : Fs} {t : Threads.Pc β} (hn : t.next h pcs fs = none) :
    (∃ r, t = .prog (.done r)) ∨ (∃ l k, t = .getLock l k ∧ pcs.any (Threads.Pc.exclusive l)) ∨
    (∃ l v k, t = .setLock l v k ∧ pcs.any (Threads.Pc.holds l)) ∨
    (∃ p l k, t = .eraLock p l k ∧ pcs.any (Threads.Pc.holds l)) := by
  cases t with
  | prog p =>
    cases p with
    | done r => exact .inl ⟨r, rfl⟩
    | _ => simp only [Threads.Pc.next] at hn; split at hn <;> simp at hn
  | getLock l k =>
    simp only [Threads.Pc.next] at hn
    split at hn
    · rename_i hx; exact .inr (.inl ⟨l, k, rfl, hx⟩)
    · simp at hn
  | setLock l v k =>
    simp only [Threads.Pc.next] at hn
    split at hn
    · rename_i hx; exact .inr (.inr (.inl ⟨l, v, k, rfl, hx⟩))
    · simp at hn
  | eraLock p l k =>
    simp only [Threads.Pc.next] at hn
    split at hn
    · rename_i hx; exact .inr (.inr (.inr ⟨p, l, k, rfl, hx⟩))
    · simp at hn
  | getOpen p k => simp only [Threads.Pc.next] at hn; split at hn <;> simp at hn
  | getRead l acc k =>
    simp only [Threads.Pc.next] at hn
    split at hn
    · simp at hn
    · split at hn <;> simp at hn
  | mkdirDown p n v k =>
    simp only [Threads.Pc.next] at hn
    split at hn
    · simp at hn
    · split at hn <;> simp at hn
  | mkdirDir p n e v k => simp [Threads.Pc.next] at hn
  | mkdirUp p n v k =>
    simp only [Threads.Pc.next] at hn
    split at hn
    · simp at hn
    · split at hn <;> simp at hn
  | setOpen p v k => simp only [Threads.Pc.next] at hn; split at hn <;> simp at hn
  | setTrunc l v k => simp [Threads.Pc.next] at hn
  | setWrite l v n k => simp only [Threads.Pc.next] at hn; split at hn <;> simp at hn
  | eraOpen p k => simp only [Threads.Pc.next] at hn; split at hn <;> simp at hn
  | eraUnlink p l k =>
    simp only [Threads.Pc.next] at hn
    split at hn
    · split at hn <;> simp at hn
    · simp at hn
    · simp at hn
  | eraFinal p k => simp [Threads.Pc.next] at hn

/-- A thread that cannot take a step has finished or waits for a lock that another one holds. -/
theorem next_none {pcs : List (Pc α)} {fs : Fs} {pc : Pc α} (hn : pc.next h pcs fs = none) :
    (∃ r, pc = .prog (.done r)) ∨ (∃ r, pc = .base (.prog (.done r))) ∨
    ∃ l x, Waits pc l x ∧ (pcs.filterMap Pc.locks).any
      (if x then Threads.Pc.holds l else Threads.Pc.exclusive l) := by
  have hb : ∀ t, baseNext h pcs fs t = none → t.next h (pcs.filterMap Pc.locks) fs = none := by
    intro t ht
    unfold baseNext at ht
    simpa using ht
  cases pc with
  | prog p =>
    cases p with
    | done r => exact .inl ⟨r, rfl⟩
    | «exists» key k => have := base_none (hb _ hn); simp at this
    | get key k => have := base_none (hb _ hn); simp at this
    | set key v k => have := base_none (hb _ hn); simp at this
    | erase key k => have := base_none (hb _ hn); simp at this
    | erasePrefix key k => simp only [Pc.next] at hn; split at hn <;> simp at hn
    | listDir key k =>
      simp only [Pc.next] at hn
      split at hn
      · split at hn
        · split at hn <;> simp at hn
        · simp at hn
        · simp at hn
      · simp at hn
      · simp at hn
  | base t =>
    rcases base_none (hb _ hn) with ⟨r, rfl⟩ | ⟨l, k, rfl, hx⟩ | ⟨l, v, k, rfl, hx⟩ | ⟨p, l, k, rfl, hx⟩
    · exact .inr (.inl ⟨r, rfl⟩)
    · exact .inr (.inr ⟨l, false, .get l k, hx⟩)
    · exact .inr (.inr ⟨l, true, .set l v k, hx⟩)
    · exact .inr (.inr ⟨l, true, .erase p l k, hx⟩)
  | walk p items k =>
    cases items with
    | nil => simp [Pc.next] at hn
    | cons it r =>
      cases it with
      | stat q =>
        simp only [Pc.next] at hn
        split at hn
        · split at hn <;> simp at hn
        · simp at hn
        · simp at hn
      | «open» q =>
        simp only [Pc.next] at hn
        split at hn
        · split at hn <;> simp at hn
        · simp at hn
        · simp at hn
      | file q => simp only [Pc.next] at hn; split at hn <;> simp at hn
      | rmdir q => simp only [Pc.next] at hn; split at hn <;> simp at hn
  | walkLock p q l items k =>
    simp only [Pc.next] at hn
    split at hn
    · rename_i hx; exact .inr (.inr ⟨l, true, .walk p q l items k, hx⟩)
    · simp at hn
  | walkUnlink p q l items k =>
    simp only [Pc.next] at hn
    split at hn
    · split at hn <;> simp at hn
    · simp at hn
    · simp at hn
  | listing pre p names keys prefixes k =>
    cases names with
    | nil => simp [Pc.next] at hn
    | cons n ns => simp only [Pc.next] at hn; split at hn <;> simp at hn

/-- Locks are held on files below the roots, exclusive ones on those the thread may write. -/
theorem Rel.locks {pc pc' : Pc α} {fs fs' : Fs} {d : Nat} (hsub : ∀ r ∈ wroots, r ∈ roots)
    (R : Rel h roots wroots pc fs pc' fs' d) {t : Threads.Pc (Prog α)} (ht : pc.locks = some t) {l : Loc} :
    (t.exclusive l = true → Under wroots l) ∧ (t.holds l = true → Under roots l) := by
  obtain ⟨_, ⟨rfl, ok, _⟩ | ⟨p, a, v, k, t', rfl, _, _, _, _, _, _, _, _, hd⟩⟩ := R
  · cases pc with
    | base s =>
      simp only [Pc.locks, Option.some.injEq] at ht
      subst ht
      have ok : BOk h roots wroots fs s := ok
      cases s with
      | getRead l' acc k =>
        refine ⟨by simp [Threads.Pc.exclusive], fun hx => ?_⟩
        simp only [Threads.Pc.holds, decide_eq_true_eq] at hx
        rw [hx]; exact ok.1
      | setTrunc l' v k =>
        refine ⟨fun hx => ?_, fun hx => ?_⟩
        · simp only [Threads.Pc.exclusive, decide_eq_true_eq] at hx
          rw [hx]; exact ok.2.1
        · simp only [Threads.Pc.holds, Threads.Pc.exclusive, decide_eq_true_eq] at hx
          rw [hx]; exact ok.2.1.mono hsub
      | setWrite l' v n k =>
        refine ⟨fun hx => ?_, fun hx => ?_⟩
        · simp only [Threads.Pc.exclusive, decide_eq_true_eq] at hx
          rw [hx]; exact ok.2.1
        · simp only [Threads.Pc.holds, Threads.Pc.exclusive, decide_eq_true_eq] at hx
          rw [hx]; exact ok.2.1.mono hsub
      | eraUnlink p l' k =>
        refine ⟨fun hx => ?_, fun hx => ?_⟩
        · simp only [Threads.Pc.exclusive, decide_eq_true_eq] at hx
          rw [hx, ok.1]; exact ok.2.2.1
        · simp only [Threads.Pc.holds, Threads.Pc.exclusive, decide_eq_true_eq] at hx
          rw [hx, ok.1]; exact ok.2.2.1.mono hsub
      | _ => exact ⟨by simp [Threads.Pc.exclusive], by simp [Threads.Pc.holds, Threads.Pc.exclusive]⟩
    | walkUnlink p q l' items k =>
      simp only [Pc.locks, Option.some.injEq] at ht
      subst ht
      obtain ⟨o0, o1, o2, _, _, o3, _⟩ := ok
      refine ⟨fun hx => ?_, fun hx => ?_⟩
      · simp only [Threads.Pc.exclusive, decide_eq_true_eq] at hx
        rw [hx, o0]; exact o3.below o2
      · simp only [Threads.Pc.holds, Threads.Pc.exclusive, decide_eq_true_eq] at hx
        rw [hx, o0]; exact (o3.below o2).mono hsub
    | _ => simp [Pc.locks] at ht
  · simp only [Pc.locks, Option.some.injEq] at ht
    subst ht
    cases hd <;> exact ⟨by simp [Threads.Pc.exclusive], by simp [Threads.Pc.holds, Threads.Pc.exclusive]⟩

theorem Rel.waits {pc pc' : Pc α} {fs fs' : Fs} {d : Nat} (R : Rel h roots wroots pc fs pc' fs' d) {l : Loc} {x : Bool}
    (hw : Waits pc l x) : if x then Under wroots l else Under roots l := by
  obtain ⟨_, ⟨rfl, ok, _⟩ | ⟨p, a, v, k, t', rfl, _, _, _, _, _, _, _, _, hd⟩⟩ := R
  · cases hw with
    | get l k => exact ok.1
    | set l v k => exact ok.2.1
    | erase p l k => obtain ⟨o0, _, o2, _⟩ := ok; rw [if_pos rfl, o0]; exact o2
    | walk p q l items k => obtain ⟨o0, _, o2, _, _, o3, _⟩ := ok; rw [if_pos rfl, o0]; exact o3.below o2
  · cases hw <;> cases hd

end

/-! ## Systems -/

section
variable {α : Type} {h : Hier} {fs0 : Fs} {ps : List (Prog α)} {rs ws : Nat → List Loc}

/-- The threads stay below their own roots. -/
structure Separate (h : Hier) (fs0 : Fs) (ps : List (Prog α)) (rs ws : Nat → List Loc) : Prop where
  wf : fs0.WF
  named : fs0.Named
  ne : ∀ i, i < ps.length → ∀ r ∈ rs i, r ≠ []
  plain : ∀ i, i < ps.length → ∀ r ∈ rs i, Plain r
  sub : ∀ i, i < ps.length → ∀ r ∈ ws i, r ∈ rs i
  apart : ∀ i j, i < ps.length → j < ps.length → i ≠ j → Apart (ws i) (rs j)
  above : ∀ i, i < ps.length → ∀ l, Above (rs i) l → ∀ b, fs0.get l ≠ some (.file b)
  uses : ∀ (i : Nat) (P : Prog α), ps[i]? = some P → P.Uses h (Above (rs i)) (Under (rs i)) (Under (ws i))

/-- A thread of the system and the same thread alone; `m` bounds the steps it can still take. -/
def Track (h : Hier) (fs0 fs : Fs) (P : Prog α) (R W : List Loc) (pc : Pc α) (m : Nat) : Prop :=
  pc.Settled ∧ ∃ pc' fs' f2 d c, Rel h R W pc fs pc' fs' d ∧
    Leads h pc' fs' (.prog (.done (P.run h fs0).1)) f2 ∧ Twin R (P.run h fs0).2 f2 ∧ Costs h pc' fs' c ∧ d + c ≤ m

/-- What a schedule leads to. -/
structure Inv (h : Hier) (fs0 : Fs) (ps : List (Prog α)) (rs ws : Nat → List Loc) (s : Sys α) (ms : List Nat) : Prop where
  len : s.pcs.length = ps.length
  mlen : ms.length = ps.length
  wf : s.fs.WF
  named : s.fs.Named
  track : ∀ (i : Nat) (P : Prog α) (pc : Pc α) (m : Nat), ps[i]? = some P → s.pcs[i]? = some pc → ms[i]? = some m →
    Track h fs0 s.fs P (rs i) (ws i) pc m
  frame : ∀ l, (∀ i, i < ps.length → ¬ Under (ws i) l) → s.fs.get l = fs0.get l ∨
    (fs0.get l = none ∧ s.fs.get l = some .dir ∧ ∃ i, i < ps.length ∧ ∃ w ∈ ws i, l <+: w)

theorem exists_list {β : Type} (n : Nat) {Q : Nat → β → Prop} (hq : ∀ i, i < n → ∃ b, Q i b) :
    ∃ bs : List β, bs.length = n ∧ ∀ i b, bs[i]? = some b → Q i b := by
  induction n with
  | zero => exact ⟨[], rfl, by simp⟩
  | succ n ih =>
    obtain ⟨bs, h1, h2⟩ := ih fun i hi => hq i (by omega)
    obtain ⟨b, hb⟩ := hq n (by omega)
    refine ⟨bs ++ [b], by simp [h1], fun i x hx => ?_⟩
    by_cases hi : i < n
    · rw [List.getElem?_append_left (by omega)] at hx
      exact h2 i x hx
    · rw [List.getElem?_append_right (by omega)] at hx
      have : i - bs.length = 0 := by
        cases hk : i - bs.length with
        | zero => rfl
        | succ k => rw [hk] at hx; simp at hx
      have hin : i = n := by omega
      rw [this] at hx
      simp at hx
      rw [hin, ← hx]; exact hb

theorem Inv.init (S : Separate h fs0 ps rs ws) : ∃ ms, Inv h fs0 ps rs ws (.initial fs0 ps) ms := by
  have hone : ∀ i, i < ps.length → ∃ m, ∀ P, ps[i]? = some P → Track h fs0 fs0 P (rs i) (ws i) (.prog P) m := by
    intro i hi
    have hP : ps[i]? = some ps[i] := List.getElem?_eq_getElem hi
    obtain ⟨fs', T⟩ := exists_twin S.wf S.named (S.plain i hi) (S.above i hi)
    have hu := S.uses i _ hP
    have hW : ¬ Under (ws i) [] := by
      rintro ⟨w, hw, hw2⟩
      exact S.ne i hi w (S.sub i hi w hw) (List.prefix_nil.mp hw2)
    have R : Rel h (rs i) (ws i) (.prog ps[i]) fs0 (.prog ps[i]) fs' 0 := ⟨T, .inl ⟨rfl, hu, rfl⟩⟩
    obtain ⟨f2, h1, h2⟩ := Rel.leads (S.ne i hi) (S.sub i hi) (solo hW ps[i] fs0 S.wf S.named hu) R
    obtain ⟨c, hc⟩ := h1.costs
    refine ⟨0 + c, fun P hP' => ?_⟩
    rw [hP] at hP'
    simp only [Option.some.injEq] at hP'
    subst hP'
    exact ⟨by intro Q; simp, .prog ps[i], fs', f2, 0, c, R, h1, h2, hc, Nat.le_refl _⟩
  obtain ⟨ms, h1, h2⟩ := exists_list ps.length hone
  refine ⟨ms, by simp [Sys.initial], h1, S.wf, S.named, ?_, fun l _ => .inl rfl⟩
  intro i P pc m hP hpc hm
  simp only [Sys.initial, List.getElem?_map, hP, Option.map_some, Option.some.injEq] at hpc
  rw [← hpc]
  exact h2 i m hm P hP

/-- A step keeps all this, and fewer steps remain. -/
theorem Inv.step (S : Separate h fs0 ps rs ws) {s s' : Sys α} {ms : List Nat} (I : Inv h fs0 ps rs ws s ms) {t : Nat}
    (hs : s.advance h t = some s') : ∃ ms', Inv h fs0 ps rs ws s' ms' ∧ ms'.sum < ms.sum := by
  unfold Sys.advance at hs
  rw [Option.bind_eq_some_iff] at hs
  obtain ⟨pc, hpc, hs⟩ := hs
  rw [Option.map_eq_some_iff] at hs
  obtain ⟨⟨pc1, fs1⟩, hnx, hs⟩ := hs
  simp only at hs
  have htl : t < s.pcs.length := by rw [List.getElem?_eq_some_iff] at hpc; exact hpc.1
  have ht : t < ps.length := by rw [← I.len]; exact htl
  have hP : ps[t]? = some ps[t] := List.getElem?_eq_getElem ht
  have htm : t < ms.length := by rw [I.mlen]; exact ht
  have hm : ms[t]? = some ms[t] := List.getElem?_eq_getElem htm
  obtain ⟨_, pc', fs', f2, d, c, R, hl, T2, hc, hdc⟩ := I.track t _ pc _ hP hpc hm
  have hnil := next_nil hnx
  have hset := settled_next hnx
  obtain ⟨heff, hor⟩ := R.step (S.ne t ht) (S.sub t ht) hnil
  -- the thread itself
  have hself : ∃ m', m' < ms[t] ∧ Track h fs0 fs1 ps[t] (rs t) (ws t) pc1 m' ∧ fs1.WF ∧ fs1.Named := by
    rcases hor with ⟨d1, hd1, R1⟩ | ⟨pc1', fs1', d1, hn', R1, hroom⟩
    · exact ⟨d1 + c, by omega, ⟨hset, pc', fs', f2, d1, c, R1, hl, T2, hc, Nat.le_refl _⟩, R1.twin.wf, R1.twin.named⟩
    · obtain ⟨c1, hc1, hlt⟩ := hc.next hn'
      refine ⟨d1 + c1, by omega, ⟨hset, pc1', fs1', f2, d1, c1, R1, ?_, T2, hc1, Nat.le_refl _⟩, R1.twin.wf,
        R1.twin.named⟩
      exact hl.finish (.one hn')
  obtain ⟨m', hm', htr, hwf1, hnm1⟩ := hself
  refine ⟨ms.set t m', ⟨?_, ?_, ?_, ?_, ?_, ?_⟩, ?_⟩
  · rw [← hs]; simp [I.len]
  · simp [I.mlen]
  · rw [← hs]; exact hwf1
  · rw [← hs]; exact hnm1
  · intro i P pci m hPi hpci hmi
    rw [← hs] at hpci ⊢
    simp only at hpci ⊢
    by_cases hit : i = t
    · subst hit
      rw [List.getElem?_set_self htl] at hpci
      rw [List.getElem?_set_self (by rw [I.mlen]; exact ht)] at hmi
      rw [hP] at hPi
      simp only [Option.some.injEq] at hpci hmi hPi
      rw [← hpci, ← hmi, ← hPi]; exact htr
    · rw [List.getElem?_set_ne (Ne.symm hit)] at hpci hmi
      have hi : i < ps.length := by rw [List.getElem?_eq_some_iff] at hPi; exact hPi.1
      obtain ⟨q0, q1, q2, q3, q4, q5, q6, q7, q8, q9, q10⟩ := I.track i P pci m hPi hpci hmi
      exact ⟨q0, q1, q2, q3, q4, q5, q6.other (S.sub i hi) (S.apart t i ht hi (Ne.symm hit)) heff hwf1 hnm1, q7, q8, q9, q10⟩
  · intro l hl'
    rw [← hs]
    simp only
    have hnu := hl' t ht
    have hst := I.frame l hl'
    cases heff with
    | same => exact hst
    | write x n hx =>
      rw [Fs.get_put, if_neg (by rintro rfl; exact hnu hx)]; exact hst
    | del x hx =>
      rw [Fs.get_del, if_neg (by rintro rfl; exact hnu hx)]; exact hst
    | mkdir x hx hw =>
      rw [Fs.get_put]
      by_cases e : l = x
      · subst e
        rw [if_pos rfl]
        rcases hst with hst | ⟨_, hst, _⟩
        · exact .inr ⟨hst ▸ hx, rfl, t, ht, hw⟩
        · rw [hst] at hx; simp at hx
      · rw [if_neg e]; exact hst
  · have hsum : ∀ (xs : List Nat) (i : Nat) (hi : i < xs.length) (y : Nat), y < xs[i] → (xs.set i y).sum < xs.sum := by
      intro xs
      induction xs with
      | nil => intro i hi; simp at hi
      | cons x xs ih =>
        intro i hi y hy
        cases i with
        | zero => simp at hy ⊢; omega
        | succ i =>
          simp only [List.length_cons, Nat.add_lt_add_iff_right, List.getElem_cons_succ] at hi hy
          have := ih i hi y hy
          simp only [List.set_cons_succ, List.sum_cons]; omega
    exact hsum ms t (by rw [I.mlen]; exact ht) m' hm'

theorem Inv.run (S : Separate h fs0 ps rs ws) {s s' : Sys α} {ms : List Nat} (I : Inv h fs0 ps rs ws s ms) (ts : List Nat)
    (hs : s.run h ts = some s') : ∃ ms', Inv h fs0 ps rs ws s' ms' ∧ ms'.sum + ts.length ≤ ms.sum := by
  induction ts generalizing s ms with
  | nil =>
    simp only [Sys.run, Option.some.injEq] at hs
    rw [← hs]; exact ⟨ms, I, by simp⟩
  | cons t ts ih =>
    simp only [Sys.run, Option.bind_eq_some_iff] at hs
    obtain ⟨s1, h1, h2⟩ := hs
    obtain ⟨ms1, I1, hlt⟩ := I.step S h1
    obtain ⟨ms2, I2, hle⟩ := ih I1 h2
    exact ⟨ms2, I2, by simp only [List.length_cons]; omega⟩

/-- A thread that has finished. -/
theorem Inv.result {s : Sys α} {ms : List Nat} (I : Inv h fs0 ps rs ws s ms)
    {i : Nat} {P : Prog α} {r : Outcome α} (hP : ps[i]? = some P) (hr : s.result i = some r) :
    r = (P.run h fs0).1 ∧ ∀ l, Under (rs i) l → s.fs.get l = (P.run h fs0).2.get l := by
  have hi : i < ps.length := by rw [List.getElem?_eq_some_iff] at hP; exact hP.1
  have hm : ms[i]? = some (ms[i]'(by rw [I.mlen]; exact hi)) := List.getElem?_eq_getElem (by rw [I.mlen]; exact hi)
  unfold Sys.result at hr
  split at hr
  · rename_i r' hpc
    simp only [Option.some.injEq] at hr
    subst hr
    obtain ⟨_, pc', fs', f2, d, c, R, hl, T2, _, _⟩ := I.track i P _ _ hP hpc hm
    obtain ⟨T, ⟨rfl, _, _⟩ | ⟨p, a, v, k, t, h0, _⟩⟩ := R
    · cases hl with
      | refl =>
        refine ⟨rfl, fun l hl => ?_⟩
        rw [T.get hl, T2.get hl]
      | step hn _ => simp [Pc.next] at hn
    · simp at h0
  · simp at hr

/-- Nobody waits for anybody. -/
theorem Inv.progress (S : Separate h fs0 ps rs ws) {s : Sys α} {ms : List Nat} (I : Inv h fs0 ps rs ws s ms)
    {i : Nat} (hi : i < ps.length) (hr : s.result i = none) : ∃ s', s.advance h i = some s' := by
  have hil : i < s.pcs.length := by rw [I.len]; exact hi
  have hpc : s.pcs[i]? = some s.pcs[i] := List.getElem?_eq_getElem hil
  have hP : ps[i]? = some ps[i] := List.getElem?_eq_getElem hi
  have hm : ms[i]? = some (ms[i]'(by rw [I.mlen]; exact hi)) := List.getElem?_eq_getElem (by rw [I.mlen]; exact hi)
  obtain ⟨hset, pc', fs', f2, d, c, R, _⟩ := I.track i _ _ _ hP hpc hm
  cases hn : (s.pcs[i]).next h s.pcs s.fs with
  | some r => exact ⟨_, by unfold Sys.advance; rw [hpc]; simp [hn]; rfl⟩
  | none =>
    exfalso
    rcases next_none hn with ⟨r, hd⟩ | ⟨r, hd⟩ | ⟨l, x, hw, hany⟩
    · unfold Sys.result at hr
      rw [hpc, hd] at hr
      simp at hr
    · rw [hd] at R hset
      obtain ⟨_, ⟨_, ok, _⟩ | ⟨p, a, v, k, t, h0, _, _, _, _, _, _, _, _, hdig⟩⟩ := R
      · obtain ⟨P, hP', _⟩ := ok
        rw [hP'] at hset
        exact hset P rfl
      · simp only [Pc.base.injEq] at h0
        rw [← h0] at hdig
        cases hdig
    · rw [List.any_eq_true] at hany
      obtain ⟨t, ht, hhold⟩ := hany
      obtain ⟨q, hq, hqt⟩ := List.mem_filterMap.mp ht
      obtain ⟨j, hj, hqj⟩ := List.getElem_of_mem hq
      have hjp : j < ps.length := by rw [← I.len]; exact hj
      have hqj' : s.pcs[j]? = some q := by rw [List.getElem?_eq_getElem hj, hqj]
      have hPj : ps[j]? = some ps[j] := List.getElem?_eq_getElem hjp
      have hmj : ms[j]? = some (ms[j]'(by rw [I.mlen]; exact hjp)) := List.getElem?_eq_getElem (by rw [I.mlen]; exact hjp)
      obtain ⟨_, pcj, fsj, _, dj, _, Rj, _⟩ := I.track j _ _ _ hPj hqj' hmj
      have hlk := Rj.locks (S.sub j hjp) hqt (l := l)
      have hwt := R.waits hw
      by_cases hij : i = j
      · -- it does not hold what it waits for
        subst hij
        rw [hpc] at hqj'
        simp only [Option.some.injEq] at hqj'
        rw [hqj'] at hw
        cases hw with
        | get l k =>
          simp only [Pc.locks, Option.some.injEq] at hqt
          rw [← hqt] at hhold; simp [Threads.Pc.exclusive] at hhold
        | set l v k =>
          simp only [Pc.locks, Option.some.injEq] at hqt
          rw [← hqt] at hhold; simp [Threads.Pc.holds, Threads.Pc.exclusive] at hhold
        | erase p l k =>
          simp only [Pc.locks, Option.some.injEq] at hqt
          rw [← hqt] at hhold; simp [Threads.Pc.holds, Threads.Pc.exclusive] at hhold
        | walk p q l items k => simp [Pc.locks] at hqt
      · cases x with
        | true =>
          simp only [if_true] at hhold hwt
          exact (S.apart i j hi hjp hij).not_under hwt (hlk.2 hhold)
        | false =>
          simp only [Bool.false_eq_true, if_false] at hhold hwt
          exact (S.apart j i hjp hi (Ne.symm hij)).not_under (hlk.1 hhold) hwt


/-! ## One thread after the other -/

/-- The programs one after the other. -/
def runAll (h : Hier) : List (Prog α) → Fs → List (Outcome α) × Fs
  | [], fs => ([], fs)
  | p :: ps, fs => ((p.run h fs).1 :: (runAll h ps (p.run h fs).2).1, (runAll h ps (p.run h fs).2).2)

/-- If no other thread holds a lock, a thread steps as it does alone. -/
theorem next_quiet {pcs : List (Pc α)} {i : Nat} {pc : Pc α} {fs : Fs} {r : Pc α × Fs}
    (hq : ∀ (j : Nat) (q : Pc α), pcs[j]? = some q → j ≠ i → q.locks = none) (hpc : pcs[i]? = some pc)
    (hn : pc.next h [] fs = some r) : pc.next h pcs fs = some r := by
  cases hx : pc.next h pcs fs with
  | some r' => rw [← hn]; exact (next_nil hx).symm
  | none =>
    exfalso
    rcases next_none hx with ⟨r, rfl⟩ | ⟨r, rfl⟩ | ⟨l, x, hw, hany⟩
    · simp [Pc.next] at hn
    · simp [Pc.next, baseNext, Threads.Pc.next] at hn
    · rw [List.any_eq_true] at hany
      obtain ⟨t, ht, hhold⟩ := hany
      obtain ⟨q, hq', hqt⟩ := List.mem_filterMap.mp ht
      obtain ⟨j, hj, hqj⟩ := List.getElem_of_mem hq'
      have hqj' : pcs[j]? = some q := by rw [List.getElem?_eq_getElem hj, hqj]
      by_cases hij : j = i
      · subst hij
        rw [hpc] at hqj'
        simp only [Option.some.injEq] at hqj'
        subst hqj'
        cases hw with
        | get l k =>
          simp only [Pc.locks, Option.some.injEq] at hqt
          rw [← hqt] at hhold; simp [Threads.Pc.exclusive] at hhold
        | set l v k =>
          simp only [Pc.locks, Option.some.injEq] at hqt
          rw [← hqt] at hhold; simp [Threads.Pc.holds, Threads.Pc.exclusive] at hhold
        | erase p l k =>
          simp only [Pc.locks, Option.some.injEq] at hqt
          rw [← hqt] at hhold; simp [Threads.Pc.holds, Threads.Pc.exclusive] at hhold
        | walk p q l items k => simp [Pc.locks] at hqt
      · rw [hq j q hqj' hij] at hqt
        simp at hqt

/-- A thread runs while the others rest. -/
theorem Leads.system {pc pc2 : Pc α} {fs fs2 : Fs} (hl : Leads h pc fs pc2 fs2) {pcs : List (Pc α)} {i : Nat}
    (hq : ∀ (j : Nat) (q : Pc α), pcs[j]? = some q → j ≠ i → q.locks = none) (hpc : pcs[i]? = some pc) :
    ∃ ts, (Sys.mk fs pcs).run h ts = some ⟨fs2, pcs.set i pc2⟩ := by
  induction hl generalizing pcs with
  | refl pc fs =>
    refine ⟨[], ?_⟩
    have e : pcs.set i pc = pcs := by
      apply List.ext_getElem?
      intro j
      by_cases hj : i = j
      · subst hj
        have hi : i < pcs.length := by rw [List.getElem?_eq_some_iff] at hpc; exact hpc.1
        rw [List.getElem?_set_self hi, hpc]
      · rw [List.getElem?_set_ne hj]
    rw [Sys.run, e]
  | step hn _ ih =>
    rename_i pc pc1 pc2 fs fs1 fs2 _
    have hi : i < pcs.length := by rw [List.getElem?_eq_some_iff] at hpc; exact hpc.1
    obtain ⟨ts, hts⟩ := ih (pcs := pcs.set i pc1)
      (fun j q hj hne => hq j q (by rw [List.getElem?_set_ne (Ne.symm hne)] at hj; exact hj) hne)
      (List.getElem?_set_self hi)
    refine ⟨i :: ts, ?_⟩
    rw [List.set_set] at hts
    simp only [Sys.run, Sys.advance, hpc, Option.bind_some, next_quiet hq hpc hn, Option.map_some]
    exact hts

theorem Sys.run_append {s s1 s2 : Sys α} {ts us : List Nat} (h1 : s.run h ts = some s1) (h2 : s1.run h us = some s2) :
    s.run h (ts ++ us) = some s2 := by
  induction ts generalizing s with
  | nil => simp only [Sys.run, Option.some.injEq] at h1; subst h1; exact h2
  | cons t ts ih =>
    simp only [Sys.run, Option.bind_eq_some_iff, List.cons_append] at h1 ⊢
    obtain ⟨s', h3, h4⟩ := h1
    exact ⟨s', h3, ih h4⟩

/-- Running the threads one after the other is one of the schedules. -/
theorem serial (S : Separate h fs0 ps rs ws) : ∃ ts, (Sys.initial fs0 ps).run h ts =
    some ⟨(runAll h ps fs0).2, (runAll h ps fs0).1.map fun r => .prog (.done r)⟩ := by
  obtain ⟨ms, I⟩ := Inv.init S
  have key : ∀ (ps2 ps1 : List (Prog α)) (rs1 : List (Outcome α)) (fs1 : Fs), ps = ps1 ++ ps2 →
      rs1.length = ps1.length → (∃ ts, (Sys.initial fs0 ps).run h ts =
        some ⟨fs1, rs1.map (fun r => .prog (.done r)) ++ ps2.map .prog⟩) →
      ∃ ts, (Sys.initial fs0 ps).run h ts = some ⟨(runAll h ps2 fs1).2,
        (rs1 ++ (runAll h ps2 fs1).1).map fun r => .prog (.done r)⟩ := by
    intro ps2
    induction ps2 with
    | nil => intro ps1 rs1 fs1 _ _ ⟨ts, hts⟩; exact ⟨ts, by simpa [runAll] using hts⟩
    | cons P ps2 ih =>
      intro ps1 rs1 fs1 hps hlen ⟨ts, hts⟩
      obtain ⟨ms', I', _⟩ := I.run S ts hts
      have hP : ps[ps1.length]? = some P := by rw [hps]; simp
      have hi : ps1.length < ps.length := by rw [hps]; simp
      have hW : ¬ Under (ws ps1.length) [] := by
        rintro ⟨w, hw, hw2⟩
        exact S.ne _ hi w (S.sub _ hi w hw) (List.prefix_nil.mp hw2)
      have hsolo := solo hW P fs1 I'.wf I'.named (S.uses _ P hP)
      obtain ⟨us, hus⟩ := hsolo.system (pcs := rs1.map (fun r => .prog (.done r)) ++ (P :: ps2).map .prog)
        (i := ps1.length) (by
          intro j q hj _
          have hm := List.mem_of_getElem? hj
          rcases List.mem_append.mp hm with hm | hm <;> obtain ⟨x, _, rfl⟩ := List.mem_map.mp hm <;> rfl)
        (by rw [← hlen]; simp)
      refine (ih (ps1 ++ [P]) (rs1 ++ [(P.run h fs1).1]) (P.run h fs1).2 (by simp [hps]) (by simp [hlen])
        ⟨ts ++ us, ?_⟩).imp fun ts' h' => ?_
      · rw [Sys.run_append hts hus]
        congr 1
        congr 1
        rw [← hlen]
        simp [List.set_append]
      · rw [h']
        simp [runAll]
  have := key ps [] [] fs0 (by simp) rfl ⟨[], rfl⟩
  simpa using this

/-- When all threads have finished, they got the results, and left the files, of running one after the
other. -/
theorem Inv.serial (S : Separate h fs0 ps rs ws) {s : Sys α} {ms : List Nat} (I : Inv h fs0 ps rs ws s ms)
    (hall : ∀ i, i < ps.length → (s.result i).isSome) :
    (∀ (i : Nat) (P : Prog α), ps[i]? = some P → (runAll h ps fs0).1[i]? = some (P.run h fs0).1) ∧
    ∀ l, s.fs.content l = (runAll h ps fs0).2.content l := by
  obtain ⟨ms0, I0⟩ := Inv.init S
  obtain ⟨ts, hts⟩ := Wide.serial S
  obtain ⟨ms1, I1, _⟩ := I0.run S ts hts
  have hlen : (runAll h ps fs0).1.length = ps.length := by simpa using I1.len
  have hres : ∀ (i : Nat) (r : Outcome α), (runAll h ps fs0).1[i]? = some r →
      (Sys.mk (runAll h ps fs0).2 ((runAll h ps fs0).1.map fun r => Pc.prog (.done r))).result i = some r := by
    intro i r hr
    simp [Sys.result, hr]
  have hboth : ∀ (i : Nat) (P : Prog α), ps[i]? = some P → (runAll h ps fs0).1[i]? = some (P.run h fs0).1 ∧
      ∀ l, Under (rs i) l → s.fs.get l = (runAll h ps fs0).2.get l := by
    intro i P hP
    have hi : i < ps.length := by rw [List.getElem?_eq_some_iff] at hP; exact hP.1
    have hr : (runAll h ps fs0).1[i]? = some ((runAll h ps fs0).1[i]'(hlen ▸ hi)) :=
      List.getElem?_eq_getElem (hlen ▸ hi)
    obtain ⟨h1, h2⟩ := I1.result hP (hres i _ hr)
    obtain ⟨r, hr'⟩ := Option.isSome_iff_exists.mp (hall i hi)
    obtain ⟨_, h3⟩ := I.result hP hr'
    exact ⟨by rw [hr, h1], fun l hl => by rw [h3 l hl]; exact (h2 l hl).symm⟩
  refine ⟨fun i P hP => (hboth i P hP).1, fun l => ?_⟩
  by_cases hex : ∃ i, i < ps.length ∧ Under (ws i) l
  · obtain ⟨i, hi, hu⟩ := hex
    have := (hboth i _ (List.getElem?_eq_getElem hi)).2 l (hu.mono (S.sub i hi))
    simp only [Fs.content, this]
  · have hno : ∀ i, i < ps.length → ¬ Under (ws i) l := fun i hi hu => hex ⟨i, hi, hu⟩
    have f1 := I.frame l hno
    have f2 := I1.frame l hno
    have hc : ∀ f : Fs, (f.get l = fs0.get l ∨ (fs0.get l = none ∧ f.get l = some .dir ∧
        ∃ i, i < ps.length ∧ ∃ w ∈ ws i, l <+: w)) → f.content l = fs0.content l := by
      intro f hf
      rcases hf with e | ⟨e1, e2, _⟩
      · simp only [Fs.content, e]
      · simp only [Fs.content, e1, e2]
    rw [hc _ f1, hc _ f2]

end

end Wide

end Zarr
