import Verif.Lemmas.RegionSys
import Verif.Lemmas.Harmless
import Verif.Model.WalkFaults
/-!
# Threads whose system calls fail

What still holds of a thread that stays below some roots, in whatever state failing system calls have put it. -/

namespace Zarr.Wide

section
variable {α : Type} (h : Hier) (roots wroots : List Loc)

/-- States of a call of a thread that stays below the roots and whose system calls may have failed. -/
def BLoose (fs : Fs) : Threads.Pc (Prog α) → Prop
  | .prog p => ∃ P : Prog α, p = .done (.ok P) ∧ P.Uses h (Above roots) (Under roots) (Under wroots)
  | .getOpen p k => Plain p ∧ Under roots p ∧ Ret h roots wroots k
  | .getLock l k => Under roots l ∧ Ret h roots wroots k
  | .getRead l _ k => Under roots l ∧ Ret h roots wroots k
  | .mkdirDown p n _ k => Plain p ∧ Under wroots p ∧ n < p.length ∧ Ret h roots wroots k
  | .mkdirDir p n _ _ k => Plain p ∧ Under wroots p ∧ n < p.length ∧ Ret h roots wroots k
  | .mkdirUp p n _ k => Plain p ∧ Under wroots p ∧ n ≠ 0 ∧ Ret h roots wroots k
  | .setOpen p _ k => Plain p ∧ Under wroots p ∧ Ret h roots wroots k
  | .setLock l _ k => Plain l ∧ Under wroots l ∧ (∃ b, fs.get l = some (.file b)) ∧ Ret h roots wroots k
  | .setTrunc l _ k => Plain l ∧ Under wroots l ∧ (∃ b, fs.get l = some (.file b)) ∧ Ret h roots wroots k
  | .setWrite l _ _ k => Plain l ∧ Under wroots l ∧ (∃ b, fs.get l = some (.file b)) ∧ Ret h roots wroots k
  | .eraOpen p k => Plain p ∧ Under wroots p ∧ Ret h roots wroots k
  | .eraLock p l k => l = p ∧ Plain p ∧ Under wroots p ∧ Ret h roots wroots k
  | .eraUnlink p l k => l = p ∧ Plain p ∧ Under wroots p ∧ Ret h roots wroots k
  | .eraFinal p k => Plain p ∧ Under wroots p ∧ Ret h roots wroots k

/-- States of a thread that stays below the roots and whose system calls may have failed. -/
def Loose (fs : Fs) : Pc α → Prop
  | .prog P => P.Uses h (Above roots) (Under roots) (Under wroots)
  | .base t => BLoose h roots wroots fs t
  | .walk p items k => WOk h roots wroots fs p items k
  | .walkLock p q l items k => l = q ∧ Plain q ∧ p <+: q ∧ WOk h roots wroots fs p items k
  | .walkUnlink p q l items k => l = q ∧ Plain q ∧ p <+: q ∧ WOk h roots wroots fs p items k
  | .listing _ _ _ _ _ k => ∀ r, (k r).Uses h (Above roots) (Under roots) (Under wroots)

end

section
variable {α : Type} {h : Hier} {roots wroots : List Loc} {fs fs1 : Fs}

theorem loose_ofBase {t : Threads.Pc (Prog α)} (ht : BLoose h roots wroots fs t) :
    Loose h roots wroots fs (Pc.ofBase t) := by
  unfold Pc.ofBase
  split
  · obtain ⟨P, hP, hu⟩ := ht
    simp only [Threads.Prog.done.injEq, Outcome.ok.injEq] at hP
    rw [hP]; exact hu
  · exact ht

theorem ret_of {β : Type} {k : Outcome β → Prog α}
    (hk : ∀ r, (k r).Uses h (Above roots) (Under roots) (Under wroots)) :
    Ret h roots wroots fun r => .done (.ok (k r)) := fun r => ⟨_, rfl, hk r⟩

/-- A change elsewhere. -/
theorem Loose.other {W : List Loc} (hsub : ∀ r ∈ wroots, r ∈ roots) {pc : Pc α} (ha : Apart W roots)
    (he : Eff W fs fs1) (ht : Loose h roots wroots fs pc) : Loose h roots wroots fs1 pc := by
  cases pc with
  | base t =>
    have ht : BLoose h roots wroots fs t := ht
    show BLoose h roots wroots fs1 t
    cases t with
    | setLock l v k => exact ⟨ht.1, ht.2.1, by rw [he.get_eq ha (ht.2.1.mono hsub)]; exact ht.2.2.1, ht.2.2.2⟩
    | setTrunc l v k => exact ⟨ht.1, ht.2.1, by rw [he.get_eq ha (ht.2.1.mono hsub)]; exact ht.2.2.1, ht.2.2.2⟩
    | setWrite l v n k => exact ⟨ht.1, ht.2.1, by rw [he.get_eq ha (ht.2.1.mono hsub)]; exact ht.2.2.1, ht.2.2.2⟩
    | _ => exact ht
  | _ => exact ht

/-- After a step of the thread. -/
structure Fair (h : Hier) (roots wroots : List Loc) (fs fs1 : Fs) (pc1 : Pc α) : Prop where
  eff : Eff wroots fs fs1
  wf : fs1.WF
  named : fs1.Named
  loose : Loose h roots wroots fs1 pc1

theorem Fair.same {pc1 : Pc α} (hw : fs.WF) (hm : fs.Named) (hl : Loose h roots wroots fs pc1) :
    Fair h roots wroots fs fs pc1 := ⟨.same, hw, hm, hl⟩

theorem eff_mkdir {p : Loc} {n : Nat} (hw : fs.WF) (hm : fs.Named) (hp : Plain p) (hu : Under wroots p) (h0 : n ≠ 0)
    (hn : n < p.length) (hk : fs.mkdir (p.take n) = .ok fs1) : Eff wroots fs fs1 ∧ fs1.WF ∧ fs1.Named := by
  have hwf := (Threads.Only.mkdir (W := fun _ => True) hw hp trivial h0 hn hk).wf
  have hpt : Plain (p.take n) := hp.of_prefix (List.take_prefix _ _)
  unfold Fs.mkdir at hk
  split at hk
  · rename_i l hl
    have e := Fs.locate_plain_ok hpt hl
    subst e
    split at hk
    · cases hk
    · rename_i hg
      simp only [Outcome.ok.injEq] at hk
      subst hk
      refine ⟨?_, hwf, hm.put hpt _⟩
      obtain ⟨w, hw1, hw2⟩ := hu
      rcases List.prefix_or_prefix_of_prefix hw2 (List.take_prefix n p) with h6 | h6
      · exact .write _ _ ⟨w, hw1, h6⟩
      · exact .mkdir _ hg ⟨w, hw1, h6⟩
  · cases hk
  · cases hk

theorem eff_create {p l : Loc} (hw : fs.WF) (hm : fs.Named) (hp : Plain p) (hu : Under wroots p)
    (ho : Fs.openCreate p fs = .ok (l, fs1)) :
    l = p ∧ Eff wroots fs fs1 ∧ fs1.WF ∧ fs1.Named ∧ ∃ b, fs1.get p = some (.file b) := by
  obtain ⟨h1, h2, h3⟩ := Threads.Only.create (W := fun _ => True) hw hp trivial ho
  refine ⟨h1, ?_, h2.wf, ?_, h3⟩ <;>
  · unfold Fs.openCreate at ho
    split at ho
    · rename_i x hx
      have e := Fs.locate_plain_ok hp hx
      subst e
      split at ho
      · simp only [Outcome.ok.injEq, Prod.mk.injEq] at ho
        first | exact ho.2 ▸ .same | exact ho.2 ▸ hm
      · cases ho
      · simp only [Outcome.ok.injEq, Prod.mk.injEq] at ho
        first | exact ho.2 ▸ .write _ _ hu | exact ho.2 ▸ hm.put hp _
    · cases ho
    · cases ho

theorem eff_put {p : Loc} {b b' : Bytes} (hw : fs.WF) (hm : fs.Named) (hp : Plain p) (hu : Under wroots p)
    (hg : fs.get p = some (.file b)) : Eff wroots fs (fs.put p (.file b')) ∧ (fs.put p (.file b')).WF ∧
      (fs.put p (.file b')).Named ∧ ∃ b, (fs.put p (.file b')).get p = some (.file b) :=
  ⟨.write _ _ hu, hw.put_file_over hg, hm.put hp _, b', by rw [Fs.get_put, if_pos rfl]⟩

/-- A step of a call. -/
theorem BLoose.next {t t1 : Threads.Pc (Prog α)} (hw : fs.WF) (hm : fs.Named) (ht : BLoose h roots wroots fs t)
    (hn : t.next h [] fs = some (t1, fs1)) :
    Eff wroots fs fs1 ∧ fs1.WF ∧ fs1.Named ∧ BLoose h roots wroots fs1 t1 := by
  cases t with
  | prog p =>
    obtain ⟨P, rfl, _⟩ := ht
    simp [Threads.Pc.next] at hn
  | getOpen l k =>
    obtain ⟨a1, a2, a3⟩ := ht
    simp only [Threads.Pc.next] at hn
    split at hn
    · rename_i l' hl
      have e := Fs.locate_plain_ok a1 hl
      subst e
      simp only [Option.some.injEq, Prod.mk.injEq] at hn
      obtain ⟨rfl, rfl⟩ := hn
      refine ⟨.same, hw, hm, ?_⟩
      split
      · exact ⟨a2, a3⟩
      · exact a3 _
    all_goals
      simp only [Option.some.injEq, Prod.mk.injEq] at hn
      obtain ⟨rfl, rfl⟩ := hn
      exact ⟨.same, hw, hm, a3 _⟩
  | getLock l k =>
    simp only [Threads.Pc.next, List.any_nil, Bool.false_eq_true, if_false, Option.some.injEq, Prod.mk.injEq] at hn
    obtain ⟨rfl, rfl⟩ := hn
    exact ⟨.same, hw, hm, ht⟩
  | getRead l acc k =>
    obtain ⟨a1, a2⟩ := ht
    simp only [Threads.Pc.next] at hn
    split at hn
    · simp only [Option.some.injEq, Prod.mk.injEq] at hn
      obtain ⟨rfl, rfl⟩ := hn
      exact ⟨.same, hw, hm, a2 _⟩
    · split at hn
      all_goals
        simp only [Option.some.injEq, Prod.mk.injEq] at hn
        obtain ⟨rfl, rfl⟩ := hn
      · exact ⟨.same, hw, hm, a1, a2⟩
      · exact ⟨.same, hw, hm, a2 _⟩
  | mkdirDown p n v k =>
    obtain ⟨a1, a2, a3, a4⟩ := ht
    simp only [Threads.Pc.next] at hn
    by_cases h0 : n = 0
    · rw [if_pos h0] at hn
      simp only [Option.some.injEq, Prod.mk.injEq] at hn
      obtain ⟨rfl, rfl⟩ := hn
      refine ⟨.same, hw, hm, ?_⟩
      split
      · exact ⟨a1, a2, by omega, a4⟩
      · exact a4 _
    · rw [if_neg h0] at hn
      cases hk : fs.mkdir (p.take n) with
      | ok f1 =>
        rw [hk] at hn
        simp only [Option.some.injEq, Prod.mk.injEq] at hn
        obtain ⟨rfl, rfl⟩ := hn
        obtain ⟨e1, e2, e3⟩ := eff_mkdir hw hm a1 a2 h0 a3 hk
        exact ⟨e1, e2, e3, a1, a2, by omega, a4⟩
      | err e =>
        rw [hk] at hn
        simp only [Option.some.injEq, Prod.mk.injEq] at hn
        obtain ⟨rfl, rfl⟩ := hn
        refine ⟨.same, hw, hm, ?_⟩
        split
        · exact ⟨a1, a2, by omega, a4⟩
        · exact ⟨a1, a2, a3, a4⟩
      | panic => exact absurd hk (mkdir_ne_panic _ _)
  | mkdirDir p n e v k =>
    obtain ⟨a1, a2, a3, a4⟩ := ht
    simp only [Threads.Pc.next, Option.some.injEq, Prod.mk.injEq] at hn
    obtain ⟨rfl, rfl⟩ := hn
    refine ⟨.same, hw, hm, ?_⟩
    split
    · exact ⟨a1, a2, by omega, a4⟩
    · exact a4 _
  | mkdirUp p n v k =>
    obtain ⟨a1, a2, a3, a4⟩ := ht
    simp only [Threads.Pc.next] at hn
    by_cases hl : p.length ≤ n
    · rw [if_pos hl] at hn
      simp only [Option.some.injEq, Prod.mk.injEq] at hn
      obtain ⟨rfl, rfl⟩ := hn
      exact ⟨.same, hw, hm, a1, a2, a4⟩
    · rw [if_neg hl] at hn
      cases hk : fs.mkdir (p.take n) with
      | ok f1 =>
        rw [hk] at hn
        simp only [Option.some.injEq, Prod.mk.injEq] at hn
        obtain ⟨rfl, rfl⟩ := hn
        obtain ⟨e1, e2, e3⟩ := eff_mkdir hw hm a1 a2 a3 (by omega) hk
        exact ⟨e1, e2, e3, a1, a2, by omega, a4⟩
      | err e =>
        rw [hk] at hn
        simp only [Option.some.injEq, Prod.mk.injEq] at hn
        obtain ⟨rfl, rfl⟩ := hn
        exact ⟨.same, hw, hm, a1, a2, by omega, a4⟩
      | panic => exact absurd hk (mkdir_ne_panic _ _)
  | setOpen p v k =>
    obtain ⟨a1, a2, a3⟩ := ht
    simp only [Threads.Pc.next] at hn
    cases ho : Fs.openCreate p fs with
    | ok r =>
      obtain ⟨l, f1⟩ := r
      rw [ho] at hn
      simp only [Option.some.injEq, Prod.mk.injEq] at hn
      obtain ⟨rfl, rfl⟩ := hn
      obtain ⟨rfl, e1, e2, e3, e4⟩ := eff_create hw hm a1 a2 ho
      exact ⟨e1, e2, e3, a1, a2, e4, a3⟩
    | err e =>
      rw [ho] at hn
      simp only [Option.some.injEq, Prod.mk.injEq] at hn
      obtain ⟨rfl, rfl⟩ := hn
      exact ⟨.same, hw, hm, a3 _⟩
    | panic => exact absurd ho (openCreate_ne_panic _ _)
  | setLock p v k =>
    simp only [Threads.Pc.next, List.any_nil, Bool.false_eq_true, if_false, Option.some.injEq, Prod.mk.injEq] at hn
    obtain ⟨rfl, rfl⟩ := hn
    exact ⟨.same, hw, hm, ht⟩
  | setTrunc p v k =>
    obtain ⟨a1, a2, ⟨b, a3⟩, a4⟩ := ht
    simp only [Threads.Pc.next, Option.some.injEq, Prod.mk.injEq] at hn
    obtain ⟨rfl, rfl⟩ := hn
    obtain ⟨e1, e2, e3, e4⟩ := eff_put (b' := []) hw hm a1 a2 a3
    exact ⟨e1, e2, e3, a1, a2, e4, a4⟩
  | setWrite p v n k =>
    obtain ⟨a1, a2, ⟨b, a3⟩, a4⟩ := ht
    simp only [Threads.Pc.next] at hn
    split at hn
    all_goals
      simp only [Option.some.injEq, Prod.mk.injEq] at hn
      obtain ⟨rfl, rfl⟩ := hn
    · obtain ⟨e1, e2, e3, e4⟩ := eff_put hw hm a1 a2 a3
      exact ⟨e1, e2, e3, a1, a2, e4, a4⟩
    · exact ⟨.same, hw, hm, a4 _⟩
  | eraOpen p k =>
    obtain ⟨a1, a2, a3⟩ := ht
    simp only [Threads.Pc.next] at hn
    split at hn
    · rename_i l' hl
      have e := Fs.locate_plain_ok a1 hl
      subst e
      simp only [Option.some.injEq, Prod.mk.injEq] at hn
      obtain ⟨rfl, rfl⟩ := hn
      refine ⟨.same, hw, hm, ?_⟩
      split
      · exact ⟨rfl, a1, a2, a3⟩
      · exact a3 _
    all_goals
      simp only [Option.some.injEq, Prod.mk.injEq] at hn
      obtain ⟨rfl, rfl⟩ := hn
      exact ⟨.same, hw, hm, a3 _⟩
  | eraLock p l k =>
    simp only [Threads.Pc.next, List.any_nil, Bool.false_eq_true, if_false, Option.some.injEq, Prod.mk.injEq] at hn
    obtain ⟨rfl, rfl⟩ := hn
    exact ⟨.same, hw, hm, ht⟩
  | eraUnlink p l k =>
    obtain ⟨a0, a1, a2, a3⟩ := ht
    simp only [Threads.Pc.next] at hn
    split at hn
    · rename_i l' hl
      have e := Fs.locate_plain_ok a1 hl
      subst e
      split at hn
      all_goals
        simp only [Option.some.injEq, Prod.mk.injEq] at hn
        obtain ⟨rfl, rfl⟩ := hn
      · rename_i b hg
        exact ⟨.del _ a2, hw.del_file hg, hm.del _, a1, a2, a3⟩
      · exact ⟨.same, hw, hm, a3 _⟩
      · exact ⟨.same, hw, hm, a3 _⟩
    all_goals
      simp only [Option.some.injEq, Prod.mk.injEq] at hn
      obtain ⟨rfl, rfl⟩ := hn
      exact ⟨.same, hw, hm, a3 _⟩
  | eraFinal p k =>
    obtain ⟨a1, a2, a3⟩ := ht
    simp only [Threads.Pc.next, Option.some.injEq, Prod.mk.injEq] at hn
    obtain ⟨rfl, rfl⟩ := hn
    exact ⟨.same, hw, hm, a3 _⟩

/-- A step of a call that is just made. -/
theorem loose_first {t t1 : Threads.Pc (Prog α)} (hw : fs.WF) (hm : fs.Named)
    (ht : ∃ key, Plain (h.loc key) ∧ (
      (∃ k, Ret h roots wroots k ∧ t = .prog (.exists key k)) ∨
      (∃ k, Under roots (h.loc key) ∧ Ret h roots wroots k ∧ t = .prog (.get key k)) ∨
      (∃ v k, Under wroots (h.loc key) ∧ Ret h roots wroots k ∧ t = .prog (.set key v k)) ∨
      (∃ k, Under wroots (h.loc key) ∧ Ret h roots wroots k ∧ t = .prog (.erase key k))))
    (hn : t.next h [] fs = some (t1, fs1)) :
    Eff wroots fs fs1 ∧ fs1.WF ∧ fs1.Named ∧ BLoose h roots wroots fs1 t1 := by
  obtain ⟨key, hp, ht⟩ := ht
  obtain ⟨t', ht', hs⟩ := getPath_loc hp
  rcases ht with ⟨k, hk, rfl⟩ | ⟨k, hu, hk, rfl⟩ | ⟨v, k, hu, hk, rfl⟩ | ⟨k, hu, hk, rfl⟩ <;>
  · simp only [Threads.Pc.next, ht', hs, Option.some.injEq, Prod.mk.injEq] at hn
    obtain ⟨rfl, rfl⟩ := hn
    refine ⟨.same, hw, hm, ?_⟩
    first
    | exact hk _
    | split
      · first
        | exact ⟨hp, hu, hk⟩
      · first
        | exact hk _
        | exact ⟨hp, hu, hk⟩
        | rename_i hne
          have : (h.loc key).length ≠ 0 := fun e => hne (.inl (by rw [List.length_eq_zero_iff.mp e]; rfl))
          exact ⟨hp, hu, by omega, hk⟩

theorem fair_base {pc1 : Pc α} {t : Threads.Pc (Prog α)} (hn : baseNext h [] fs t = some (pc1, fs1))
    (hb : ∀ t1, t.next h [] fs = some (t1, fs1) →
      Eff wroots fs fs1 ∧ fs1.WF ∧ fs1.Named ∧ BLoose h roots wroots fs1 t1) : Fair h roots wroots fs fs1 pc1 := by
  simp only [baseNext, List.filterMap_nil, Option.map_eq_some_iff] at hn
  obtain ⟨⟨t1, f1⟩, hn, he⟩ := hn
  simp only [Prod.mk.injEq] at he
  obtain ⟨rfl, rfl⟩ := he
  obtain ⟨e1, e2, e3, e4⟩ := hb t1 hn
  exact ⟨e1, e2, e3, loose_ofBase e4⟩

/-- A step of the thread. -/
theorem Loose.next {pc pc1 : Pc α} (hw : fs.WF) (hm : fs.Named) (ht : Loose h roots wroots fs pc)
    (hn : pc.next h [] fs = some (pc1, fs1)) : Fair h roots wroots fs fs1 pc1 := by
  cases pc with
  | prog P =>
    have ht : P.Uses h (Above roots) (Under roots) (Under wroots) := ht
    cases P with
    | done r => simp [Pc.next] at hn
    | «exists» key k =>
      exact fair_base hn fun t1 => loose_first hw hm ⟨key, ht.1, .inl ⟨_, ret_of ht.2.2, rfl⟩⟩
    | get key k =>
      exact fair_base hn fun t1 => loose_first hw hm ⟨key, ht.1, .inr (.inl ⟨_, ht.2.1, ret_of ht.2.2, rfl⟩)⟩
    | set key v k =>
      exact fair_base hn fun t1 => loose_first hw hm
        ⟨key, ht.1, .inr (.inr (.inl ⟨_, _, ht.2.1, ret_of ht.2.2, rfl⟩))⟩
    | erase key k =>
      exact fair_base hn fun t1 => loose_first hw hm
        ⟨key, ht.1, .inr (.inr (.inr ⟨_, ht.2.1, ret_of ht.2.2, rfl⟩))⟩
    | erasePrefix key k =>
      obtain ⟨a1, a2, a3⟩ := ht
      obtain ⟨t', ht', hs⟩ := getPath_loc a1
      simp only [Pc.next, ht', hs, Option.some.injEq, Prod.mk.injEq] at hn
      obtain ⟨rfl, rfl⟩ := hn
      refine .same hw hm ⟨a1, a2, fun it hit => ?_, a3⟩
      split at hit
      · simp only [List.mem_singleton] at hit
        subst hit
        exact ⟨a1, List.prefix_rfl⟩
      · cases hit
    | listDir pre k =>
      obtain ⟨a1, a2, a3⟩ := ht
      simp only [Pc.next] at hn
      split at hn <;> (try split at hn) <;> (try split at hn) <;>
        · simp only [Option.some.injEq, Prod.mk.injEq] at hn
          obtain ⟨rfl, rfl⟩ := hn
          first | exact .same hw hm (a3 _) | exact .same hw hm a3
  | base t => exact fair_base hn fun t1 => BLoose.next hw hm ht
  | walk p items k =>
    obtain ⟨a1, a2, a3, a4⟩ := ht
    cases items with
    | nil =>
      simp only [Pc.next, Option.some.injEq, Prod.mk.injEq] at hn
      obtain ⟨rfl, rfl⟩ := hn
      exact .same hw hm (a4 _)
    | cons i r =>
      have hr := fun j hj => a3 j (.tail _ hj)
      have hi := a3 i (.head _)
      cases i with
      | stat q =>
        simp only [Pc.next] at hn
        split at hn <;> (try split at hn) <;>
          · simp only [Option.some.injEq, Prod.mk.injEq] at hn
            obtain ⟨rfl, rfl⟩ := hn
            first
            | exact .same hw hm (a4 _)
            | exact .same hw hm ⟨a1, a2, List.forall_mem_cons.mpr ⟨hi, hr⟩, a4⟩
      | «open» q =>
        simp only [Pc.next] at hn
        split at hn
        · rename_i l' hl
          have e := Fs.locate_plain_ok hi.1 hl
          simp only [Item.path] at e
          subst e
          split at hn
          · simp only [Option.some.injEq, Prod.mk.injEq] at hn
            obtain ⟨rfl, rfl⟩ := hn
            refine .same hw hm ⟨a1, a2, ?_, a4⟩
            intro j hj
            rcases List.mem_append.mp hj with hj | hj
            · obtain ⟨⟨s, nd⟩, he, rfl⟩ := List.mem_map.mp hj
              have hg := (Fs.mem_children hw).mp he
              have : Plain (l' ++ [s]) ∧ p <+: l' ++ [s] := ⟨hm _ _ hg, hi.2.trans (List.prefix_append _ _)⟩
              simp only
              split <;> exact this
            · rcases List.mem_cons.mp hj with rfl | hj
              · exact hi
              · exact hr j hj
          all_goals
            simp only [Option.some.injEq, Prod.mk.injEq] at hn
            obtain ⟨rfl, rfl⟩ := hn
            exact .same hw hm (a4 _)
        all_goals
          simp only [Option.some.injEq, Prod.mk.injEq] at hn
          obtain ⟨rfl, rfl⟩ := hn
          exact .same hw hm (a4 _)
      | file q =>
        simp only [Pc.next] at hn
        split at hn
        · rename_i l' hl
          have e := Fs.locate_plain_ok hi.1 hl
          simp only [Item.path] at e
          subst e
          simp only [Option.some.injEq, Prod.mk.injEq] at hn
          obtain ⟨rfl, rfl⟩ := hn
          refine .same hw hm ?_
          split
          · exact ⟨rfl, hi.1, hi.2, a1, a2, hr, a4⟩
          · exact a4 _
        all_goals
          simp only [Option.some.injEq, Prod.mk.injEq] at hn
          obtain ⟨rfl, rfl⟩ := hn
          exact .same hw hm (a4 _)
      | rmdir q =>
        simp only [Pc.next] at hn
        split at hn
        · rename_i fs' hrm
          simp only [Option.some.injEq, Prod.mk.injEq] at hn
          obtain ⟨rfl, rfl⟩ := hn
          unfold Fs.rmdir at hrm
          split at hrm
          · rename_i l' hl
            have e := Fs.locate_plain_ok hi.1 hl
            simp only [Item.path] at e
            subst e
            split at hrm
            · split at hrm
              · cases hrm
              · rename_i hne
                rw [not_or, Classical.not_not] at hne
                cases hrm
                exact ⟨.del _ (a2.below hi.2), hw.del_dir hne.1 hne.2, hm.del _, a1, a2, hr, a4⟩
            · cases hrm
            · cases hrm
          · cases hrm
          · cases hrm
        all_goals
          simp only [Option.some.injEq, Prod.mk.injEq] at hn
          obtain ⟨rfl, rfl⟩ := hn
          exact .same hw hm (a4 _)
  | walkLock p q l items k =>
    simp only [Pc.next] at hn
    split at hn
    · cases hn
    · simp only [Option.some.injEq, Prod.mk.injEq] at hn
      obtain ⟨rfl, rfl⟩ := hn
      exact .same hw hm ht
  | walkUnlink p q l items k =>
    obtain ⟨b1, b2, b3, a1, a2, a3, a4⟩ := ht
    simp only [Pc.next] at hn
    split at hn
    · rename_i l' hl
      have e := Fs.locate_plain_ok b2 hl
      subst e
      split at hn
      · rename_i b hg
        simp only [Option.some.injEq, Prod.mk.injEq] at hn
        obtain ⟨rfl, rfl⟩ := hn
        exact ⟨.del _ (a2.below b3), hw.del_file hg, hm.del _, a1, a2, a3, a4⟩
      all_goals
        simp only [Option.some.injEq, Prod.mk.injEq] at hn
        obtain ⟨rfl, rfl⟩ := hn
        exact .same hw hm (a4 _)
    all_goals
      simp only [Option.some.injEq, Prod.mk.injEq] at hn
      obtain ⟨rfl, rfl⟩ := hn
      exact .same hw hm (a4 _)
  | listing pre p ns keys prefixes k =>
    have ht : ∀ r, (k r).Uses h (Above roots) (Under roots) (Under wroots) := ht
    cases ns with
    | nil =>
      simp only [Pc.next, Option.some.injEq, Prod.mk.injEq] at hn
      obtain ⟨rfl, rfl⟩ := hn
      exact .same hw hm (ht _)
    | cons n ns =>
      simp only [Pc.next] at hn
      split at hn <;>
        · simp only [Option.some.injEq, Prod.mk.injEq] at hn
          obtain ⟨rfl, rfl⟩ := hn
          exact .same hw hm ht

/-- A system call of a call fails. -/
theorem BLoose.failed {t t1 : Threads.Pc (Prog α)} {f : Threads.Fault} (ht : BLoose h roots wroots fs t)
    (hf : t.failed h f = some t1) : BLoose h roots wroots fs t1 := by
  cases t with
  | prog p =>
    obtain ⟨P, rfl, _⟩ := ht
    simp [Threads.Pc.failed] at hf
  | mkdirDown p n v k =>
    obtain ⟨a1, a2, a3, a4⟩ := ht
    simp only [Threads.Pc.failed] at hf
    split at hf
    · simp only [Option.some.injEq] at hf; subst hf; exact a4 _
    · simp only [Option.some.injEq] at hf
      subst hf
      split
      · exact ⟨a1, a2, by omega, a4⟩
      · exact ⟨a1, a2, a3, a4⟩
  | mkdirDir p n e v k => simp only [Threads.Pc.failed, Option.some.injEq] at hf; subst hf; exact ht.2.2.2 _
  | mkdirUp p n v k =>
    obtain ⟨a1, a2, a3, a4⟩ := ht
    simp only [Threads.Pc.failed] at hf
    split at hf
    · cases hf
    · simp only [Option.some.injEq] at hf; subst hf; exact ⟨a1, a2, by omega, a4⟩
  | setWrite p v n k =>
    simp only [Threads.Pc.failed] at hf
    split at hf
    · simp only [Option.some.injEq] at hf; subst hf; exact ht.2.2.2 _
    · cases hf
  | getOpen l k | setOpen p v k | eraOpen p k | eraFinal p k =>
    simp only [Threads.Pc.failed, Option.some.injEq] at hf; subst hf; exact ht.2.2 _
  | getLock l k | getRead l acc k =>
    simp only [Threads.Pc.failed, Option.some.injEq] at hf; subst hf; exact ht.2 _
  | setLock p v k | setTrunc p v k | eraLock p l k | eraUnlink p l k =>
    simp only [Threads.Pc.failed, Option.some.injEq] at hf; subst hf; exact ht.2.2.2 _

theorem loose_failed_base {pc1 : Pc α} {t : Threads.Pc (Prog α)} {f : Threads.Fault}
    (hf : (t.failed h f).map Pc.ofBase = some pc1)
    (hb : ∀ t1, t.failed h f = some t1 → BLoose h roots wroots fs t1) :
    Loose h roots wroots fs pc1 ∧ pc1.Settled := by
  rw [Option.map_eq_some_iff] at hf
  obtain ⟨t1, hf, rfl⟩ := hf
  exact ⟨loose_ofBase (hb t1 hf), settled_ofBase t1⟩

/-- A system call of the thread fails. -/
theorem Loose.failed {pc pc1 : Pc α} {f : Threads.Fault} (ht : Loose h roots wroots fs pc)
    (hf : pc.failed h f = some pc1) : Loose h roots wroots fs pc1 ∧ pc1.Settled := by
  have sp : ∀ P : Prog α, (Pc.prog P).Settled := fun P Q => by simp
  cases pc with
  | prog P =>
    have ht : P.Uses h (Above roots) (Under roots) (Under wroots) := ht
    cases P with
    | done r => simp [Pc.failed] at hf
    | «exists» key k =>
      obtain ⟨t', ht', hs⟩ := getPath_loc ht.1
      refine loose_failed_base hf fun t1 hf => ?_
      simp only [Threads.Pc.failed, ht', Option.some.injEq] at hf
      subst hf
      exact ret_of ht.2.2 _
    | get key k =>
      obtain ⟨t', ht', hs⟩ := getPath_loc ht.1
      refine loose_failed_base hf fun t1 hf => ?_
      simp only [Threads.Pc.failed, ht', Option.some.injEq] at hf
      subst hf
      exact ret_of ht.2.2 _
    | set key v k =>
      obtain ⟨t', ht', hs⟩ := getPath_loc ht.1
      refine loose_failed_base hf fun t1 hf => ?_
      simp only [Threads.Pc.failed, ht', hs] at hf
      split at hf
      · cases hf
      · rename_i hne
        simp only [Option.some.injEq] at hf
        subst hf
        have : (h.loc key).length ≠ 0 := fun e => hne (by rw [List.length_eq_zero_iff.mp e]; rfl)
        exact ⟨ht.1, ht.2.1, by omega, ret_of ht.2.2⟩
    | erase key k =>
      obtain ⟨t', ht', hs⟩ := getPath_loc ht.1
      refine loose_failed_base hf fun t1 hf => ?_
      simp only [Threads.Pc.failed, ht', hs, Option.some.injEq] at hf
      subst hf
      exact ⟨ht.1, ht.2.1, ret_of ht.2.2⟩
    | erasePrefix key k =>
      obtain ⟨a1, a2, a3⟩ := ht
      obtain ⟨t', ht', hs⟩ := getPath_loc a1
      simp only [Pc.failed, ht', hs, Option.some.injEq] at hf
      subst hf
      exact ⟨⟨a1, a2, by simp, a3⟩, fun Q => by simp⟩
    | listDir pre k =>
      simp only [Pc.failed] at hf
      split at hf
      · cases hf; exact ⟨ht.2.2 _, sp _⟩
      · cases hf
  | base t => exact loose_failed_base hf fun t1 => BLoose.failed ht
  | walk p items k =>
    cases items <;>
      (simp only [Pc.failed, Option.some.injEq] at hf; subst hf; exact ⟨ht.2.2.2 _, sp _⟩)
  | walkLock p q l items k | walkUnlink p q l items k =>
    simp only [Pc.failed, Option.some.injEq] at hf; subst hf; exact ⟨ht.2.2.2.2.2.2 _, sp _⟩
  | listing pre p ns keys prefixes k =>
    cases ns with
    | nil => simp [Pc.failed] at hf
    | cons n ns =>
      simp only [Pc.failed, Option.some.injEq] at hf; subst hf; exact ⟨ht, fun Q => by simp⟩

/-- Locks are held on files below the roots, exclusive ones on those the thread may write. -/
theorem Loose.locks {pc : Pc α} (hsub : ∀ r ∈ wroots, r ∈ roots) (ok : Loose h roots wroots fs pc)
    {t : Threads.Pc (Prog α)} (ht : pc.locks = some t) {l : Loc} :
    (t.exclusive l = true → Under wroots l) ∧ (t.holds l = true → Under roots l) := by
  cases pc with
  | base s =>
    simp only [Pc.locks, Option.some.injEq] at ht
    subst ht
    have ok : BLoose h roots wroots fs s := ok
    cases s with
    | getRead l' acc k =>
      refine ⟨by simp [Threads.Pc.exclusive], fun hx => ?_⟩
      simp only [Threads.Pc.holds, decide_eq_true_eq] at hx
      rw [hx]; exact ok.1
    | setTrunc l' v k | setWrite l' v n k =>
      refine ⟨fun hx => ?_, fun hx => ?_⟩
      · simp only [Threads.Pc.exclusive, decide_eq_true_eq] at hx
        rw [hx]; exact ok.2.1
      · simp only [Threads.Pc.holds, Threads.Pc.exclusive, decide_eq_true_eq] at hx
        rw [hx]; exact ok.2.1.mono hsub
    | eraUnlink p l' k =>
      refine ⟨fun hx => ?_, fun hx => ?_⟩
      · simp only [Threads.Pc.exclusive, decide_eq_true_eq] at hx
        rw [hx, ok.1]; exact ok.2.2.1
      · simp only [Threads.Pc.holds, Threads.Pc.exclusive, decide_eq_true_eq] at hx
        rw [hx, ok.1]; exact ok.2.2.1.mono hsub
    | _ => exact ⟨by simp [Threads.Pc.exclusive], by simp [Threads.Pc.holds, Threads.Pc.exclusive]⟩
  | walkUnlink p q l' items k =>
    simp only [Pc.locks, Option.some.injEq] at ht
    subst ht
    obtain ⟨o0, o1, o2, _, o3, _⟩ := ok
    refine ⟨fun hx => ?_, fun hx => ?_⟩
    · simp only [Threads.Pc.exclusive, decide_eq_true_eq] at hx
      rw [hx, o0]; exact o3.below o2
    · simp only [Threads.Pc.holds, Threads.Pc.exclusive, decide_eq_true_eq] at hx
      rw [hx, o0]; exact (o3.below o2).mono hsub
  | _ => simp [Pc.locks] at ht

theorem Loose.waits {pc : Pc α} (ok : Loose h roots wroots fs pc) {l : Loc} {x : Bool}
    (hw : Waits pc l x) : if x then Under wroots l else Under roots l := by
  cases hw with
  | get l k => exact ok.1
  | set l v k => exact ok.2.1
  | erase p l k => obtain ⟨o0, _, o2, _⟩ := ok; rw [if_pos rfl, o0]; exact o2
  | walk p q l items k => obtain ⟨o0, _, o2, _, o3, _⟩ := ok; rw [if_pos rfl, o0]; exact o3.below o2

end

end Zarr.Wide
