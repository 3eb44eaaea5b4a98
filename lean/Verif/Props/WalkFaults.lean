import Verif.Model.WalkFaults
import Verif.Props.Faults
import Verif.Props.ThreadRemove
/-!
# Failing system calls in `remove` and `list_nodes`: C87 and C88
-/

namespace Zarr

open Spec

namespace Wide

/-! ## Specification -/

/-- The failure of this step is one that the code can notice. The checks for existence before a document or
a tree is removed cannot fail for the code, nor the look at an entry of a directory. -/
def Noticed {α : Type} : Pc α → Prop
  | .prog (.erase _ _) | .prog (.erasePrefix _ _) | .listing _ _ _ _ _ _ => False
  | _ => True

/-- All failures of the schedule are noticed. -/
def AllNoticed {α : Type} (h : Hier) (pc : Pc α) (fs : Fs) : List (Option Threads.Fault) → Prop
  | [] => True
  | f :: s => (f ≠ none → Noticed pc) ∧ ∀ r, pc.stepFaulty h fs f = some r → AllNoticed h r.1 r.2 s

/-! ## Programs that only erase and list -/

/-- The rest of a program after an erasure: it ends with the error, and does not look at the result. -/
def Blunt {α : Type} (P : Prog α → Prop) (k : Outcome Bool → Prog α) : Prop :=
  (∀ e, k (.err e) = .done (.err e)) ∧ k (.ok true) = k (.ok false) ∧ ∀ r, P (k r)

/-- A program that only erases and lists at the given places. -/
def Prog.Removes {α : Type} (h : Hier) (D : Loc → Prop) (T : Loc) : Prog α → Prop
  | .done _ => True
  | .erase key k => Plain (h.loc key) ∧ D (h.loc key) ∧ (∀ e, k (.err e) = .done (.err e)) ∧
      k (.ok true) = k (.ok false) ∧ ∀ r, (k r).Removes h D T
  | .erasePrefix key k => Plain (h.loc key) ∧ h.loc key = T ∧ T ≠ [] ∧ (∀ e, k (.err e) = .done (.err e)) ∧
      k (.ok true) = k (.ok false) ∧ ∀ r, (k r).Removes h D T
  | .listDir key k => Plain (h.loc key) ∧ (∀ e, k (.err e) = .done (.err e)) ∧ ∀ r, (k r).Removes h D T
  | _ => False

/-- Where the loop of `erase_prefix` is. -/
def Item.loc : Item → Loc
  | .stat q | .open q | .file q | .rmdir q => q

section
variable {α : Type} {h : Hier} {D : Loc → Prop} {T : Loc} {pc pc1 : Pc α} {fs fs1 : Fs}

/-- What is known of a thread that runs such a program. -/
inductive Tame (h : Hier) (D : Loc → Prop) (T : Loc) : Pc α → Prop
  | prog {p : Prog α} : p.Removes h D T → Tame h D T (.prog p)
  | eraOpen {q : Loc} {k : Outcome Bool → Prog α} : Plain q → D q → Blunt (·.Removes h D T) k →
      Tame h D T (.base (.eraOpen q fun r => .done (.ok (k r))))
  | eraLock {q l : Loc} {k : Outcome Bool → Prog α} : Plain q → D q → Blunt (·.Removes h D T) k →
      Tame h D T (.base (.eraLock q l fun r => .done (.ok (k r))))
  | eraUnlink {q l : Loc} {k : Outcome Bool → Prog α} : Plain q → D q → Blunt (·.Removes h D T) k →
      Tame h D T (.base (.eraUnlink q l fun r => .done (.ok (k r))))
  | eraFinal {q : Loc} {k : Outcome Bool → Prog α} : Plain q → Blunt (·.Removes h D T) k →
      Tame h D T (.base (.eraFinal q fun r => .done (.ok (k r))))
  | walk {p : List Str} {items : List Item} {k : Outcome Bool → Prog α} : T ≠ [] →
      (∀ i ∈ items, Plain i.loc ∧ T <+: i.loc) → Blunt (·.Removes h D T) k → Tame h D T (.walk p items k)
  | walkLock {p q : List Str} {l : Loc} {items : List Item} {k : Outcome Bool → Prog α} : T ≠ [] → Plain q → T <+: q →
      (∀ i ∈ items, Plain i.loc ∧ T <+: i.loc) → Blunt (·.Removes h D T) k → Tame h D T (.walkLock p q l items k)
  | walkUnlink {p q : List Str} {l : Loc} {items : List Item} {k : Outcome Bool → Prog α} : T ≠ [] → Plain q → T <+: q →
      (∀ i ∈ items, Plain i.loc ∧ T <+: i.loc) → Blunt (·.Removes h D T) k → Tame h D T (.walkUnlink p q l items k)
  | listing {pre : Str} {p ns keys prefixes : List Str} {k : Outcome (List Str × List Str) → Prog α} :
      (∀ e, k (.err e) = .done (.err e)) → (∀ r, (k r).Removes h D T) →
      Tame h D T (.listing pre p ns keys prefixes k)

/-- What a step does to the filesystem. -/
def Shrinks (D : Loc → Prop) (T : Loc) (fs fs1 : Fs) : Prop :=
  fs1.WF ∧ fs1.Named ∧ ∀ l, fs1.get l = fs.get l ∨ fs1.get l = none ∧ (D l ∨ T <+: l)

theorem Shrinks.refl (hw : fs.WF) (hn : fs.Named) : Shrinks D T fs fs := ⟨hw, hn, fun _ => .inl rfl⟩

theorem Shrinks.trans {fs2 : Fs} (h1 : Shrinks D T fs fs1) (h2 : Shrinks D T fs1 fs2) : Shrinks D T fs fs2 := by
  refine ⟨h2.1, h2.2.1, fun l => ?_⟩
  rcases h2.2.2 l with e | e
  · rw [e]; exact h1.2.2 l
  · exact .inr e

theorem Shrinks.del_file (hw : fs.WF) (hn : fs.Named) {l : Loc} {b : Bytes} (hg : fs.get l = some (.file b))
    (hl : D l ∨ T <+: l) : Shrinks D T fs (fs.del l) := by
  refine ⟨hw.del_file hg, hn.del l, fun x => ?_⟩
  rw [Fs.get_del]
  by_cases e : x = l
  · subst e; rw [if_pos rfl]; exact .inr ⟨rfl, hl⟩
  · rw [if_neg e]; exact .inl rfl

theorem Shrinks.rmdir (hw : fs.WF) (hn : fs.Named) {q : Loc} (hp : Plain q) (hl : T <+: q)
    (hr : fs.rmdir q = .ok fs1) : Shrinks D T fs fs1 := by
  unfold Fs.rmdir at hr
  cases hloc : fs.locate q with
  | ok l =>
    rw [hloc] at hr
    have e := Fs.locate_plain_ok hp hloc
    subst e
    simp only at hr
    split at hr
    · split at hr
      · cases hr
      · rename_i hne
        rw [not_or, Classical.not_not] at hne
        cases hr
        refine ⟨hw.del_dir hne.1 hne.2, hn.del _, fun x => ?_⟩
        rw [Fs.get_del]
        by_cases e : x = l
        · subst e; rw [if_pos rfl]; exact .inr ⟨rfl, .inr hl⟩
        · rw [if_neg e]; exact .inl rfl
    · cases hr
    · cases hr
  | err e => rw [hloc] at hr; cases hr
  | panic => rw [hloc] at hr; cases hr

theorem blunt_prog {k : Outcome Bool → Prog α} (hk : Blunt (·.Removes h D T) k) (r : Outcome Bool) :
    Tame h D T (.prog (k r)) := .prog (hk.2.2 r)

theorem Tame.next (hi : Tame h D T pc) (hw : fs.WF) (hm : fs.Named) (hn : pc.next h [] fs = some (pc1, fs1)) :
    Tame h D T pc1 ∧ Shrinks D T fs fs1 := by
  have same : Shrinks D T fs fs := .refl hw hm
  cases hi with
  | @prog p hp =>
    cases p with
    | done r => simp [Pc.next] at hn
    | «exists» => exact hp.elim
    | get => exact hp.elim
    | set => exact hp.elim
    | erase key k =>
      obtain ⟨h1, h2, h3, h4, h5⟩ := hp
      obtain ⟨t, ht, hs⟩ := getPath_loc h1
      simp only [Pc.next, baseNext, Threads.Pc.next, ht, Option.map_some, Option.some.injEq, Prod.mk.injEq] at hn
      obtain ⟨rfl, rfl⟩ := hn
      refine ⟨?_, same⟩
      rw [hs]
      split
      · exact .eraOpen h1 h2 ⟨h3, h4, h5⟩
      · exact .eraFinal h1 ⟨h3, h4, h5⟩
    | erasePrefix key k =>
      obtain ⟨h1, h2, h2', h3, h4, h5⟩ := hp
      obtain ⟨t, ht, hs⟩ := getPath_loc h1
      simp only [Pc.next, ht, Option.some.injEq, Prod.mk.injEq] at hn
      obtain ⟨rfl, rfl⟩ := hn
      refine ⟨.walk h2' ?_ ⟨h3, h4, h5⟩, same⟩
      intro i hi
      split at hi
      · rw [List.mem_singleton.mp hi]
        show Plain (segs t) ∧ T <+: segs t
        rw [hs, ← h2]; exact ⟨h1, List.prefix_rfl⟩
      · cases hi
    | listDir pre k =>
      obtain ⟨h1, h3, h5⟩ := hp
      simp only [Pc.next] at hn
      split at hn <;> (try split at hn) <;> (try split at hn) <;>
        · simp only [Option.some.injEq, Prod.mk.injEq] at hn
          obtain ⟨rfl, rfl⟩ := hn
          first | exact ⟨.listing h3 h5, same⟩ | exact ⟨.prog (h5 _), same⟩
  | @eraOpen q k h1 h2 hk =>
    simp only [Pc.next, baseNext, Threads.Pc.next] at hn
    split at hn
    · simp only [Option.map_some, Option.some.injEq, Prod.mk.injEq] at hn
      obtain ⟨rfl, rfl⟩ := hn
      refine ⟨?_, same⟩
      split
      · exact .eraLock h1 h2 hk
      · exact blunt_prog hk _
    · simp only [Option.map_some, Option.some.injEq, Prod.mk.injEq] at hn
      obtain ⟨rfl, rfl⟩ := hn
      exact ⟨blunt_prog hk _, same⟩
    · simp only [Option.map_some, Option.some.injEq, Prod.mk.injEq] at hn
      obtain ⟨rfl, rfl⟩ := hn
      exact ⟨blunt_prog hk _, same⟩
  | @eraLock q l k h1 h2 hk =>
    simp only [Pc.next, baseNext, Threads.Pc.next] at hn
    split at hn
    · cases hn
    · simp only [Option.map_some, Option.some.injEq, Prod.mk.injEq] at hn
      obtain ⟨rfl, rfl⟩ := hn
      exact ⟨.eraUnlink h1 h2 hk, same⟩
  | @eraUnlink q l k h1 h2 hk =>
    simp only [Pc.next, baseNext, Threads.Pc.next] at hn
    split at hn
    · rename_i l' hl
      have e := Fs.locate_plain_ok h1 hl
      subst e
      split at hn
      · rename_i b hg
        simp only [Option.map_some, Option.some.injEq, Prod.mk.injEq] at hn
        obtain ⟨rfl, rfl⟩ := hn
        exact ⟨.eraFinal h1 hk, .del_file hw hm hg (.inl h2)⟩
      · simp only [Option.map_some, Option.some.injEq, Prod.mk.injEq] at hn
        obtain ⟨rfl, rfl⟩ := hn
        exact ⟨blunt_prog hk _, same⟩
      · simp only [Option.map_some, Option.some.injEq, Prod.mk.injEq] at hn
        obtain ⟨rfl, rfl⟩ := hn
        exact ⟨blunt_prog hk _, same⟩
    · simp only [Option.map_some, Option.some.injEq, Prod.mk.injEq] at hn
      obtain ⟨rfl, rfl⟩ := hn
      exact ⟨blunt_prog hk _, same⟩
    · simp only [Option.map_some, Option.some.injEq, Prod.mk.injEq] at hn
      obtain ⟨rfl, rfl⟩ := hn
      exact ⟨blunt_prog hk _, same⟩
  | @eraFinal q k h1 hk =>
    simp only [Pc.next, baseNext, Threads.Pc.next, Option.map_some, Option.some.injEq, Prod.mk.injEq] at hn
    obtain ⟨rfl, rfl⟩ := hn
    exact ⟨blunt_prog hk _, same⟩
  | @walk p items k h0 h1 hk =>
    cases items with
    | nil =>
      simp only [Pc.next, Option.some.injEq, Prod.mk.injEq] at hn
      obtain ⟨rfl, rfl⟩ := hn
      exact ⟨blunt_prog hk _, same⟩
    | cons i r =>
      have hr := fun j hj => h1 j (.tail _ hj)
      have hi := h1 i (.head _)
      cases i with
      | stat q =>
        simp only [Pc.next] at hn
        split at hn <;> (try split at hn) <;>
          · simp only [Option.some.injEq, Prod.mk.injEq] at hn
            obtain ⟨rfl, rfl⟩ := hn
            first
            | exact ⟨blunt_prog hk _, same⟩
            | exact ⟨.walk h0 (List.forall_mem_cons.mpr ⟨hi, hr⟩) hk, same⟩
      | «open» q =>
        simp only [Pc.next] at hn
        split at hn
        · rename_i l' hl
          have e := Fs.locate_plain_ok hi.1 hl
          simp only [Item.loc] at e
          subst e
          split at hn
          · simp only [Option.some.injEq, Prod.mk.injEq] at hn
            obtain ⟨rfl, rfl⟩ := hn
            refine ⟨.walk h0 ?_ hk, same⟩
            intro j hj
            rcases List.mem_append.mp hj with hj | hj
            · obtain ⟨⟨s, nd⟩, he, rfl⟩ := List.mem_map.mp hj
              have hg := (Fs.mem_children hw).mp he
              have : Plain (l' ++ [s]) ∧ T <+: l' ++ [s] := ⟨hm _ _ hg, hi.2.trans (List.prefix_append _ _)⟩
              simp only
              split <;> exact this
            · rcases List.mem_cons.mp hj with rfl | hj
              · exact hi
              · exact hr j hj
          · simp only [Option.some.injEq, Prod.mk.injEq] at hn
            obtain ⟨rfl, rfl⟩ := hn
            exact ⟨blunt_prog hk _, same⟩
          · simp only [Option.some.injEq, Prod.mk.injEq] at hn
            obtain ⟨rfl, rfl⟩ := hn
            exact ⟨blunt_prog hk _, same⟩
        · simp only [Option.some.injEq, Prod.mk.injEq] at hn
          obtain ⟨rfl, rfl⟩ := hn
          exact ⟨blunt_prog hk _, same⟩
        · simp only [Option.some.injEq, Prod.mk.injEq] at hn
          obtain ⟨rfl, rfl⟩ := hn
          exact ⟨blunt_prog hk _, same⟩
      | file q =>
        simp only [Pc.next] at hn
        split at hn
        · simp only [Option.some.injEq, Prod.mk.injEq] at hn
          obtain ⟨rfl, rfl⟩ := hn
          refine ⟨?_, same⟩
          split
          · exact .walkLock h0 hi.1 hi.2 hr hk
          · exact blunt_prog hk _
        · simp only [Option.some.injEq, Prod.mk.injEq] at hn
          obtain ⟨rfl, rfl⟩ := hn
          exact ⟨blunt_prog hk _, same⟩
        · simp only [Option.some.injEq, Prod.mk.injEq] at hn
          obtain ⟨rfl, rfl⟩ := hn
          exact ⟨blunt_prog hk _, same⟩
      | rmdir q =>
        simp only [Pc.next] at hn
        split at hn
        · rename_i fs' hrm
          simp only [Option.some.injEq, Prod.mk.injEq] at hn
          obtain ⟨rfl, rfl⟩ := hn
          exact ⟨.walk h0 hr hk, .rmdir hw hm hi.1 hi.2 hrm⟩
        · simp only [Option.some.injEq, Prod.mk.injEq] at hn
          obtain ⟨rfl, rfl⟩ := hn
          exact ⟨blunt_prog hk _, same⟩
        · simp only [Option.some.injEq, Prod.mk.injEq] at hn
          obtain ⟨rfl, rfl⟩ := hn
          exact ⟨blunt_prog hk _, same⟩
  | @walkLock p q l items k h0 h1 h2 h3 hk =>
    simp only [Pc.next] at hn
    split at hn
    · cases hn
    · simp only [Option.some.injEq, Prod.mk.injEq] at hn
      obtain ⟨rfl, rfl⟩ := hn
      exact ⟨.walkUnlink h0 h1 h2 h3 hk, same⟩
  | @walkUnlink p q l items k h0 h1 h2 h3 hk =>
    simp only [Pc.next] at hn
    split at hn
    · rename_i l' hl
      have e := Fs.locate_plain_ok h1 hl
      subst e
      split at hn
      · rename_i b hg
        simp only [Option.some.injEq, Prod.mk.injEq] at hn
        obtain ⟨rfl, rfl⟩ := hn
        exact ⟨.walk h0 h3 hk, .del_file hw hm hg (.inr h2)⟩
      · simp only [Option.some.injEq, Prod.mk.injEq] at hn
        obtain ⟨rfl, rfl⟩ := hn
        exact ⟨blunt_prog hk _, same⟩
      · simp only [Option.some.injEq, Prod.mk.injEq] at hn
        obtain ⟨rfl, rfl⟩ := hn
        exact ⟨blunt_prog hk _, same⟩
    · simp only [Option.some.injEq, Prod.mk.injEq] at hn
      obtain ⟨rfl, rfl⟩ := hn
      exact ⟨blunt_prog hk _, same⟩
    · simp only [Option.some.injEq, Prod.mk.injEq] at hn
      obtain ⟨rfl, rfl⟩ := hn
      exact ⟨blunt_prog hk _, same⟩
  | @listing pre p ns keys prefixes k h3 h5 =>
    cases ns with
    | nil =>
      simp only [Pc.next, Option.some.injEq, Prod.mk.injEq] at hn
      obtain ⟨rfl, rfl⟩ := hn
      exact ⟨.prog (h5 _), same⟩
    | cons n ns =>
      simp only [Pc.next] at hn
      split at hn <;>
        · simp only [Option.some.injEq, Prod.mk.injEq] at hn
          obtain ⟨rfl, rfl⟩ := hn
          exact ⟨.listing h3 h5, same⟩

theorem Tame.failed {f : Threads.Fault} (hi : Tame h D T pc) (hf : pc.failed h f = some pc1) : Tame h D T pc1 := by
  cases hi with
  | @prog p hp =>
    cases p with
    | done r => simp [Pc.failed] at hf
    | «exists» => exact hp.elim
    | get => exact hp.elim
    | set => exact hp.elim
    | erase key k =>
      obtain ⟨h1, h2, h3, h4, h5⟩ := hp
      obtain ⟨t, ht, hs⟩ := getPath_loc h1
      simp only [Pc.failed, Threads.Pc.failed, ht, Option.map_some, Option.some.injEq] at hf
      subst hf
      rw [hs]
      exact .eraFinal h1 ⟨h3, h4, h5⟩
    | erasePrefix key k =>
      obtain ⟨h1, h2, h2', h3, h4, h5⟩ := hp
      obtain ⟨t, ht, hs⟩ := getPath_loc h1
      simp only [Pc.failed, ht, Option.some.injEq] at hf
      subst hf
      exact .walk h2' (by simp) ⟨h3, h4, h5⟩
    | listDir pre k =>
      obtain ⟨h1, h3, h5⟩ := hp
      simp only [Pc.failed] at hf
      split at hf
      · cases hf; exact .prog (h5 _)
      · cases hf
  | eraOpen h1 h2 hk | eraLock h1 h2 hk | eraUnlink h1 h2 hk | eraFinal h1 hk =>
    simp only [Pc.failed, Threads.Pc.failed, Option.map_some, Option.some.injEq] at hf
    subst hf
    exact blunt_prog hk _
  | @walk p items k h0 h1 hk =>
    cases items <;> (simp only [Pc.failed, Option.some.injEq] at hf; subst hf; exact blunt_prog hk _)
  | walkLock h0 h1 h2 h3 hk | walkUnlink h0 h1 h2 h3 hk =>
    simp only [Pc.failed, Option.some.injEq] at hf; subst hf; exact blunt_prog hk _
  | @listing pre p ns keys prefixes k h3 h5 =>
    cases ns with
    | nil => simp [Pc.failed] at hf
    | cons n ns => simp only [Pc.failed, Option.some.injEq] at hf; subst hf; exact .listing h3 h5

theorem Tame.step {f : Option Threads.Fault} (hi : Tame h D T pc) (hw : fs.WF) (hm : fs.Named)
    (hs : pc.stepFaulty h fs f = some (pc1, fs1)) : Tame h D T pc1 ∧ Shrinks D T fs fs1 := by
  unfold Pc.stepFaulty at hs
  split at hs
  · exact hi.next hw hm hs
  · split at hs
    · rename_i hf
      simp only [Option.some.injEq, Prod.mk.injEq] at hs
      obtain ⟨rfl, rfl⟩ := hs
      exact ⟨hi.failed hf, .refl hw hm⟩
    · exact hi.next hw hm hs

theorem Tame.run {s : List (Option Threads.Fault)} (hi : Tame h D T pc) (hw : fs.WF) (hm : fs.Named)
    (hs : pc.runFaulty h fs s = some (pc1, fs1)) : Tame h D T pc1 ∧ Shrinks D T fs fs1 := by
  induction s generalizing pc fs with
  | nil =>
    simp only [Pc.runFaulty, Option.some.injEq, Prod.mk.injEq] at hs
    obtain ⟨rfl, rfl⟩ := hs
    exact ⟨hi, .refl hw hm⟩
  | cons f s ih =>
    simp only [Pc.runFaulty] at hs
    cases hf : pc.stepFaulty h fs f with
    | none => rw [hf] at hs; cases hs
    | some r =>
      obtain ⟨pc2, fs2⟩ := r
      rw [hf] at hs
      obtain ⟨h1, h2⟩ := hi.step hw hm hf
      obtain ⟨h3, h4⟩ := ih h1 h2.1 h2.2.1 hs
      exact ⟨h3, h2.trans h4⟩

/-- A failure that is noticed ends the call with the error, or does not matter. -/
theorem Tame.noticed {f : Threads.Fault} (hi : Tame h D T pc) (hn : Noticed pc) (hf : pc.failed h f = some pc1) :
    (∃ e, pc1 = .prog (.done (.err e))) ∨ pc.next h [] fs = some (pc1, fs) := by
  cases hi with
  | @prog p hp =>
    cases p with
    | done r => simp [Pc.failed] at hf
    | «exists» => exact hp.elim
    | get => exact hp.elim
    | set => exact hp.elim
    | erase key k => exact hn.elim
    | erasePrefix key k => exact hn.elim
    | listDir pre k =>
      simp only [Pc.failed] at hf
      split at hf
      · cases hf; rw [hp.2.1]; exact .inl ⟨_, rfl⟩
      · cases hf
  | eraOpen h1 h2 hk | eraLock h1 h2 hk | eraUnlink h1 h2 hk =>
    simp only [Pc.failed, Threads.Pc.failed, Option.map_some, Option.some.injEq] at hf
    subst hf
    refine .inl ⟨f.error, ?_⟩
    rw [hk.1]; rfl
  | @eraFinal q k h1 hk =>
    simp only [Pc.failed, Threads.Pc.failed, Option.map_some, Option.some.injEq] at hf
    subst hf
    right
    simp only [Pc.next, baseNext, Threads.Pc.next, Option.map_some, Option.some.injEq, Prod.mk.injEq, and_true]
    cases fs.pathExists q
    · rfl
    · show Pc.ofBase (.prog (.done (.ok (k (.ok false))))) = _
      rw [← hk.2.1]
  | @walk p items k h0 h1 hk =>
    cases items with
    | nil =>
      simp only [Pc.failed, Option.some.injEq] at hf
      subst hf
      right
      simp only [Pc.next, Option.some.injEq, Prod.mk.injEq, and_true]
      cases fs.pathExists p
      · rfl
      · show Pc.prog (k (.ok false)) = _
        rw [← hk.2.1]
    | cons i r =>
      simp only [Pc.failed, Option.some.injEq] at hf
      subst hf
      rw [hk.1]; exact .inl ⟨_, rfl⟩
  | walkLock h0 h1 h2 h3 hk | walkUnlink h0 h1 h2 h3 hk =>
    simp only [Pc.failed, Option.some.injEq] at hf
    subst hf
    rw [hk.1]; exact .inl ⟨_, rfl⟩
  | listing => exact hn.elim

/-- If all failures are noticed, the call returns an error or does what it does without failures. -/
theorem Tame.leads {s : List (Option Threads.Fault)} (hi : Tame h D T pc) (hw : fs.WF) (hm : fs.Named)
    (hn : AllNoticed h pc fs s) (hs : pc.runFaulty h fs s = some (pc1, fs1)) :
    (∃ e, pc1 = .prog (.done (.err e))) ∨ Leads h pc fs pc1 fs1 := by
  induction s generalizing pc fs with
  | nil =>
    simp only [Pc.runFaulty, Option.some.injEq, Prod.mk.injEq] at hs
    obtain ⟨rfl, rfl⟩ := hs
    exact .inr (.refl ..)
  | cons f s ih =>
    simp only [Pc.runFaulty] at hs
    cases hf : pc.stepFaulty h fs f with
    | none => rw [hf] at hs; cases hs
    | some r =>
      obtain ⟨pc2, fs2⟩ := r
      rw [hf] at hs
      simp only [Option.bind_some] at hs
      obtain ⟨h1, h2⟩ := hi.step hw hm hf
      have rest := ih h1 h2.1 h2.2.1 (hn.2 _ hf) hs
      have one : (∃ e, pc2 = .prog (.done (.err e))) ∨ pc.next h [] fs = some (pc2, fs2) := by
        unfold Pc.stepFaulty at hf
        split at hf
        · exact .inr hf
        · split at hf
          · rename_i hf'
            simp only [Option.some.injEq, Prod.mk.injEq] at hf
            obtain ⟨rfl, rfl⟩ := hf
            exact hi.noticed (hn.1 (by simp)) hf'
          · exact .inr hf
      rcases one with ⟨e, rfl⟩ | one
      · cases s with
        | nil =>
          simp only [Pc.runFaulty, Option.some.injEq, Prod.mk.injEq] at hs
          exact .inl ⟨e, hs.1.symm⟩
        | cons g s =>
          have : (Pc.prog (.done (.err e)) : Pc α).stepFaulty h fs2 g = none := by
            cases g <;> simp [Pc.stepFaulty, Pc.failed, Pc.next]
          simp only [Pc.runFaulty, this] at hs
          cases hs
      · exact rest.imp id (.step one)

end

/-! ## The calls -/

section
variable {env : Env} {h : Hier} {p : Str}

theorem removes_remove {T : Loc} {D : Loc → Prop} (hb : Plain (segs h.base)) (hsfx : GoodSuffix h.entry)
    (hp : Plain (segs p)) (hT : T = dataLoc h p) (ha : D (docLoc h str!"array" p)) (hg : D (docLoc h str!"group" p)) :
    (remove h p).Removes h D T := by
  have h1 : Plain (h.loc (groupMetadataKey h.entry p)) := by
    rw [loc_groupKey hsfx hp]; exact plain_docLoc hb hp (by simp)
  have h2 : Plain (h.loc (arrayMetadataKey h.entry p)) := by
    rw [loc_arrayKey hsfx hp]; exact plain_docLoc hb hp (by simp)
  refine ⟨h1, by rw [loc_groupKey hsfx hp]; exact hg, fun _ => rfl, rfl, fun r => ?_⟩
  cases r with
  | err | panic => trivial
  | ok =>
    refine ⟨h2, by rw [loc_arrayKey hsfx hp]; exact ha, fun _ => rfl, rfl, fun r => ?_⟩
    cases r with
    | err | panic => trivial
    | ok =>
      refine ⟨?_, by rw [hT, loc_dataKey], ?_, fun _ => rfl, rfl, fun r => ?_⟩
      · rw [loc_dataKey]; exact plain_dataLoc hb hp
      · rw [hT]; simp [dataLoc]
      · cases r <;> trivial

theorem docLoc_ne_nil (h : Hier) (kind p : Str) : docLoc h kind p ≠ [] := by
  obtain ⟨i, a, _, e⟩ := meta_doc_split h kind p
  rw [e]; simp

theorem uses_remove (hb : Plain (segs h.base)) (hsfx : GoodSuffix h.entry) (hp : Plain (segs p)) :
    (remove h p).Uses h (fun _ => True) (fun _ => True) (· ≠ []) := by
  refine uses_bind (p := .erase _ .done) ⟨?_, ?_, fun _ => trivial⟩ fun _ =>
    uses_bind (p := .erase _ .done) ⟨?_, ?_, fun _ => trivial⟩ fun _ =>
    uses_bind (p := .erasePrefix _ .done) ⟨?_, ?_, fun _ => trivial⟩ fun _ => trivial
  · rw [loc_groupKey hsfx hp]; exact plain_docLoc hb hp (by simp)
  · rw [loc_groupKey hsfx hp]; exact docLoc_ne_nil h _ p
  · rw [loc_arrayKey hsfx hp]; exact plain_docLoc hb hp (by simp)
  · rw [loc_arrayKey hsfx hp]; exact docLoc_ne_nil h _ p
  · rw [loc_dataKey]; exact plain_dataLoc hb hp
  · rw [loc_dataKey]; simp [dataLoc]

theorem plain_listKey (hb : Plain (segs h.base)) (hp : Plain (segs p)) :
    Plain (h.loc (metaRoot ++ '/' :: canonicalizePath p)) := by
  have e : h.loc (metaRoot ++ '/' :: canonicalizePath p) = implicitLoc h p := by
    rw [Hier.loc, segs_append_sep, segs_canonicalizePath]; rfl
  rw [e]; exact hb.append (Plain.append (a := [str!"meta", str!"root"]) (by decide) hp)

theorem removes_listNodes {T : Loc} {D : Loc → Prop} (hb : Plain (segs h.base)) (hp : Plain (segs p)) :
    (listNodes env h p).Removes h D T := by
  refine ⟨plain_listKey hb hp, fun _ => rfl, fun r => ?_⟩
  cases r <;> trivial

end

/-! ## C87 -/

/-- **C87 (partial), `remove`.** System calls of `remove` fail, any of them and any number of times, with any
error. If it returns `Ok` nevertheless, then it has removed exactly what it removes without failures. Here: if the
failures are not those of the checks that a document or the directory of the chunks exists. Missing: these (see
`C87_violated_remove`). -/
theorem C87_partial_remove (h : Hier) (p : Str) (hp : Plain (segs p)) (fs : Fs) (hwf : fs.WF) (hnm : fs.Named)
    (hb : Plain (segs h.base)) (hsfx : GoodSuffix h.entry) (s : List (Option Threads.Fault))
    (hn : AllNoticed h (.prog (remove h p)) fs s) (fs' : Fs)
    (hr : (Pc.prog (remove h p)).runFaulty h fs s = some (.prog (.done (.ok ())), fs')) :
    Zarr.remove h p fs = (.ok (), fs') := by
  have ht : Tame h (fun _ => True) (dataLoc h p) (.prog (remove h p)) :=
    .prog (removes_remove hb hsfx hp rfl trivial trivial)
  rcases ht.leads hwf hnm hn hr with ⟨e, he⟩ | hl
  · cases he
  · obtain ⟨h1, h2⟩ := (solo (fun e => e rfl) _ fs hwf hnm (uses_remove hb hsfx hp)).finish_unique hl
    rw [run_remove] at h1 h2
    rw [h1, h2]

/-- **C87 (partial), `list_nodes`.** As above: if `list_nodes` returns `Ok` although system calls failed, then it
returns the nodes it returns without failures. Missing: failures of `metadata` of an entry of the directory (see
`C87_violated_listing`). -/
theorem C87_partial_listNodes (env : Env) (h : Hier) (p : Str) (hp : Plain (segs p)) (fs : Fs) (hwf : fs.WF)
    (hnm : fs.Named) (hb : Plain (segs h.base)) (s : List (Option Threads.Fault))
    (hn : AllNoticed h (.prog (listNodes env h p)) fs s) (r : List Str) (fs' : Fs)
    (hr : (Pc.prog (listNodes env h p)).runFaulty h fs s = some (.prog (.done (.ok r)), fs')) :
    Zarr.listNodes env h p fs = (.ok r, fs') := by
  have ht : Tame h (fun _ => True) [] (.prog (listNodes env h p)) := .prog (removes_listNodes hb hp)
  rcases ht.leads hwf hnm hn hr with ⟨e, he⟩ | hl
  · cases he
  · have hu : (listNodes env h p).Uses h (fun _ => True) (fun _ => True) (fun _ => False) :=
      uses_bind (p := .listDir _ .done) ⟨plain_listKey hb hp, trivial, fun _ => trivial⟩ fun _ => trivial
    obtain ⟨h1, h2⟩ := (solo id _ fs hwf hnm hu).finish_unique hl
    rw [run_listNodes] at h1 h2
    rw [h1, h2]

/-! ## C88 -/

/-- **C88, `remove`.** Whatever system calls of `remove` fail, noticed or not: at every moment the filesystem is a
tree and differs from what it was only in that documents of the node, or things at or below the directory of its
chunks, are gone. -/
theorem C88_remove (h : Hier) (p : Str) (hp : Plain (segs p)) (fs : Fs) (hwf : fs.WF) (hnm : fs.Named)
    (hb : Plain (segs h.base)) (hsfx : GoodSuffix h.entry) (s : List (Option Threads.Fault)) (pc : Pc Unit) (fs' : Fs)
    (hr : (Pc.prog (remove h p)).runFaulty h fs s = some (pc, fs')) :
    fs'.WF ∧ ∀ l, fs'.get l = fs.get l ∨ fs'.get l = none ∧
      (l = docLoc h str!"array" p ∨ l = docLoc h str!"group" p ∨ dataLoc h p <+: l) := by
  have ht : Tame h (fun l => l = docLoc h str!"array" p ∨ l = docLoc h str!"group" p) (dataLoc h p)
      (.prog (remove h p)) := .prog (removes_remove hb hsfx hp rfl (.inl rfl) (.inr rfl))
  obtain ⟨_, h1, _, h3⟩ := ht.run hwf hnm hr
  refine ⟨h1, fun l => ?_⟩
  rcases h3 l with e | ⟨e, (e1 | e1) | e1⟩
  · exact .inl e
  · exact .inr ⟨e, .inl e1⟩
  · exact .inr ⟨e, .inr (.inl e1)⟩
  · exact .inr ⟨e, .inr (.inr e1)⟩

/-- **C88, `list_nodes`.** Whatever system calls fail, it changes nothing. -/
theorem C88_listNodes (env : Env) (h : Hier) (p : Str) (hp : Plain (segs p)) (fs : Fs) (hwf : fs.WF) (hnm : fs.Named)
    (hb : Plain (segs h.base)) (s : List (Option Threads.Fault)) (pc : Pc (List Str)) (fs' : Fs)
    (hr : (Pc.prog (listNodes env h p)).runFaulty h fs s = some (pc, fs')) : ∀ l, fs'.get l = fs.get l := by
  intro l
  have ht : Tame h (fun _ => False) (l ++ [[]]) (.prog (listNodes env h p)) := .prog (removes_listNodes hb hp)
  obtain ⟨_, _, _, h3⟩ := ht.run hwf hnm hr
  rcases h3 l with e | ⟨_, e | e⟩
  · exact e
  · exact e.elim
  · have := e.length_le
    simp at this
    exact absurd this (by omega)

/-! ## Concrete cases -/

/-- The call ended with this result and in a filesystem that passes the test. -/
def endsWith {α : Type} (r : Option (Pc α × Fs)) (f : α → Fs → Bool) : Bool :=
  match r with
  | some (.prog (.done (.ok a)), fs) => f a fs
  | _ => false

theorem of_endsWith {α : Type} {r : Option (Pc α × Fs)} {f : α → Fs → Bool} (he : endsWith r f = true) :
    ∃ a fs, r = some (.prog (.done (.ok a)), fs) ∧ f a fs = true := by
  unfold endsWith at he
  split at he
  · rename_i a fs; exact ⟨a, fs, rfl, he⟩
  · cases he

/-- The only failure is that of step `n`. -/
def failAt (n m : Nat) : List (Option Threads.Fault) :=
  List.replicate n none ++ some Threads.demoFault :: List.replicate m none

theorem allNoticed_none {α : Type} (h : Hier) (pc : Pc α) (fs : Fs) (n : Nat) :
    AllNoticed h pc fs (List.replicate n none) := by
  induction n generalizing pc fs with
  | zero => trivial
  | succ n ih => exact ⟨fun hx => absurd rfl hx, fun r _ => ih r.1 r.2⟩

/-- A test for the failure of one step being noticed. -/
def noticedAt {α : Type} (h : Hier) (pc : Pc α) (fs : Fs) : Nat → Bool
  | 0 => match pc with
    | .prog (.erase _ _) | .prog (.erasePrefix _ _) | .listing _ _ _ _ _ _ => false
    | _ => true
  | n + 1 =>
    match pc.next h [] fs with
    | some r => noticedAt h r.1 r.2 n
    | none => true

theorem allNoticed_failAt {α : Type} {h : Hier} {pc : Pc α} {fs : Fs} {n m : Nat} (ht : noticedAt h pc fs n = true) :
    AllNoticed h pc fs (failAt n m) := by
  induction n generalizing pc fs with
  | zero =>
    refine ⟨fun _ => ?_, fun r _ => allNoticed_none _ _ _ _⟩
    unfold noticedAt at ht
    unfold Noticed
    split at ht <;> first | trivial | cases ht
  | succ n ih =>
    refine ⟨fun hx => absurd rfl hx, fun r hr => ih ?_⟩
    unfold noticedAt at ht
    have hr : pc.next h [] fs = some r := hr
    rw [hr] at ht
    exact ht

/-- The hypotheses of C87 are met by a `remove` whose last look at the directory of the chunks fails: it has removed
the array. -/
example : ∃ fs', (Pc.prog (remove Demo.hier Demo.path)).runFaulty Demo.hier Wide.demoFs (failAt 14 0) =
      some (.prog (.done (.ok ())), fs') ∧ Zarr.remove Demo.hier Demo.path Wide.demoFs = (.ok (), fs') := by
  obtain ⟨a, fs', h1, _⟩ := of_endsWith (f := fun _ _ => true)
    (r := (Pc.prog (remove Demo.hier Demo.path)).runFaulty Demo.hier Wide.demoFs (failAt 14 0)) (by decide +kernel)
  exact ⟨fs', h1, C87_partial_remove Demo.hier Demo.path (by decide) Wide.demoFs Wide.demoFs_wf.1 Wide.demoFs_wf.2
    (by decide) (by unfold GoodSuffix; decide) _ (allNoticed_failAt (by decide +kernel)) fs' h1⟩

/-- A `list_nodes` without failures meets them, and returns the child of the group. -/
example : ∃ r fs', (Pc.prog (listNodes Demo.envJ Demo.hier str!"/b")).runFaulty Demo.hier Wide.demoFs
      (List.replicate 3 none) = some (.prog (.done (.ok r)), fs') ∧ r = [str!"a"] ∧
      Zarr.listNodes Demo.envJ Demo.hier str!"/b" Wide.demoFs = (.ok r, fs') := by
  obtain ⟨r, fs', h1, h2⟩ := of_endsWith (f := fun a _ => decide (a = [str!"a"]))
    (r := (Pc.prog (listNodes Demo.envJ Demo.hier str!"/b")).runFaulty Demo.hier Wide.demoFs (List.replicate 3 none))
    (by decide +kernel)
  exact ⟨r, fs', h1, by simpa using h2, C87_partial_listNodes Demo.envJ Demo.hier str!"/b" (by decide) Wide.demoFs
    Wide.demoFs_wf.1 Wide.demoFs_wf.2 (by decide) _ (allNoticed_none _ _ _ _) r fs' h1⟩

/-- A `remove` that cannot remove the directory of the chunks, after their files: C88 says what remains. -/
example : ∃ fs', (Pc.prog (remove Demo.hier Demo.path)).runFaulty Demo.hier Wide.demoFs (failAt 13 0) =
      some (.prog (.done (.err .other)), fs') ∧
    fs'.get (dataLoc Demo.hier Demo.path) = some .dir ∧ fs'.get (chunkLoc Demo.hier Demo.path str!"/" [1]) = none ∧
    ∀ l, l ≠ docLoc Demo.hier str!"array" Demo.path → l ≠ docLoc Demo.hier str!"group" Demo.path →
      ¬ dataLoc Demo.hier Demo.path <+: l → fs'.get l = Wide.demoFs.get l := by
  refine ⟨_, rfl, by decide +kernel, by decide +kernel, fun l h1 h2 h3 => ?_⟩
  rcases (C88_remove Demo.hier Demo.path (by decide) Wide.demoFs Wide.demoFs_wf.1 Wide.demoFs_wf.2 (by decide)
    (by unfold GoodSuffix; decide) (failAt 13 0) _ _ rfl).2 l with e | ⟨_, e | e | e⟩
  · exact e
  · exact absurd e h1
  · exact absurd e h2
  · exact absurd e h3

/-- **C87 (violated), `remove`.** If the check that the document of the array exists fails, `remove` returns `Ok` and
the array is still there without its chunks; if the check for the directory of the chunks fails, it returns `Ok` and
the chunks are still there. -/
theorem C87_violated_remove :
    (∃ fs', (Pc.prog (remove Demo.hier Demo.path)).runFaulty Demo.hier Wide.demoFs (failAt 2 9) =
        some (.prog (.done (.ok ())), fs') ∧
      (Zarr.nodeExists Demo.hier Demo.path fs').1 = .ok true ∧
      (Zarr.nodeExists Demo.hier Demo.path (Zarr.remove Demo.hier Demo.path Wide.demoFs).2).1 = .ok false) ∧
    ∃ fs', (Pc.prog (remove Demo.hier Demo.path)).runFaulty Demo.hier Wide.demoFs (failAt 7 1) =
        some (.prog (.done (.ok ())), fs') ∧
      (fs'.content (chunkLoc Demo.hier Demo.path str!"/" [1])).isSome ∧
      (Zarr.remove Demo.hier Demo.path Wide.demoFs).2.content (chunkLoc Demo.hier Demo.path str!"/" [1]) = none := by
  constructor
  · obtain ⟨a, fs', h1, h2⟩ := of_endsWith
      (f := fun _ fs' => decide ((Zarr.nodeExists Demo.hier Demo.path fs').1 = .ok true))
      (r := (Pc.prog (remove Demo.hier Demo.path)).runFaulty Demo.hier Wide.demoFs (failAt 2 9)) (by decide +kernel)
    exact ⟨fs', h1, by simpa using h2, by decide +kernel⟩
  · obtain ⟨a, fs', h1, h2⟩ := of_endsWith
      (f := fun _ fs' => (fs'.content (chunkLoc Demo.hier Demo.path str!"/" [1])).isSome)
      (r := (Pc.prog (remove Demo.hier Demo.path)).runFaulty Demo.hier Wide.demoFs (failAt 7 1)) (by decide +kernel)
    exact ⟨fs', h1, h2, by decide +kernel⟩

/-- **C87 (violated), `list_nodes`.** If `metadata` of an entry fails, `list_nodes` returns `Ok` without the node. -/
theorem C87_violated_listing :
    ∃ fs', (Pc.prog (listNodes Demo.envJ Demo.hier str!"/b")).runFaulty Demo.hier Wide.demoFs (failAt 1 1) =
        some (.prog (.done (.ok [])), fs') ∧
      (Zarr.listNodes Demo.envJ Demo.hier str!"/b" Wide.demoFs).1 = .ok [str!"a"] := by
  obtain ⟨r, fs', h1, h2⟩ := of_endsWith (f := fun a _ => decide (a = []))
    (r := (Pc.prog (listNodes Demo.envJ Demo.hier str!"/b")).runFaulty Demo.hier Wide.demoFs (failAt 1 1))
    (by decide +kernel)
  have : r = [] := by simpa using h2
  subst this
  exact ⟨fs', h1, by decide +kernel⟩

end Wide

end Zarr
