import Verif.Props.Linear
/-!
# C118: a call that meets no other
-/

namespace Zarr

/-- What a call returns and leaves, if the key has the value `v`. -/
def Spec.Answers (v : Option Bytes) (c : Locks.Call) (r : Locks.Result) (v' : Option Bytes) : Prop :=
  match c with
  | .get => r = .got v ∧ v' = v
  | .set w => r = .wrote ∧ v' = some w
  | .erase => r = .erased true ∧ v' = none

namespace Locks

open Spec

theorem run_append : ∀ (l l' : List (Nat × Option Call)) (s : Sys), s.run (l ++ l') = (s.run l).bind fun s' => s'.run l'
  | [], _, _ => rfl
  | (t, some c) :: l, l', s => by
    simp only [List.cons_append, Sys.run]
    cases s.start t c with
    | none => rfl
    | some s1 => exact run_append l l' s1
  | (t, none) :: l, l', s => by
    simp only [List.cons_append, Sys.run]
    cases s.advance t with
    | none => rfl
    | some s1 => exact run_append l l' s1

/-- Only thread `t` is in a call. -/
def Quiet (t : Nat) (pcs : List Pc) : Prop := ∀ (u : Nat) (p : Pc), u ≠ t → pcs[u]? = some p → ∃ r, p = .idle r

theorem Quiet.any {t : Nat} {pcs : List Pc} {p : Pc} (h : Quiet t pcs) (hp : pcs[t]? = some p) {f : Pc → Bool}
    (hf : ∀ r, f (.idle r) = false) (hfp : f p = false) : pcs.any f = false := by
  rw [List.any_eq_false]
  intro q hq
  obtain ⟨u, hu⟩ := List.getElem?_of_mem hq
  by_cases e : u = t
  · rw [e, hp] at hu
    cases hu
    simp [hfp]
  · obtain ⟨r, rfl⟩ := h u q e hu
    simp [hf]

theorem Quiet.set {t : Nat} {pcs : List Pc} (h : Quiet t pcs) (p : Pc) : Quiet t (pcs.set t p) := by
  intro u q hu hq
  rw [List.getElem?_set, if_neg (fun a => hu a.symm)] at hq
  exact h u q hu hq

/-- One step of a thread. -/
theorem advance_next {s s1 : Sys} {t : Nat} {p p' : Pc} (hp : s.pcs[t]? = some p) (hn : s.next p = some (p', s1)) :
    s.advance t = some { s1 with pcs := s.pcs.set t p' } := by
  simp only [Sys.advance, hp, hn]

/-- A reader reads to the end. -/
theorem run_read {t i : Nat} : ∀ (m : Nat) (s : Sys) (acc : Bytes), s.pcs[t]? = some (.getRead i acc) →
    acc = (s.content i).take acc.length → acc.length + m = (s.content i).length →
    s.run (List.replicate (m + 1) (t, none)) =
      some { s with pcs := s.pcs.set t (.idle (some (.got (some (s.content i))))) }
  | 0, s, acc, hp, ha, hl => by
    have hg : (s.content i)[acc.length]? = none := List.getElem?_eq_none_iff.mpr (by omega)
    have hacc : acc = s.content i := by rw [ha]; exact List.take_of_length_le (by omega)
    have hstep := advance_next hp (p' := .idle (some (.got (some acc)))) (s1 := s) (by simp only [Sys.next, hg])
    simp only [List.replicate, Sys.run, hstep, Option.bind_some]
    rw [hacc]
  | m + 1, s, acc, hp, ha, hl => by
    have hlt : acc.length < (s.content i).length := by omega
    have hg : (s.content i)[acc.length]? = some (s.content i)[acc.length] := List.getElem?_eq_getElem hlt
    have hstep := advance_next hp (p' := .getRead i (acc ++ [(s.content i)[acc.length]])) (s1 := s)
      (by simp only [Sys.next, hg])
    rw [show List.replicate (m + 1 + 1) (t, (none : Option Call)) = (t, none) :: List.replicate (m + 1) (t, none)
      from rfl]
    simp only [Sys.run, hstep, Option.bind_some]
    rw [run_read (i := i) m _ (acc ++ [(s.content i)[acc.length]]) (getElem?_set_self' hp)]
    · simp only [List.set_set]
      rfl
    · show _ = (s.content i).take _
      simp only [List.length_append, List.length_singleton]
      rw [List.take_add_one, hg, ← ha]
      rfl
    · show _ = (s.content i).length
      simp only [List.length_append, List.length_singleton]
      omega

/-- A writer writes to the end. -/
theorem run_write {t i : Nat} {w : Bytes} : ∀ (m : Nat) (s : Sys) (n : Nat), s.pcs[t]? = some (.setWrite i w n) →
    i < s.data.length → s.content i = w.take n → n + m = w.length →
    s.run (List.replicate (m + 1) (t, none)) =
      some ⟨s.entry, s.data.set i w, s.pcs.set t (.idle (some .wrote)), w :: s.log⟩
  | 0, s, n, hp, hi, hc, hl => by
    have hg : w[n]? = none := List.getElem?_eq_none_iff.mpr (by omega)
    have hstep := advance_next hp (p' := .idle (some .wrote)) (s1 := { s with log := w :: s.log })
      (by simp only [Sys.next, hg])
    simp only [List.replicate, Sys.run, hstep, Option.bind_some]
    have : s.data.set i w = s.data := by
      apply List.ext_getElem?
      intro j
      rw [List.getElem?_set]
      split
      · rename_i e
        subst e
        rw [List.getElem?_eq_getElem hi]
        unfold Sys.content at hc
        rw [List.getElem?_eq_getElem hi] at hc
        have hc : s.data[i] = w := by
          simpa [List.take_of_length_le (show w.length ≤ n by omega)] using hc
        rw [hc]
      · rfl
    rw [this]
  | m + 1, s, n, hp, hi, hc, hl => by
    have hlt : n < w.length := by omega
    have hg : w[n]? = some w[n] := List.getElem?_eq_getElem hlt
    have hnew : (s.content i).take n ++ w[n] :: (s.content i).drop (n + 1) = w.take (n + 1) := by
      rw [hc, List.take_take, Nat.min_self, List.drop_of_length_le (by simp; omega), List.take_add_one, hg]
      rfl
    have hstep := advance_next hp (p' := .setWrite i w (n + 1)) (s1 := { s with data := s.data.set i (w.take (n + 1)) })
      (by simp only [Sys.next, hg, hnew])
    rw [show List.replicate (m + 1 + 1) (t, (none : Option Call)) = (t, none) :: List.replicate (m + 1) (t, none)
      from rfl]
    simp only [Sys.run, hstep, Option.bind_some]
    rw [run_write (w := w) m _ (n + 1) (getElem?_set_self' hp)]
    · simp only [List.set_set]
    · simpa using hi
    · simp only [Sys.content]
      rw [List.getElem?_set, if_pos rfl, if_pos hi]
      rfl
    · omega

/-- A thread goes on alone. -/
def Goes (t : Nat) (s s' : Sys) : Prop := ∃ m, s.run (List.replicate m (t, none)) = some s'

theorem Goes.trans {t : Nat} {s s1 s2 : Sys} (h : Goes t s s1) (h' : Goes t s1 s2) : Goes t s s2 := by
  obtain ⟨a, ha⟩ := h
  obtain ⟨b, hb⟩ := h'
  refine ⟨a + b, ?_⟩
  rw [← List.replicate_append_replicate, run_append, ha]
  exact hb

theorem Goes.step {t : Nat} {s s1 s2 : Sys} {p p' : Pc} (hp : s.pcs[t]? = some p) (hn : s.next p = some (p', s1))
    (h : Goes t { s1 with pcs := s.pcs.set t p' } s2) : Goes t s s2 := by
  obtain ⟨m, hm⟩ := h
  refine ⟨m + 1, ?_⟩
  rw [show List.replicate (m + 1) (t, (none : Option Call)) = (t, none) :: List.replicate m (t, none) from rfl]
  simp only [Sys.run, advance_next hp hn, Option.bind_some]
  exact hm

theorem Goes.refl (t : Nat) (s : Sys) : Goes t s s := ⟨0, rfl⟩

/-- C118 (partial). A call that meets no other has exactly the result it should have: in a state in which no
call is under way a thread that makes a call and goes on comes to its end, `get` gives the value, `set`
leaves its value, `erase` leaves none and returns `true`. No other thread can go on in between, so that this is
the only thing that can happen as long as no other call begins. -/
theorem C118_partial_alone (P : Call → Prop) (v : Option Bytes) (n : Nat) (s : Sys)
    (hr : Reach P (Sys.initial v n) s) (t : Nat) (ht : t < s.pcs.length)
    (hidle : ∀ (u : Nat) (p : Pc), s.pcs[u]? = some p → ∃ r, p = .idle r) (c : Call) :
    (∀ u, s.advance u = none) ∧
    ∃ m s' r, s.run ((t, some c) :: List.replicate m (t, none)) = some s' ∧
      s'.pcs = s.pcs.set t (.idle (some r)) ∧
      Answers (s.entry.map s.content) c r (s'.entry.map s'.content) := by
  have hinv := inv_reach hr
  refine ⟨?_, ?_⟩
  · intro u
    unfold Sys.advance
    split
    · rename_i p hp
      obtain ⟨r, rfl⟩ := hidle u p hp
      rfl
    · rfl
  · obtain ⟨r0, hp⟩ : ∃ r0, s.pcs[t]? = some (.idle r0) := by
      obtain ⟨r, e⟩ := hidle t _ (List.getElem?_eq_getElem ht)
      exact ⟨r, by rw [List.getElem?_eq_getElem ht, e]⟩
    have hq : Quiet t s.pcs := fun u p _ hu => hidle u p hu
    have hstart : s.start t c = some { s with pcs := s.pcs.set t c.begin } := by
      simp only [Sys.start, hp]
    suffices h : ∃ s' r, Goes t { s with pcs := s.pcs.set t c.begin } s' ∧
        s'.pcs = s.pcs.set t (.idle (some r)) ∧
        Answers (s.entry.map s.content) c r (s'.entry.map s'.content) by
      obtain ⟨s', r, ⟨m, hm⟩, h⟩ := h
      exact ⟨m, s', r, by simp only [Sys.run, hstart, Option.bind_some]; exact hm, h⟩
    have hself : ∀ (p : Pc), (s.pcs.set t p)[t]? = some p := fun p => getElem?_set_self' hp
    have hx : ∀ (i : Nat) (p : Pc), p.exclusive i = false → (s.pcs.set t p).any (Pc.exclusive i) = false :=
      fun i p h => (hq.set p).any (hself p) (fun _ => rfl) h
    have hh : ∀ (i : Nat) (p : Pc), p.holds i = false → (s.pcs.set t p).any (Pc.holds i) = false :=
      fun i p h => (hq.set p).any (hself p) (fun _ => rfl) h
    cases c with
    | get =>
      cases he : s.entry with
      | none =>
        refine ⟨{ s with pcs := s.pcs.set t (.idle (some (.got none))) }, .got none, ?_, rfl, ?_⟩
        · rw [← he]
          refine .step (hself _) (p' := .idle (some (.got none))) (s1 := { s with pcs := s.pcs.set t .getCheck }) ?_ ?_
          · simp only [Call.begin, Sys.next, he, Option.isSome_none, Bool.false_eq_true, if_false]
          · simp only [List.set_set]
            exact .refl _ _
        · exact ⟨rfl, by simp [he]⟩
      | some i =>
        refine ⟨{ s with pcs := s.pcs.set t (.idle (some (.got (some (s.content i))))) }, .got (some (s.content i)), ?_, rfl,
          ?_⟩
        · rw [← he]
          refine .step (hself _) (p' := .getOpen) (s1 := { s with pcs := s.pcs.set t .getCheck }) ?_ ?_
          · simp only [Call.begin, Sys.next, he, Option.isSome_some, if_true]
          simp only [List.set_set]
          refine .step (hself _) (p' := .getLock i) (s1 := { s with pcs := s.pcs.set t .getOpen }) ?_ ?_
          · simp only [Sys.next, he]
          simp only [List.set_set]
          refine .step (hself _) (p' := .getRead i []) (s1 := { s with pcs := s.pcs.set t (.getLock i) }) ?_ ?_
          · simp only [Sys.next, hx i (.getLock i) rfl, Bool.false_eq_true, if_false]
          simp only [List.set_set]
          refine ⟨(s.content i).length + 1, ?_⟩
          rw [run_read (i := i) (s.content i).length _ [] (hself _) rfl (by
            show 0 + _ = (s.content i).length
            omega)]
          simp only [List.set_set]
          rfl
        · exact ⟨rfl, by simp [he]; rfl⟩
    | set w =>
      obtain ⟨e', d', i, he', hi, hnext⟩ : ∃ (e' : Option Nat) (d' : List Bytes) (i : Nat), e' = some i ∧ i < d'.length ∧
          Sys.next { s with pcs := s.pcs.set t (.setOpen w) } (.setOpen w) =
            some (.setLock i w, ⟨e', d', s.pcs.set t (.setOpen w), s.log⟩) := by
        cases he : s.entry with
        | none => exact ⟨some s.data.length, s.data ++ [[]], s.data.length, rfl, by simp, by simp only [Sys.next]⟩
        | some i => exact ⟨some i, s.data, i, rfl, hinv.entry i he, by simp only [Sys.next]⟩
      refine ⟨⟨e', d'.set i w, s.pcs.set t (.idle (some .wrote)), w :: s.log⟩, .wrote, ?_, rfl, rfl, ?_⟩
      · refine .step (hself _) hnext ?_
        simp only [List.set_set]
        refine .step (hself _) (p' := .setTrunc i w) (s1 := ⟨e', d', s.pcs.set t (.setLock i w), s.log⟩) ?_ ?_
        · simp only [Sys.next, hh i (.setLock i w) rfl, Bool.false_eq_true, if_false]
        simp only [List.set_set]
        refine .step (hself _) (p' := .setWrite i w 0) (s1 := ⟨e', d'.set i [], s.pcs.set t (.setTrunc i w), s.log⟩) ?_ ?_
        · simp only [Sys.next]
        simp only [List.set_set]
        refine ⟨w.length + 1, ?_⟩
        rw [run_write (i := i) w.length _ 0 (hself _) (by simpa using hi) (by
          simp [Sys.content, hi]) (by omega)]
        simp only [List.set_set]
      · rw [he']
        simp [Sys.content, hi]
    | erase =>
      have hfin : Goes t ⟨none, s.data, s.pcs.set t .eraFinal, s.log⟩
          ⟨none, s.data, s.pcs.set t (.idle (some (.erased true))), s.log⟩ := by
        refine .step (hself _) (p' := .idle (some (.erased true))) (s1 := ⟨none, s.data, s.pcs.set t .eraFinal, s.log⟩) rfl ?_
        simp only [List.set_set]
        exact .refl _ _
      refine ⟨⟨none, s.data, s.pcs.set t (.idle (some (.erased true))), s.log⟩, .erased true, ?_, rfl, rfl, rfl⟩
      cases he : s.entry with
      | none =>
        refine .step (hself _) (p' := .eraFinal) (s1 := ⟨none, s.data, s.pcs.set t .eraCheck, s.log⟩) rfl ?_
        simp only [List.set_set]
        exact hfin
      | some i =>
        refine .step (hself _) (p' := .eraOpen) (s1 := ⟨some i, s.data, s.pcs.set t .eraCheck, s.log⟩) rfl ?_
        simp only [List.set_set]
        refine .step (hself _) (p' := .eraLock i) (s1 := ⟨some i, s.data, s.pcs.set t .eraOpen, s.log⟩) rfl ?_
        simp only [List.set_set]
        refine .step (hself _) (p' := .eraUnlink i) (s1 := ⟨some i, s.data, s.pcs.set t (.eraLock i), s.log⟩) ?_ ?_
        · simp only [Sys.next, hh i (.eraLock i) rfl, Bool.false_eq_true, if_false]
        simp only [List.set_set]
        refine .step (hself _) (p' := .eraClose i) (s1 := ⟨none, s.data, s.pcs.set t (.eraUnlink i), s.log⟩) rfl ?_
        simp only [List.set_set]
        refine .step (hself _) (p' := .eraFinal) (s1 := ⟨none, s.data, s.pcs.set t (.eraClose i), s.log⟩) rfl ?_
        simp only [List.set_set]
        exact hfin

/-- A state to start from: the key was erased while a thread had its file open, and written again. -/
example : (Sys.initial (some [1]) 2).run
    [(0, some .erase), (0, none), (0, none), (0, none), (0, none), (0, none), (0, none), (1, some (.set [7])),
     (1, none), (1, none), (1, none), (1, none), (1, none), (0, some .get), (0, none), (0, none), (0, none),
     (0, none), (0, none)] =
    some ⟨some 1, [[1], [7]], [.idle (some (.got (some [7]))), .idle (some .wrote)], [[7]]⟩ := by
  decide

end Locks
end Zarr
