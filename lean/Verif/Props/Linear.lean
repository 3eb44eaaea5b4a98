import Verif.Props.Locks
/-!
# C118: concurrent store calls on one key, in a sequence

Linearizability in the sense of Herlihy and Wing: whatever calls have returned can be put in one sequence
that keeps the order of any two calls of which one returned before the other began, and in which each call
has the result that the calls before it give it.
-/

namespace Zarr

namespace Spec

/-- A call that a thread began at some time, and the time at which it returned and its result. -/
structure Op where
  thread : Nat
  start : Nat
  call : Locks.Call
  finish : Option (Nat × Locks.Result)
  deriving DecidableEq, Repr

/-- The value of the key after a call. -/
def Op.after (st : Option Bytes) (o : Op) : Option Bytes :=
  match o.call with
  | .get => st
  | .set v => some v
  | .erase => none

/-- The value of the key after a sequence of calls. -/
def afterAll (st : Option Bytes) (l : List Op) : Option Bytes := l.foldl Op.after st

/-- What the calls of a key return when they are made one after the other. A call that has not returned
may return anything. -/
def Op.Exact (st : Option Bytes) (o : Op) : Prop :=
  match o.finish with
  | none => True
  | some (_, r) =>
    match o.call with
    | .get => r = .got st
    | .set _ => r = .wrote
    | .erase => r = .erased true

/-- The same, but a call that finds no value may also fail with `NotFound`, `get` may give an empty value
instead of none, and `erase` may say that it did not erase. -/
def Op.Loose (st : Option Bytes) (o : Op) : Prop :=
  match o.finish with
  | none => True
  | some (_, r) =>
    match o.call with
    | .get => r = .got st ∨ (st = none ∧ (r = .notFound ∨ r = .got (some [])))
    | .set _ => r = .wrote
    | .erase => (∃ b, r = .erased b) ∨ (st = none ∧ r = .notFound)

/-- Every call of the sequence has a result it may have. -/
def AllServed (ok : Option Bytes → Op → Prop) : Option Bytes → List Op → Prop
  | _, [] => True
  | st, o :: l => ok st o ∧ AllServed ok (o.after st) l

/-- The calls `done`, and some of those that are under way, can be put in a sequence that keeps the order
of calls that do not overlap and explains every result. -/
def Linearizable (ok : Option Bytes → Op → Prop) (v : Option Bytes) (cur : Nat → Option (Nat × Locks.Call))
    (done : List Op) : Prop :=
  ∃ L : List Op, (L.map (·.start)).Nodup ∧ (∀ o, o.finish.isSome → (o ∈ done ↔ o ∈ L)) ∧
    (∀ o ∈ L, o.finish = none → cur o.thread = some (o.start, o.call)) ∧
    L.Pairwise (fun a b => ∀ f ∈ b.finish, a.start ≤ f.1) ∧ AllServed ok v L

end Spec

namespace Locks

open Spec

/-- A function with another value at one place. -/
def upd {α : Type} (f : Nat → α) (t : Nat) (a : α) : Nat → α := fun i => if i = t then a else f i

/-- The runs of the system with a clock: what each thread is doing and since when, and the calls that have
returned. -/
inductive Timed (P : Call → Prop) (v : Option Bytes) (n : Nat) :
    Nat → Sys → (Nat → Option (Nat × Call)) → List Op → Prop
  | init : Timed P v n 0 (Sys.initial v n) (fun _ => none) []
  | start {k : Nat} {s s' : Sys} {cur : Nat → Option (Nat × Call)} {done : List Op} {t : Nat} {c : Call} :
    Timed P v n k s cur done → P c → s.start t c = some s' → Timed P v n (k + 1) s' (upd cur t (some (k, c))) done
  | go {k : Nat} {s s' : Sys} {cur : Nat → Option (Nat × Call)} {done : List Op} {t : Nat} :
    Timed P v n k s cur done → s.advance t = some s' → (∀ r, s'.pcs[t]? ≠ some (.idle r)) →
    Timed P v n (k + 1) s' cur done
  | finish {k : Nat} {s s' : Sys} {cur : Nat → Option (Nat × Call)} {done : List Op} {t st : Nat} {c : Call}
      {r : Result} :
    Timed P v n k s cur done → s.advance t = some s' → s'.pcs[t]? = some (.idle (some r)) →
    cur t = some (st, c) → Timed P v n (k + 1) s' (upd cur t none) (⟨t, st, c, some (k, r)⟩ :: done)

/-! ## Sequences -/

theorem afterAll_append (st : Option Bytes) (a b : List Op) :
    afterAll st (a ++ b) = afterAll (afterAll st a) b := by
  simp [afterAll, List.foldl_append]

theorem allServed_append (ok : Option Bytes → Op → Prop) : ∀ (st : Option Bytes) (a b : List Op),
    AllServed ok st (a ++ b) ↔ AllServed ok st a ∧ AllServed ok (afterAll st a) b
  | st, [], b => by simp [AllServed, afterAll]
  | st, o :: a, b => by
    have ih := allServed_append ok (o.after st) a b
    simp only [List.cons_append, AllServed, ih, and_assoc]
    rfl

/-- The parts of the sequence one after the other. -/
def flat (seg : Nat → List Op) (n : Nat) : List Op := (List.range n).flatMap seg

theorem flat_succ (seg : Nat → List Op) (n : Nat) : flat seg (n + 1) = flat seg n ++ seg n := by
  simp [flat, List.range_succ]

theorem mem_flat {seg : Nat → List Op} {n : Nat} {o : Op} : o ∈ flat seg n ↔ ∃ j, j < n ∧ o ∈ seg j := by
  simp [flat, List.mem_flatMap]

theorem flat_congr {seg seg' : Nat → List Op} : ∀ {n : Nat}, (∀ j, j < n → seg j = seg' j) → flat seg n = flat seg' n
  | 0, _ => rfl
  | n + 1, h => by
    rw [flat_succ, flat_succ, flat_congr fun j hj => h j (by omega), h n (by omega)]

/-- A call is put at the end of a part. -/
theorem flat_insert (seg : Nat → List Op) (j : Nat) (x : Op) : ∀ n, j < n →
    ∃ l1 l2, flat seg n = l1 ++ l2 ∧ flat (upd seg j (seg j ++ [x])) n = l1 ++ x :: l2 ∧
      ∀ b ∈ l2, ∃ i, j < i ∧ i < n ∧ b ∈ seg i
  | 0, h => absurd h (by omega)
  | n + 1, h => by
    by_cases e : j = n
    · subst e
      refine ⟨flat seg j ++ seg j, [], by rw [flat_succ, List.append_nil], ?_, by simp⟩
      rw [flat_succ, flat_congr (seg' := seg) (fun i hi => by simp [upd, show i ≠ j by omega])]
      simp [upd]
    · obtain ⟨l1, l2, h1, h2, h3⟩ := flat_insert seg j x n (by omega)
      refine ⟨l1, l2 ++ seg n, by rw [flat_succ, h1, List.append_assoc], ?_, ?_⟩
      · rw [flat_succ, h2]
        simp [upd, show n ≠ j by omega]
      · intro b hb
        rcases List.mem_append.mp hb with hb | hb
        · obtain ⟨i, a, b', c⟩ := h3 b hb
          exact ⟨i, a, by omega, c⟩
        · exact ⟨n, by omega, by omega, hb⟩

/-! ## What every thread is doing -/

/-- Where the threads in a call are. -/
def Pc.Of : Call → Pc → Prop
  | .get, .getCheck | .get, .getOpen | .get, .getLock _ | .get, .getRead _ _ => True
  | .set v, .setOpen w | .set v, .setLock _ w | .set v, .setTrunc _ w | .set v, .setWrite _ w _ => v = w
  | .erase, .eraCheck | .erase, .eraOpen | .erase, .eraLock _ | .erase, .eraUnlink _ | .erase, .eraClose _
  | .erase, .eraFinal => True
  | _, _ => False

/-- An `erase` whose place in the sequence is fixed. -/
def Pc.placed : Pc → Bool
  | .eraClose _ | .eraFinal => true
  | _ => false

/-- What holds of the sequence of calls in every reachable state. -/
structure HInv (k : Nat) (pcs : List Pc) (cur : Nat → Option (Nat × Call)) (done L : List Op) : Prop where
  fresh : ∀ o ∈ L, o.start < k
  nodup : (L.map (·.start)).Nodup
  dn : ∀ o, o.finish.isSome → (o ∈ done ↔ o ∈ L)
  pend : ∀ o ∈ L, o.finish = none → o.call = .erase ∧ cur o.thread = some (o.start, .erase) ∧
    ∃ p, pcs[o.thread]? = some p ∧ p.placed = true
  lin : ∀ (t : Nat) (p : Pc) (st : Nat) (c : Call), pcs[t]? = some p → p.placed = true → cur t = some (st, c) →
    ∃ o ∈ L, o.start = st ∧ o.finish = none
  unl : ∀ (t : Nat) (p : Pc) (st : Nat) (c : Call), pcs[t]? = some p → p.placed = false → cur t = some (st, c) →
    ∀ o ∈ L, o.start ≠ st
  curr : ∀ (t : Nat) (p : Pc), pcs[t]? = some p → (∀ r, p ≠ .idle r) → ∃ st c, cur t = some (st, c) ∧ p.Of c
  curIdle : ∀ (t : Nat) (r : Option Result), pcs[t]? = some (.idle r) → cur t = none
  curLt : ∀ (t st : Nat) (c : Call), cur t = some (st, c) → st < k
  dist : ∀ (t t' st : Nat) (c c' : Call), cur t = some (st, c) → cur t' = some (st, c') → t = t'
  rt : L.Pairwise (fun a b => ∀ f ∈ b.finish, a.start ≤ f.1)

section
variable {k : Nat} {pcs : List Pc} {cur : Nat → Option (Nat × Call)} {done L : List Op}

/-- A step that changes no place in the sequence. -/
theorem HInv.silent (h : HInv k pcs cur done L) {t : Nat} {p p' : Pc} (hp : pcs[t]? = some p)
    (hni : ∀ r, p ≠ .idle r) (hni' : ∀ r, p' ≠ .idle r) (hof : ∀ c, p.Of c → p'.Of c) (hpl : p'.placed = p.placed) :
    HInv (k + 1) (pcs.set t p') cur done L := by
  have hget : ∀ (u : Nat) (q : Pc), (pcs.set t p')[u]? = some q → (u = t ∧ q = p') ∨ (u ≠ t ∧ pcs[u]? = some q) :=
    fun u q hq => getElem?_set' _ _ _ _ _ hq
  refine ⟨fun o ho => Nat.lt_succ_of_lt (h.fresh o ho), h.nodup, h.dn, ?_, ?_, ?_, ?_, ?_,
    fun t st c hc => Nat.lt_succ_of_lt (h.curLt t st c hc), h.dist, h.rt⟩
  · intro o ho hf
    obtain ⟨h1, h2, q, hq, hpq⟩ := h.pend o ho hf
    refine ⟨h1, h2, ?_⟩
    by_cases e : o.thread = t
    · refine ⟨p', by rw [e]; exact getElem?_set_self' hp, ?_⟩
      rw [e, hp] at hq
      cases hq
      rw [hpl, hpq]
    · exact ⟨q, by rw [List.getElem?_set, if_neg (fun a => e a.symm)]; exact hq, hpq⟩
  · intro u q st c hq hpq hc
    rcases hget u q hq with ⟨rfl, rfl⟩ | ⟨_, hq⟩
    · exact h.lin u p st c hp (hpl ▸ hpq) hc
    · exact h.lin u q st c hq hpq hc
  · intro u q st c hq hpq hc
    rcases hget u q hq with ⟨rfl, rfl⟩ | ⟨_, hq⟩
    · exact h.unl u p st c hp (hpl ▸ hpq) hc
    · exact h.unl u q st c hq hpq hc
  · intro u q hq hn
    rcases hget u q hq with ⟨rfl, rfl⟩ | ⟨_, hq⟩
    · obtain ⟨st, c, hc, ho⟩ := h.curr u p hp hni
      exact ⟨st, c, hc, hof c ho⟩
    · exact h.curr u q hq hn
  · intro u r hq
    rcases hget u _ hq with ⟨_, e⟩ | ⟨_, hq⟩
    · exact absurd e.symm (hni' r)
    · exact h.curIdle u r hq

theorem nodup_insert {l1 l2 : List Op} {x : Op} (h : ((l1 ++ l2).map (·.start)).Nodup)
    (hx : ∀ o ∈ l1 ++ l2, o.start ≠ x.start) : ((l1 ++ x :: l2).map (·.start)).Nodup := by
  have hp : List.Perm ((x :: (l1 ++ l2)).map (·.start)) ((l1 ++ x :: l2).map (·.start)) :=
    (List.perm_middle.symm).map _
  refine hp.nodup_iff.mp ?_
  rw [List.map_cons, List.nodup_cons]
  refine ⟨?_, h⟩
  intro hm
  obtain ⟨o, ho, e⟩ := List.mem_map.mp hm
  exact hx o ho e

theorem pairwise_insert {R : Op → Op → Prop} {l1 l2 : List Op} {x : Op} (h : (l1 ++ l2).Pairwise R)
    (h1 : ∀ a ∈ l1, R a x) (h2 : ∀ b ∈ l2, R x b) : (l1 ++ x :: l2).Pairwise R := by
  rw [List.pairwise_append] at h ⊢
  obtain ⟨a, b, c⟩ := h
  refine ⟨a, List.pairwise_cons.mpr ⟨h2, b⟩, ?_⟩
  intro y hy z hz
  rcases List.mem_cons.mp hz with rfl | hz
  · exact h1 y hy
  · exact c y hy z hz

theorem mem_insert {l1 l2 : List Op} {x o : Op} : o ∈ l1 ++ x :: l2 ↔ o = x ∨ o ∈ l1 ++ l2 := by
  simp only [List.mem_append, List.mem_cons]
  constructor
  · rintro (h | h | h)
    · exact .inr (.inl h)
    · exact .inl h
    · exact .inr (.inr h)
  · rintro (h | h | h)
    · exact .inr (.inl h)
    · exact .inl h
    · exact .inr (.inr h)

/-- A call returns and gets its place. -/
theorem HInv.add {l1 l2 : List Op} (h : HInv k pcs cur done (l1 ++ l2)) {t st : Nat} {c : Call} {p : Pc} {r : Result}
    (hp : pcs[t]? = some p) (hpl : p.placed = false) (hc : cur t = some (st, c))
    (hl : ∀ b ∈ l2, ∀ f ∈ b.finish, st ≤ f.1) :
    HInv (k + 1) (pcs.set t (.idle (some r))) (upd cur t none) (⟨t, st, c, some (k, r)⟩ :: done)
      (l1 ++ ⟨t, st, c, some (k, r)⟩ :: l2) := by
  have hst : st < k := h.curLt t st c hc
  have hne := h.unl t p st c hp hpl hc
  have hcu : ∀ u, u ≠ t → upd cur t none u = cur u := fun u hu => by simp [upd, hu]
  have hct : upd cur t none t = none := by simp [upd]
  have hcur : ∀ u a c', upd cur t none u = some (a, c') → u ≠ t ∧ cur u = some (a, c') := by
    intro u a c' hu
    by_cases e : u = t
    · rw [e, hct] at hu; cases hu
    · exact ⟨e, (hcu u e) ▸ hu⟩
  refine ⟨?_, nodup_insert h.nodup hne, ?_, ?_, ?_, ?_, ?_, ?_, ?_, ?_, ?_⟩
  · intro o ho
    rcases mem_insert.mp ho with rfl | ho
    · exact Nat.lt_succ_of_lt hst
    · exact Nat.lt_succ_of_lt (h.fresh o ho)
  · intro o hf
    rw [mem_insert, List.mem_cons, h.dn o hf]
  · intro o ho hf
    rcases mem_insert.mp ho with rfl | ho
    · cases hf
    · obtain ⟨h1, h2, q, hq, hpq⟩ := h.pend o ho hf
      have e : o.thread ≠ t := by
        intro e
        rw [e, hp] at hq
        cases hq
        rw [hpl] at hpq
        cases hpq
      exact ⟨h1, by rw [hcu _ e]; exact h2, q, by rw [List.getElem?_set, if_neg (fun a => e a.symm)]; exact hq, hpq⟩
  · intro u q a c' hq hpq hc'
    obtain ⟨e, hc'⟩ := hcur u a c' hc'
    rcases getElem?_set' _ _ _ _ _ hq with ⟨e', _⟩ | ⟨_, hq⟩
    · exact absurd e' e
    · obtain ⟨o, ho, h1⟩ := h.lin u q a c' hq hpq hc'
      exact ⟨o, mem_insert.mpr (.inr ho), h1⟩
  · intro u q a c' hq hpq hc' o ho
    obtain ⟨e, hc'⟩ := hcur u a c' hc'
    rcases getElem?_set' _ _ _ _ _ hq with ⟨e', _⟩ | ⟨_, hq⟩
    · exact absurd e' e
    · rcases mem_insert.mp ho with rfl | ho
      · rintro rfl
        exact e (h.dist u t st c' c hc' hc)
      · exact h.unl u q a c' hq hpq hc' o ho
  · intro u q hq hn
    rcases getElem?_set' _ _ _ _ _ hq with ⟨_, e'⟩ | ⟨e, hq⟩
    · exact absurd e' (hn _)
    · rw [hcu u e]
      exact h.curr u q hq hn
  · intro u q hq
    rcases getElem?_set' _ _ _ _ _ hq with ⟨e', _⟩ | ⟨e, hq⟩
    · rw [e', hct]
    · rw [hcu u e]
      exact h.curIdle u q hq
  · intro u a c' hu
    exact Nat.lt_succ_of_lt (h.curLt u a c' (hcur u a c' hu).2)
  · intro u u' a c' c'' hu hu'
    exact h.dist u u' a c' c'' (hcur u a c' hu).2 (hcur u' a c'' hu').2
  · refine pairwise_insert h.rt ?_ hl
    intro a ha f hf
    cases hf
    exact Nat.le_of_lt (h.fresh a (List.mem_append_left _ ha))

/-- An `erase` gets its place at the end. -/
theorem HInv.place (h : HInv k pcs cur done L) {t st : Nat} {p p' : Pc} (hp : pcs[t]? = some p)
    (hpl : p.placed = false) (hpl' : p'.placed = true) (hc : cur t = some (st, .erase)) (hof : p'.Of .erase) :
    HInv (k + 1) (pcs.set t p') cur done (L ++ [⟨t, st, .erase, none⟩]) := by
  have hst : st < k := h.curLt t st _ hc
  have hne := h.unl t p st _ hp hpl hc
  have hL : L = L ++ [] := by simp
  rw [hL] at hne h
  refine ⟨?_, nodup_insert h.nodup hne, ?_, ?_, ?_, ?_, ?_, ?_, fun t st c hc => Nat.lt_succ_of_lt (h.curLt t st c hc),
    h.dist, ?_⟩
  · intro o ho
    rcases mem_insert.mp ho with rfl | ho
    · exact Nat.lt_succ_of_lt hst
    · exact Nat.lt_succ_of_lt (h.fresh o ho)
  · intro o hf
    rw [mem_insert, h.dn o hf]
    constructor
    · exact .inr
    · rintro (rfl | ho)
      · cases hf
      · exact ho
  · intro o ho hf
    rcases mem_insert.mp ho with rfl | ho
    · exact ⟨rfl, hc, p', getElem?_set_self' hp, hpl'⟩
    · obtain ⟨h1, h2, q, hq, hpq⟩ := h.pend o ho hf
      have e : o.thread ≠ t := by
        intro e
        rw [e, hp] at hq
        cases hq
        rw [hpl] at hpq
        cases hpq
      exact ⟨h1, h2, q, by rw [List.getElem?_set, if_neg (fun a => e a.symm)]; exact hq, hpq⟩
  · intro u q a c' hq hpq hc'
    rcases getElem?_set' _ _ _ _ _ hq with ⟨rfl, _⟩ | ⟨_, hq⟩
    · rw [hc] at hc'
      cases hc'
      exact ⟨_, mem_insert.mpr (.inl rfl), rfl, rfl⟩
    · obtain ⟨o, ho, h1⟩ := h.lin u q a c' hq hpq hc'
      exact ⟨o, mem_insert.mpr (.inr ho), h1⟩
  · intro u q a c' hq hpq hc' o ho
    rcases getElem?_set' _ _ _ _ _ hq with ⟨_, e'⟩ | ⟨e, hq⟩
    · rw [e', hpl'] at hpq
      cases hpq
    · rcases mem_insert.mp ho with rfl | ho
      · rintro rfl
        exact e (h.dist u t st c' _ hc' hc)
      · exact h.unl u q a c' hq hpq hc' o ho
  · intro u q hq hn
    rcases getElem?_set' _ _ _ _ _ hq with ⟨rfl, rfl⟩ | ⟨e, hq⟩
    · exact ⟨st, _, hc, hof⟩
    · exact h.curr u q hq hn
  · intro u q hq
    rcases getElem?_set' _ _ _ _ _ hq with ⟨_, e'⟩ | ⟨e, hq⟩
    · rw [← e'] at hpl'
      cases hpl'
    · exact h.curIdle u q hq
  · refine pairwise_insert h.rt ?_ (by simp)
    intro a ha f hf
    cases hf

/-- Calls that began at different times. -/
theorem start_inj {o o0 : Op} : ∀ {l : List Op}, (l.map (·.start)).Nodup → o ∈ l → o0 ∈ l → o.start = o0.start → o = o0
  | [], _, h, _, _ => by cases h
  | a :: l, hn, h1, h2, e => by
    rw [List.map_cons, List.nodup_cons] at hn
    rcases List.mem_cons.mp h1 with h1 | h1
    · rcases List.mem_cons.mp h2 with h2 | h2
      · rw [h1, h2]
      · refine absurd ?_ hn.1
        rw [← h1, e]
        exact List.mem_map.mpr ⟨o0, h2, rfl⟩
    · rcases List.mem_cons.mp h2 with h2 | h2
      · refine absurd ?_ hn.1
        rw [← h2, ← e]
        exact List.mem_map.mpr ⟨o, h1, rfl⟩
      · exact start_inj hn.2 h1 h2 e

/-- The call that began at a time returns. -/
def returned (st k : Nat) (r : Result) (o : Op) : Op := if o.start = st then { o with finish := some (k, r) } else o

theorem returned_start (st k : Nat) (r : Result) (o : Op) : (returned st k r o).start = o.start := by
  unfold returned
  split <;> rfl

/-- An `erase` that has its place returns. -/
theorem HInv.finish (h : HInv k pcs cur done L) {t st : Nat} {c : Call} {p : Pc} {r : Result} (hp : pcs[t]? = some p)
    (hpl : p.placed = true) (hc : cur t = some (st, c)) :
    HInv (k + 1) (pcs.set t (.idle (some r))) (upd cur t none) (⟨t, st, c, some (k, r)⟩ :: done)
      (L.map (returned st k r)) := by
  have hcu : ∀ u, u ≠ t → upd cur t none u = cur u := fun u hu => by simp [upd, hu]
  have hct : upd cur t none t = none := by simp [upd]
  have hcur : ∀ u a c', upd cur t none u = some (a, c') → u ≠ t ∧ cur u = some (a, c') := by
    intro u a c' hu
    by_cases e : u = t
    · rw [e, hct] at hu; cases hu
    · exact ⟨e, (hcu u e) ▸ hu⟩
  obtain ⟨o0, ho0, hs0, hf0⟩ := h.lin t p st c hp hpl hc
  obtain ⟨hcall0, hcur0, _⟩ := h.pend o0 ho0 hf0
  have hth0 : o0.thread = t := h.dist o0.thread t st _ c (hs0 ▸ hcur0) hc
  have hcc : c = .erase := by
    rw [hth0, hc] at hcur0
    cases hcur0
    rfl
  have ho0e : o0 = ⟨t, st, c, none⟩ := by
    cases o0
    cases hs0
    cases hf0
    cases hth0
    cases hcc
    cases hcall0
    rfl
  have huniq : ∀ o ∈ L, o.start = st → o = o0 := by
    intro o ho e
    exact start_inj h.nodup ho ho0 (e.trans hs0.symm)
  have hret0 : returned st k r o0 = ⟨t, st, c, some (k, r)⟩ := by
    rw [ho0e]
    simp [returned]
  have hmem : ∀ o, o ∈ L.map (returned st k r) ↔ o = ⟨t, st, c, some (k, r)⟩ ∨ (o ∈ L ∧ o.start ≠ st) := by
    intro o
    constructor
    · intro ho
      obtain ⟨o', ho', e⟩ := List.mem_map.mp ho
      by_cases e' : o'.start = st
      · rw [huniq o' ho' e', hret0] at e
        exact .inl e.symm
      · simp only [returned, if_neg e'] at e
        subst e
        exact .inr ⟨ho', e'⟩
    · rintro (e | ⟨ho, e⟩)
      · exact List.mem_map.mpr ⟨o0, ho0, by rw [hret0, e]⟩
      · exact List.mem_map.mpr ⟨o, ho, by simp [returned, e]⟩
  have hst : st < k := h.curLt t st c hc
  refine ⟨?_, ?_, ?_, ?_, ?_, ?_, ?_, ?_, ?_, ?_, ?_⟩
  · intro o ho
    rcases (hmem o).mp ho with rfl | ⟨ho, _⟩
    · exact Nat.lt_succ_of_lt hst
    · exact Nat.lt_succ_of_lt (h.fresh o ho)
  · rw [List.map_map]
    have : ((fun o : Op => o.start) ∘ returned st k r) = fun o => o.start := by
      funext o
      exact returned_start _ _ _ _
    rw [this]
    exact h.nodup
  · intro o hf
    rw [hmem, List.mem_cons, h.dn o hf]
    constructor
    · rintro (rfl | ho)
      · exact .inl rfl
      · refine .inr ⟨ho, ?_⟩
        intro e
        rw [huniq o ho e, hf0] at hf
        cases hf
    · rintro (rfl | ⟨ho, _⟩)
      · exact .inl rfl
      · exact .inr ho
  · intro o ho hf
    rcases (hmem o).mp ho with rfl | ⟨ho, hne⟩
    · cases hf
    · obtain ⟨h1, h2, q, hq, hpq⟩ := h.pend o ho hf
      have e : o.thread ≠ t := by
        intro e
        rw [e, hc] at h2
        cases h2
        exact hne rfl
      exact ⟨h1, by rw [hcu _ e]; exact h2, q, by rw [List.getElem?_set, if_neg (fun a => e a.symm)]; exact hq, hpq⟩
  · intro u q a c' hq hpq hc'
    obtain ⟨e, hc'⟩ := hcur u a c' hc'
    rcases getElem?_set' _ _ _ _ _ hq with ⟨e', _⟩ | ⟨_, hq⟩
    · exact absurd e' e
    · obtain ⟨o, ho, h1, h2⟩ := h.lin u q a c' hq hpq hc'
      refine ⟨o, (hmem o).mpr (.inr ⟨ho, ?_⟩), h1, h2⟩
      rintro e'
      rw [h1] at e'
      subst e'
      exact e (h.dist u t a c' c hc' hc)
  · intro u q a c' hq hpq hc' o ho
    obtain ⟨e, hc'⟩ := hcur u a c' hc'
    rcases getElem?_set' _ _ _ _ _ hq with ⟨e', _⟩ | ⟨_, hq⟩
    · exact absurd e' e
    · rcases (hmem o).mp ho with rfl | ⟨ho, _⟩
      · rintro rfl
        exact e (h.dist u t st c' c hc' hc)
      · exact h.unl u q a c' hq hpq hc' o ho
  · intro u q hq hn
    rcases getElem?_set' _ _ _ _ _ hq with ⟨_, e'⟩ | ⟨e, hq⟩
    · exact absurd e' (hn _)
    · rw [hcu u e]
      exact h.curr u q hq hn
  · intro u q hq
    rcases getElem?_set' _ _ _ _ _ hq with ⟨e', _⟩ | ⟨e, hq⟩
    · rw [e', hct]
    · rw [hcu u e]
      exact h.curIdle u q hq
  · intro u a c' hu
    exact Nat.lt_succ_of_lt (h.curLt u a c' (hcur u a c' hu).2)
  · intro u u' a c' c'' hu hu'
    exact h.dist u u' a c' c'' (hcur u a c' hu).2 (hcur u' a c'' hu').2
  · rw [List.pairwise_map]
    refine (List.Pairwise.and_mem.mp h.rt).imp ?_
    rintro a b ⟨ha, hb, hab⟩ f hf
    rw [returned_start]
    by_cases e : b.start = st
    · simp only [returned, if_pos e] at hf
      cases hf
      exact Nat.le_of_lt (h.fresh a ha)
    · simp only [returned, if_neg e] at hf
      exact hab f hf

/-- A call begins. -/
theorem HInv.begins (h : HInv k pcs cur done L) {t : Nat} {c : Call} {r : Option Result}
    (hp : pcs[t]? = some (.idle r)) : HInv (k + 1) (pcs.set t c.begin) (upd cur t (some (k, c))) done L := by
  have hcu : ∀ u, u ≠ t → upd cur t (some (k, c)) u = cur u := fun u hu => by simp [upd, hu]
  have hct : upd cur t (some (k, c)) t = some (k, c) := by simp [upd]
  have hnp : c.begin.placed = false := by cases c <;> rfl
  have hcur : ∀ u a c', upd cur t (some (k, c)) u = some (a, c') → (u = t ∧ a = k ∧ c' = c) ∨ (u ≠ t ∧ cur u = some (a, c')) := by
    intro u a c' hu
    by_cases e : u = t
    · rw [e, hct] at hu
      cases hu
      exact .inl ⟨e, rfl, rfl⟩
    · exact .inr ⟨e, (hcu u e) ▸ hu⟩
  refine ⟨fun o ho => Nat.lt_succ_of_lt (h.fresh o ho), h.nodup, h.dn, ?_, ?_, ?_, ?_, ?_, ?_, ?_, h.rt⟩
  · intro o ho hf
    obtain ⟨h1, h2, q, hq, hpq⟩ := h.pend o ho hf
    have e : o.thread ≠ t := by
      intro e
      rw [e, hp] at hq
      cases hq
      cases hpq
    exact ⟨h1, by rw [hcu _ e]; exact h2, q, by rw [List.getElem?_set, if_neg (fun a => e a.symm)]; exact hq, hpq⟩
  · intro u q a c' hq hpq hc'
    rcases getElem?_set' _ _ _ _ _ hq with ⟨_, e⟩ | ⟨e, hq⟩
    · rw [e, hnp] at hpq
      cases hpq
    · rw [hcu u e] at hc'
      exact h.lin u q a c' hq hpq hc'
  · intro u q a c' hq hpq hc' o ho
    rcases hcur u a c' hc' with ⟨_, rfl, _⟩ | ⟨e, hc'⟩
    · exact Nat.ne_of_lt (h.fresh o ho)
    · rcases getElem?_set' _ _ _ _ _ hq with ⟨e', _⟩ | ⟨_, hq⟩
      · exact absurd e' e
      · exact h.unl u q a c' hq hpq hc' o ho
  · intro u q hq hn
    rcases getElem?_set' _ _ _ _ _ hq with ⟨rfl, rfl⟩ | ⟨e, hq⟩
    · refine ⟨k, c, hct, ?_⟩
      cases c <;> simp [Call.begin, Pc.Of]
    · rw [hcu u e]
      exact h.curr u q hq hn
  · intro u q hq
    rcases getElem?_set' _ _ _ _ _ hq with ⟨_, e⟩ | ⟨e, hq⟩
    · cases c <;> cases e
    · rw [hcu u e]
      exact h.curIdle u q hq
  · intro u a c' hu
    rcases hcur u a c' hu with ⟨_, rfl, _⟩ | ⟨_, hu⟩
    · exact Nat.lt_succ_self _
    · exact Nat.lt_succ_of_lt (h.curLt u a c' hu)
  · intro u u' a c' c'' hu hu'
    rcases hcur u a c' hu with ⟨e1, e2, _⟩ | ⟨_, hu⟩
    · rcases hcur u' a c'' hu' with ⟨e3, _⟩ | ⟨_, hu'⟩
      · rw [e1, e3]
      · exact absurd (h.curLt u' a c'' hu') (by omega)
    · rcases hcur u' a c'' hu' with ⟨_, e2, _⟩ | ⟨_, hu'⟩
      · exact absurd (h.curLt u a c' hu) (by omega)
      · exact h.dist u u' a c' c'' hu hu'

end

/-! ## The parts of the sequence

Part `2 * i + 1` has the calls that used the file number `i`; part `2 * i` those that found no file, after
the file before was removed and before file `i` was created. A file number is never used again. -/

/-- The value when a file is created, and at first. -/
def beginsWith (v : Option Bytes) (i : Nat) : Option Bytes := if i = 0 then v else none

/-- What holds of the parts in every reachable state. -/
structure SInv (v : Option Bytes) (s : Sys) (cur : Nat → Option (Nat × Call)) (seg : Nat → List Op) : Prop where
  inv : Inv v s
  last : ∀ i, s.entry = some i → i + 1 = s.data.length ∧ seg (2 * s.data.length) = []
  beyond : ∀ j, 2 * s.data.length < j → seg j = []
  zero : AllServed Op.Loose v (seg 0) ∧ afterAll v (seg 0) = v
  gap : ∀ i, 0 < i → i < s.data.length ∨ (i = s.data.length ∧ s.entry = none) →
    ∀ st, AllServed Op.Loose st (seg (2 * i)) ∧ afterAll st (seg (2 * i)) = none
  ops : ∀ i, AllServed Op.Loose (beginsWith v i) (seg (2 * i + 1))
  cont : ∀ i, i < s.data.length → (∀ (t : Nat) (p : Pc), s.pcs[t]? = some p → p.writing i = false) →
    s.content i = (afterAll (beginsWith v i) (seg (2 * i + 1))).getD []
  opened : ∀ (t : Nat) (p : Pc) (i st : Nat) (c : Call), s.pcs[t]? = some p → p.ino = some i → cur t = some (st, c) →
    ∀ j, 2 * i + 1 < j → ∀ b ∈ seg j, ∀ f ∈ b.finish, st ≤ f.1

/-- The whole sequence explains every result. -/
theorem SInv.served {v : Option Bytes} {s : Sys} {cur : Nat → Option (Nat × Call)} {seg : Nat → List Op}
    (h : SInv v s cur seg) : AllServed Op.Loose v (flat seg (2 * s.data.length + 1)) := by
  have key : ∀ i, i < s.data.length ∨ (i = s.data.length ∧ s.entry = none) →
      AllServed Op.Loose v (flat seg (2 * i + 1)) ∧ afterAll v (flat seg (2 * i + 1)) = beginsWith v i := by
    intro i
    induction i with
    | zero =>
      intro _
      simpa [flat, beginsWith] using h.zero
    | succ i ih =>
      intro hi
      obtain ⟨a, b⟩ := ih (.inl (by omega))
      have hg := h.gap (i + 1) (by omega) hi
      rw [show 2 * (i + 1) + 1 = (2 * i + 1) + 1 + 1 by omega, flat_succ, flat_succ]
      rw [show 2 * i + 1 + 1 = 2 * (i + 1) by omega]
      refine ⟨?_, ?_⟩
      · rw [allServed_append, allServed_append, b]
        exact ⟨⟨a, h.ops i⟩, (hg _).1⟩
      · rw [afterAll_append, (hg _).2]
        simp [beginsWith]
  cases he : s.entry with
  | none => exact (key _ (.inr ⟨rfl, he⟩)).1
  | some i =>
    obtain ⟨h1, h2⟩ := h.last i he
    obtain ⟨a, b⟩ := key i (.inl (by omega))
    rw [flat_succ, h2, List.append_nil, show 2 * s.data.length = (2 * i + 1) + 1 by omega, flat_succ,
      allServed_append, b]
    exact ⟨a, h.ops i⟩

section
variable {v : Option Bytes} {s : Sys} {cur : Nat → Option (Nat × Call)} {seg : Nat → List Op}

/-- A step that changes no part. -/
theorem SInv.silent (h : SInv v s cur seg) {t : Nat} {p p' : Pc} {data' : List Bytes} {log' : List Bytes}
    (hlen : data'.length = s.data.length)
    (hi : Inv v ⟨s.entry, data', s.pcs.set t p', log'⟩)
    (hcont : ∀ i, i < s.data.length →
      (∀ (u : Nat) (q : Pc), (s.pcs.set t p')[u]? = some q → q.writing i = false) →
      (Sys.mk s.entry data' (s.pcs.set t p') log').content i = (afterAll (beginsWith v i) (seg (2 * i + 1))).getD [])
    (hp : s.pcs[t]? = some p)
    (hino : ∀ i, p'.ino = some i → p.ino = some i ∨ s.entry = some i) :
    SInv v ⟨s.entry, data', s.pcs.set t p', log'⟩ cur seg := by
  refine ⟨hi, ?_, ?_, h.zero, ?_, h.ops, ?_, ?_⟩
  · simp only [hlen]; exact h.last
  · simp only [hlen]; exact h.beyond
  · simp only [hlen]; exact h.gap
  · simp only [hlen]; exact hcont
  · intro u q i st c hq hqi hc j hj b hb f hf
    rcases getElem?_set' _ _ _ _ _ hq with ⟨rfl, rfl⟩ | ⟨_, hq⟩
    · rcases hino i hqi with e | e
      · exact h.opened u p i st c hp e hc j hj b hb f hf
      · obtain ⟨h1, h2⟩ := h.last i e
        by_cases hj' : j = 2 * s.data.length
        · rw [hj', h2] at hb; cases hb
        · rw [h.beyond j (by omega)] at hb; cases hb
    · exact h.opened u q i st c hq hqi hc j hj b hb f hf

/-- The contents, when a thread that was not writing goes on. -/
theorem SInv.cont_move (h : SInv v s cur seg) {t : Nat} {p p' : Pc} (hp : s.pcs[t]? = some p)
    (hw : ∀ i, p.writing i = false) (i : Nat) (hi : i < s.data.length)
    (hq : ∀ (u : Nat) (q : Pc), (s.pcs.set t p')[u]? = some q → q.writing i = false) :
    s.content i = (afterAll (beginsWith v i) (seg (2 * i + 1))).getD [] := by
  apply h.cont i hi
  intro u q e
  by_cases hu : u = t
  · rw [hu, hp] at e
    cases e
    exact hw i
  · exact hq u q (by rw [List.getElem?_set, if_neg (fun a => hu a.symm)]; exact e)

/-- A step that changes only the position of the thread. -/
theorem SInv.move (h : SInv v s cur seg) {t : Nat} {p p' : Pc} (hp : s.pcs[t]? = some p)
    (hi : Inv v { s with pcs := s.pcs.set t p' }) (hw : ∀ i, p.writing i = false)
    (hino : ∀ i, p'.ino = some i → p.ino = some i ∨ s.entry = some i) :
    SInv v { s with pcs := s.pcs.set t p' } cur seg :=
  h.silent rfl hi (fun i hi hq => h.cont_move hp hw i hi hq) hp hino

/-- The file is created. -/
theorem SInv.create (h : SInv v s cur seg) {t : Nat} {w : Bytes} (he : s.entry = none)
    (hp : s.pcs[t]? = some (.setOpen w))
    (hi : Inv v ⟨some s.data.length, s.data ++ [[]], s.pcs.set t (.setLock s.data.length w), s.log⟩) :
    SInv v ⟨some s.data.length, s.data ++ [[]], s.pcs.set t (.setLock s.data.length w), s.log⟩ cur seg := by
  have hl : (s.data ++ [[]]).length = s.data.length + 1 := by simp
  refine ⟨hi, ?_, ?_, h.zero, ?_, h.ops, ?_, ?_⟩
  · intro i hi
    cases hi
    exact ⟨hl.symm, by rw [hl]; exact h.beyond _ (by omega)⟩
  · intro j hj
    simp only [hl] at hj
    exact h.beyond j (by omega)
  · intro i h0 hi
    simp only [hl] at hi
    rcases hi with hi | ⟨_, hi⟩
    · refine h.gap i h0 ?_
      by_cases e : i = s.data.length
      · exact .inr ⟨e, he⟩
      · exact .inl (by omega)
    · cases hi
  · intro i hi hq
    simp only [hl] at hi
    by_cases e : i = s.data.length
    · subst e
      have hb := h.beyond (2 * s.data.length + 1) (by omega)
      rw [hb]
      have h0 : beginsWith v s.data.length = none := by
        unfold beginsWith
        split
        · rename_i e
          have := h.inv.base
          rw [e] at this
          cases v with
          | none => rfl
          | some b => simp at this
        · rfl
      rw [h0]
      simp [Sys.content, afterAll]
    · have hlt : i < s.data.length := by omega
      rw [← h.cont_move hp (fun _ => rfl) i hlt hq]
      simp [Sys.content, List.getElem?_append_left hlt]
  · intro u q i st c hq hqi hc j hj b hb f hf
    rcases getElem?_set' _ _ _ _ _ hq with ⟨rfl, rfl⟩ | ⟨_, hq⟩
    · cases hqi
      rw [h.beyond j (by omega)] at hb
      cases hb
    · exact h.opened u q i st c hq hqi hc j hj b hb f hf

/-- A call that found no file gets its place. -/
theorem SInv.absent (h : SInv v s cur seg) {t : Nat} {p p' : Pc} {cur' : Nat → Option (Nat × Call)} {x : Op}
    {k : Nat} (he : s.entry = none) (hp : s.pcs[t]? = some p) (hw : ∀ i, p.writing i = false)
    (hi : Inv v { s with pcs := s.pcs.set t p' }) (hino : p'.ino = none)
    (hcur : ∀ u, u ≠ t → cur' u = cur u) (hlt : ∀ u st c, cur u = some (st, c) → st < k)
    (hx : x.Loose none) (hxa : x.after none = none) (hf : ∀ f ∈ x.finish, f.1 = k) :
    SInv v { s with pcs := s.pcs.set t p' } cur' (upd seg (2 * s.data.length) (seg (2 * s.data.length) ++ [x])) := by
  have hne : ∀ j, j ≠ 2 * s.data.length → upd seg (2 * s.data.length) (seg (2 * s.data.length) ++ [x]) j = seg j :=
    fun j hj => by simp [upd, hj]
  have heq : upd seg (2 * s.data.length) (seg (2 * s.data.length) ++ [x]) (2 * s.data.length) =
    seg (2 * s.data.length) ++ [x] := by simp [upd]
  refine ⟨hi, ?_, ?_, ?_, ?_, ?_, ?_, ?_⟩
  · intro i hi
    exact absurd (show s.entry = some i from hi) (by rw [he]; simp)
  · intro j hj
    rw [hne j (by simp only at hj; omega)]
    exact h.beyond j hj
  · by_cases e : s.data.length = 0
    · have hv : v = none := by
        have := h.inv.base
        cases v with
        | none => rfl
        | some b => simp at this; omega
      rw [e] at heq ⊢
      rw [show (0 : Nat) = 2 * 0 from rfl, heq]
      have hz := h.zero
      rw [hv] at hz ⊢
      rw [allServed_append, afterAll_append]
      simp only [Nat.mul_zero]
      rw [hz.2]
      exact ⟨⟨hz.1, hx, trivial⟩, hxa⟩
    · rw [hne 0 (by omega)]
      exact h.zero
  · intro i h0 hi st
    by_cases e : i = s.data.length
    · rw [e, heq, allServed_append, afterAll_append]
      have hg := h.gap s.data.length (by omega) (.inr ⟨rfl, he⟩) st
      rw [hg.2]
      exact ⟨⟨hg.1, hx, trivial⟩, hxa⟩
    · rw [hne _ (by omega)]
      exact h.gap i h0 hi st
  · intro i
    rw [hne _ (by omega)]
    exact h.ops i
  · intro i hi hq
    rw [hne _ (by omega)]
    exact h.cont_move hp hw i hi hq
  · intro u q i st c hq hqi hc j hj b hb f hf'
    rcases getElem?_set' _ _ _ _ _ hq with ⟨_, rfl⟩ | ⟨hu, hq⟩
    · rw [hino] at hqi; cases hqi
    · rw [hcur u hu] at hc
      by_cases e : j = 2 * s.data.length
      · rw [e, heq] at hb
        rcases List.mem_append.mp hb with hb | hb
        · exact h.opened u q i st c hq hqi hc j hj b (e ▸ hb) f hf'
        · cases List.mem_singleton.mp hb
          rw [hf f hf']
          exact Nat.le_of_lt (hlt u st c hc)
      · rw [hne j e] at hb
        exact h.opened u q i st c hq hqi hc j hj b hb f hf'

/-- A call that used a file gets its place. -/
theorem SInv.used (h : SInv v s cur seg) {t : Nat} {p p' : Pc} {cur' : Nat → Option (Nat × Call)} {x : Op}
    {k i0 : Nat} {log' : List Bytes} (hp : s.pcs[t]? = some p) (hi0 : i0 < s.data.length)
    (hi : Inv v { s with pcs := s.pcs.set t p', log := log' }) (hino : p'.ino = none)
    (hw : ∀ i, i ≠ i0 → p.writing i = false)
    (hcur : ∀ u, u ≠ t → cur' u = cur u) (hlt : ∀ u st c, cur u = some (st, c) → st < k)
    (hx : x.Loose (afterAll (beginsWith v i0) (seg (2 * i0 + 1))))
    (hc0 : s.content i0 = (x.after (afterAll (beginsWith v i0) (seg (2 * i0 + 1)))).getD [])
    (hf : ∀ f ∈ x.finish, f.1 = k) :
    SInv v { s with pcs := s.pcs.set t p', log := log' } cur' (upd seg (2 * i0 + 1) (seg (2 * i0 + 1) ++ [x])) := by
  have hne : ∀ j, j ≠ 2 * i0 + 1 → upd seg (2 * i0 + 1) (seg (2 * i0 + 1) ++ [x]) j = seg j :=
    fun j hj => by simp [upd, hj]
  have heq : upd seg (2 * i0 + 1) (seg (2 * i0 + 1) ++ [x]) (2 * i0 + 1) = seg (2 * i0 + 1) ++ [x] := by simp [upd]
  refine ⟨hi, ?_, ?_, ?_, ?_, ?_, ?_, ?_⟩
  · intro i hi
    rw [hne _ (by simp only; omega)]
    exact h.last i hi
  · intro j hj
    rw [hne j (by simp only at hj; omega)]
    exact h.beyond j hj
  · rw [hne 0 (by omega)]
    exact h.zero
  · intro i h0 hi st
    rw [hne _ (by omega)]
    exact h.gap i h0 hi st
  · intro i
    by_cases e : i = i0
    · rw [e, heq, allServed_append]
      exact ⟨h.ops i0, hx, trivial⟩
    · rw [hne _ (by omega)]
      exact h.ops i
  · intro i hi hq
    by_cases e : i = i0
    · rw [e, heq, afterAll_append]
      exact hc0
    · rw [hne _ (by omega)]
      apply h.cont i hi
      intro u q e'
      by_cases hu : u = t
      · rw [hu, hp] at e'
        cases e'
        exact hw i e
      · exact hq u q (by
          show (s.pcs.set t p')[u]? = _
          rw [List.getElem?_set, if_neg (fun a => hu a.symm)]; exact e')
  · intro u q i st c hq hqi hc j hj b hb f hf'
    rcases getElem?_set' _ _ _ _ _ hq with ⟨_, rfl⟩ | ⟨hu, hq⟩
    · rw [hino] at hqi; cases hqi
    · rw [hcur u hu] at hc
      by_cases e : j = 2 * i0 + 1
      · rw [e, heq] at hb
        rcases List.mem_append.mp hb with hb | hb
        · exact h.opened u q i st c hq hqi hc j hj b (e ▸ hb) f hf'
        · cases List.mem_singleton.mp hb
          rw [hf f hf']
          exact Nat.le_of_lt (hlt u st c hc)
      · rw [hne j e] at hb
        exact h.opened u q i st c hq hqi hc j hj b hb f hf'

/-- The file is removed. -/
theorem SInv.unlink (h : SInv v s cur seg) {t i0 : Nat} {i1 : Nat} {x : Op} (he : s.entry = some i1)
    (hp : s.pcs[t]? = some (.eraUnlink i0))
    (hi : Inv v { s with entry := none, pcs := s.pcs.set t (.eraClose i0) })
    (hx : ∀ st, x.Loose st ∧ x.after st = none) (hf : x.finish = none) :
    SInv v { s with entry := none, pcs := s.pcs.set t (.eraClose i0) } cur
      (upd seg (2 * s.data.length) (seg (2 * s.data.length) ++ [x])) := by
  obtain ⟨h1, h2⟩ := h.last i1 he
  have hne : ∀ j, j ≠ 2 * s.data.length → upd seg (2 * s.data.length) (seg (2 * s.data.length) ++ [x]) j = seg j :=
    fun j hj => by simp [upd, hj]
  have heq : upd seg (2 * s.data.length) (seg (2 * s.data.length) ++ [x]) (2 * s.data.length) = [x] := by
    simp [upd, h2]
  refine ⟨hi, ?_, ?_, ?_, ?_, ?_, ?_, ?_⟩
  · intro i hi
    cases hi
  · intro j hj
    rw [hne j (by simp only at hj; omega)]
    exact h.beyond j hj
  · rw [hne 0 (by omega)]
    exact h.zero
  · intro i h0 hi st
    by_cases e : i = s.data.length
    · rw [e, heq]
      exact ⟨⟨(hx st).1, trivial⟩, (hx st).2⟩
    · rw [hne _ (by omega)]
      refine h.gap i h0 (.inl ?_) st
      rcases hi with hi | ⟨hi, _⟩
      · exact hi
      · exact absurd hi e
  · intro i
    rw [hne _ (by omega)]
    exact h.ops i
  · intro i hi hq
    rw [hne _ (by omega)]
    exact h.cont_move hp (fun _ => rfl) i hi hq
  · intro u q i st c hq hqi hc j hj b hb f hf'
    have hold : b ∈ seg j := by
      by_cases e : j = 2 * s.data.length
      · rw [e, heq] at hb
        cases List.mem_singleton.mp hb
        rw [hf] at hf'
        cases hf'
      · rwa [hne j e] at hb
    rcases getElem?_set' _ _ _ _ _ hq with ⟨rfl, rfl⟩ | ⟨hu, hq⟩
    · exact h.opened u _ i st c hp hqi hc j hj b hold f hf'
    · exact h.opened u q i st c hq hqi hc j hj b hold f hf'

theorem flat_map (seg : Nat → List Op) (f : Op → Op) : ∀ n, flat (fun j => (seg j).map f) n = (flat seg n).map f
  | 0 => rfl
  | n + 1 => by rw [flat_succ, flat_succ, flat_map seg f n, List.map_append]

theorem returned_after (st : Option Bytes) (a k : Nat) (r : Result) (o : Op) :
    (returned a k r o).after st = o.after st := by
  unfold returned
  split <;> rfl

theorem afterAll_returned (a k : Nat) (r : Result) : ∀ (st : Option Bytes) (l : List Op),
    afterAll st (l.map (returned a k r)) = afterAll st l
  | st, [] => rfl
  | st, o :: l => by
    have ih := afterAll_returned a k r (o.after st) l
    simp only [afterAll, List.map_cons, List.foldl_cons, returned_after] at ih ⊢
    exact ih

theorem allServed_returned (a k : Nat) (b : Bool) : ∀ (st : Option Bytes) (l : List Op),
    (∀ o ∈ l, o.start = a → o.call = .erase) → AllServed Op.Loose st l →
    AllServed Op.Loose st (l.map (returned a k (.erased b)))
  | st, [], _, _ => trivial
  | st, o :: l, h, ⟨h1, h2⟩ => by
    refine ⟨?_, ?_⟩
    · by_cases e : o.start = a
      · have := h o (by simp) e
        simp only [returned, if_pos e, Op.Loose, this]
        exact .inl ⟨b, rfl⟩
      · simpa only [returned, if_neg e] using h1
    · rw [returned_after]
      exact allServed_returned a k b _ l (fun o ho => h o (by simp [ho])) h2

/-- An `erase` that has its place returns. -/
theorem SInv.finish (h : SInv v s cur seg) {t a k : Nat} {b : Bool} {cur' : Nat → Option (Nat × Call)}
    (hp : s.pcs[t]? = some .eraFinal)
    (hi : Inv v { s with pcs := s.pcs.set t (.idle (some (.erased b))) })
    (hcur : ∀ u, u ≠ t → cur' u = cur u) (hlt : ∀ u st c, cur u = some (st, c) → st < k)
    (he : ∀ j, ∀ o ∈ seg j, o.start = a → o.call = .erase) :
    SInv v { s with pcs := s.pcs.set t (.idle (some (.erased b))) } cur'
      (fun j => (seg j).map (returned a k (.erased b))) := by
  refine ⟨hi, ?_, ?_, ?_, ?_, ?_, ?_, ?_⟩
  · intro i hi
    obtain ⟨h1, h2⟩ := h.last i hi
    exact ⟨h1, by simp [h2]⟩
  · intro j hj
    rw [h.beyond j hj]
    rfl
  · simp only [afterAll_returned]
    exact ⟨allServed_returned a k b _ _ (he 0) h.zero.1, h.zero.2⟩
  · intro i h0 hi st
    simp only [afterAll_returned]
    exact ⟨allServed_returned a k b _ _ (he _) (h.gap i h0 hi st).1, (h.gap i h0 hi st).2⟩
  · intro i
    exact allServed_returned a k b _ _ (he _) (h.ops i)
  · intro i hi hq
    simp only [afterAll_returned]
    exact h.cont_move hp (fun _ => rfl) i hi hq
  · intro u q i st c hq hqi hc j hj o ho f hf
    rcases getElem?_set' _ _ _ _ _ hq with ⟨_, rfl⟩ | ⟨hu, hq⟩
    · cases hqi
    · rw [hcur u hu] at hc
      obtain ⟨o', ho', rfl⟩ := List.mem_map.mp ho
      by_cases e : o'.start = a
      · simp only [returned, if_pos e] at hf
        cases hf
        exact Nat.le_of_lt (hlt u st c hc)
      · simp only [returned, if_neg e] at hf
        exact h.opened u q i st c hq hqi hc j hj o' ho' f hf

/-- A call begins. -/
theorem SInv.begins (h : SInv v s cur seg) {t : Nat} {c : Call} {r : Option Result} {cur' : Nat → Option (Nat × Call)}
    (hp : s.pcs[t]? = some (.idle r)) (hi : Inv v { s with pcs := s.pcs.set t c.begin })
    (hcur : ∀ u, u ≠ t → cur' u = cur u) : SInv v { s with pcs := s.pcs.set t c.begin } cur' seg := by
  refine ⟨hi, h.last, h.beyond, h.zero, h.gap, h.ops, fun i hi hq => h.cont_move hp (fun _ => rfl) i hi hq, ?_⟩
  intro u q i st c' hq hqi hc j hj o ho f hf
  rcases getElem?_set' _ _ _ _ _ hq with ⟨_, rfl⟩ | ⟨hu, hq⟩
  · cases c <;> cases hqi
  · rw [hcur u hu] at hc
    exact h.opened u q i st c' hq hqi hc j hj o ho f hf

end

/-- The invariant. -/
def LInv (v : Option Bytes) (k : Nat) (s : Sys) (cur : Nat → Option (Nat × Call)) (done : List Op) : Prop :=
  ∃ seg, SInv v s cur seg ∧ HInv k s.pcs cur done (flat seg (2 * s.data.length + 1))

theorem linv_initial (v : Option Bytes) (n : Nat) : LInv v 0 (Sys.initial v n) (fun _ => none) [] := by
  have hp : ∀ (t : Nat) (p : Pc), (Sys.initial v n).pcs[t]? = some p → p = .idle none := by
    intro t p h
    simp only [Sys.initial, List.getElem?_replicate] at h
    split at h
    · exact (Option.some.inj h).symm
    · cases h
  have hflat : ∀ m, flat (fun _ => []) m = [] := by
    intro m
    induction m with
    | zero => rfl
    | succ m ih => rw [flat_succ, ih]; rfl
  refine ⟨fun _ => [], ⟨inv_initial v n, ?_, fun _ _ => rfl, ⟨trivial, rfl⟩, ?_, fun _ => trivial, ?_, ?_⟩, ?_⟩
  · intro i hi
    cases v with
    | none => cases hi
    | some b => cases hi; exact ⟨rfl, rfl⟩
  · intro i h0 hi st
    cases v with
    | none =>
      rcases hi with hi | ⟨hi, _⟩ <;> simp [Sys.initial] at hi <;> omega
    | some b =>
      rcases hi with hi | ⟨_, hi⟩
      · simp [Sys.initial] at hi; omega
      · cases hi
  · intro i hi _
    cases v with
    | none => simp [Sys.initial] at hi
    | some b =>
      have : i = 0 := by simpa [Sys.initial] using hi
      subst this
      rfl
  · intro t p i st c _ _ hc
    cases hc
  · rw [hflat]
    refine ⟨by simp, by simp, by simp, by simp, ?_, ?_, ?_, ?_, ?_, ?_, by simp⟩
    · intro t p st c _ _ hc; cases hc
    · intro t p st c _ _ hc; cases hc
    · intro t p h1 h2; exact absurd (hp t p h1) (h2 none)
    · intro _ _ _; rfl
    · intro _ _ _ hc; cases hc
    · intro _ _ _ _ _ hc; cases hc

section
variable {v : Option Bytes} {k : Nat} {s s' : Sys} {cur : Nat → Option (Nat × Call)} {done : List Op} {t : Nat}

theorem linv_start {c : Call} (h : LInv v k s cur done) (hs : s.start t c = some s') :
    LInv v (k + 1) s' (upd cur t (some (k, c))) done := by
  obtain ⟨seg, h1, h2⟩ := h
  have hi := inv_start h1.inv hs
  unfold Sys.start at hs
  split at hs
  · rename_i r hp
    cases hs
    exact ⟨seg, h1.begins hp hi (fun u hu => by simp [upd, hu]), h2.begins hp⟩
  · cases hs

/-- What a step of a thread has to give: the invariant, with the call among those that returned if it did. -/
def Kept (v : Option Bytes) (k : Nat) (s' : Sys) (cur : Nat → Option (Nat × Call)) (done : List Op) (t : Nat) : Prop :=
  ((∀ r, s'.pcs[t]? ≠ some (.idle r)) ∧ LInv v (k + 1) s' cur done) ∨
  ∃ r st c, s'.pcs[t]? = some (.idle (some r)) ∧ cur t = some (st, c) ∧
    LInv v (k + 1) s' (upd cur t none) (⟨t, st, c, some (k, r)⟩ :: done)

/-- A call that found no file returns. -/
theorem kept_absent {seg : Nat → List Op} (h1 : SInv v s cur seg)
    (h2 : HInv k s.pcs cur done (flat seg (2 * s.data.length + 1))) {p : Pc} {r : Result} {c : Call}
    (hp : s.pcs[t]? = some p) (hw : ∀ i, p.writing i = false) (he : s.entry = none) (hni : ∀ r, p ≠ .idle r)
    (hpl : p.placed = false) (hi : Inv v { s with pcs := s.pcs.set t (.idle (some r)) })
    (hof : ∀ c', p.Of c' → c' = c) (hx : ∀ st, (Op.mk t st c (some (k, r))).Loose none ∧
      (Op.mk t st c (some (k, r))).after none = none) :
    Kept v k { s with pcs := s.pcs.set t (.idle (some r)) } cur done t := by
  obtain ⟨st, c', hc, ho⟩ := h2.curr t p hp hni
  cases hof c' ho
  refine .inr ⟨r, st, c, getElem?_set_self' hp, hc, ?_⟩
  refine ⟨_, h1.absent (k := k) (x := ⟨t, st, c, some (k, r)⟩) he hp hw hi rfl (fun u hu => by simp [upd, hu])
    h2.curLt (hx st).1 (hx st).2 (by simp), ?_⟩
  obtain ⟨l1, l2, e1, e2, e3⟩ := flat_insert seg (2 * s.data.length) ⟨t, st, c, some (k, r)⟩
    (2 * s.data.length + 1) (by omega)
  rw [e1] at h2
  show HInv (k + 1) _ _ _ (flat _ (2 * s.data.length + 1))
  rw [e2]
  refine h2.add hp hpl hc ?_
  intro b hb
  obtain ⟨i, a1, a2, _⟩ := e3 b hb
  omega

/-- A call that used a file returns. -/
theorem kept_used {seg : Nat → List Op} (h1 : SInv v s cur seg)
    (h2 : HInv k s.pcs cur done (flat seg (2 * s.data.length + 1))) {p : Pc} {r : Result} {c : Call} {i0 : Nat}
    {log' : List Bytes} (hp : s.pcs[t]? = some p) (hino : p.ino = some i0)
    (hw : ∀ i, i ≠ i0 → p.writing i = false) (hni : ∀ r, p ≠ .idle r)
    (hpl : p.placed = false) (hi : Inv v { s with pcs := s.pcs.set t (.idle (some r)), log := log' })
    (hof : ∀ c', p.Of c' → c' = c)
    (hx : ∀ st, (Op.mk t st c (some (k, r))).Loose (afterAll (beginsWith v i0) (seg (2 * i0 + 1))) ∧
      s.content i0 = ((Op.mk t st c (some (k, r))).after (afterAll (beginsWith v i0) (seg (2 * i0 + 1)))).getD []) :
    Kept v k { s with pcs := s.pcs.set t (.idle (some r)), log := log' } cur done t := by
  obtain ⟨st, c', hc, ho⟩ := h2.curr t p hp hni
  cases hof c' ho
  have hlt := h1.inv.ino t p i0 hp hino
  refine .inr ⟨r, st, c, getElem?_set_self' hp, hc, ?_⟩
  refine ⟨_, h1.used (k := k) (x := ⟨t, st, c, some (k, r)⟩) hp hlt hi rfl hw (fun u hu => by simp [upd, hu])
    h2.curLt (hx st).1 (hx st).2 (by simp), ?_⟩
  obtain ⟨l1, l2, e1, e2, e3⟩ := flat_insert seg (2 * i0 + 1) ⟨t, st, c, some (k, r)⟩
    (2 * s.data.length + 1) (by omega)
  rw [e1] at h2
  show HInv (k + 1) _ _ _ (flat _ (2 * s.data.length + 1))
  rw [e2]
  refine h2.add hp hpl hc ?_
  intro b hb f hf
  obtain ⟨j, a1, a2, a3⟩ := e3 b hb
  exact h1.opened t p i0 st c hp hino hc j a1 b a3 f hf

/-- A step in which no call gets a place. -/
theorem kept_move {seg : Nat → List Op} (h1 : SInv v s cur seg)
    (h2 : HInv k s.pcs cur done (flat seg (2 * s.data.length + 1))) {p p' : Pc}
    (hp : s.pcs[t]? = some p) (hi : Inv v { s with pcs := s.pcs.set t p' }) (hw : ∀ i, p.writing i = false)
    (hino : ∀ i, p'.ino = some i → p.ino = some i ∨ s.entry = some i) (hni : ∀ r, p ≠ .idle r)
    (hni' : ∀ r, p' ≠ .idle r) (hof : ∀ c, p.Of c → p'.Of c) (hpl : p'.placed = p.placed) :
    Kept v k { s with pcs := s.pcs.set t p' } cur done t := by
  refine .inl ⟨?_, seg, h1.move hp hi hw hino, h2.silent hp hni hni' hof hpl⟩
  intro r e
  rw [show ({ s with pcs := s.pcs.set t p' } : Sys).pcs[t]? = _ from getElem?_set_self' hp] at e
  exact hni' r (Option.some.inj e)

/-- A step of a writer. -/
theorem kept_write {seg : Nat → List Op} (h1 : SInv v s cur seg)
    (h2 : HInv k s.pcs cur done (flat seg (2 * s.data.length + 1))) {p p' : Pc} {i : Nat} {x : Bytes}
    (hp : s.pcs[t]? = some p) (hi : Inv v { s with data := s.data.set i x, pcs := s.pcs.set t p' })
    (hw : ∀ j, j ≠ i → p.writing j = false) (hw' : p'.writing i = true)
    (hino : ∀ i, p'.ino = some i → p.ino = some i) (hni : ∀ r, p ≠ .idle r)
    (hni' : ∀ r, p' ≠ .idle r) (hof : ∀ c, p.Of c → p'.Of c) (hpl : p'.placed = p.placed) :
    Kept v k { s with data := s.data.set i x, pcs := s.pcs.set t p' } cur done t := by
  refine .inl ⟨?_, seg, h1.silent (by simp) hi ?_ hp (fun i hi => .inl (hino i hi)), ?_⟩
  · intro r e
    rw [show (s.pcs.set t p')[t]? = _ from getElem?_set_self' hp] at e
    exact hni' r (Option.some.inj e)
  · intro j hj hq
    by_cases e : j = i
    · have := hq t p' (getElem?_set_self' hp)
      rw [e, hw'] at this
      cases this
    · have : (Sys.mk s.entry (s.data.set i x) (s.pcs.set t p') s.log).content j = s.content j := by
        simp only [Sys.content]
        rw [List.getElem?_set, if_neg (fun a => e a.symm)]
      rw [this]
      apply h1.cont j hj
      intro u q e'
      by_cases hu : u = t
      · rw [hu, hp] at e'
        cases e'
        exact hw j e
      · exact hq u q (by rw [List.getElem?_set, if_neg (fun a => hu a.symm)]; exact e')
  · simpa only [List.length_set] using h2.silent hp hni hni' hof hpl

/-- What a value that a reader has read to the end is. -/
theorem SInv.read {seg : Nat → List Op} (h1 : SInv v s cur seg) {i : Nat} {acc : Bytes}
    (hp : s.pcs[t]? = some (.getRead i acc)) (hg : (s.content i)[acc.length]? = none) :
    acc = (afterAll (beginsWith v i) (seg (2 * i + 1))).getD [] ∧ s.content i = acc := by
  have hlt := h1.inv.ino t _ i hp rfl
  have hrd := h1.inv.rd t i acc hp
  have hlen := List.getElem?_eq_none_iff.mp hg
  have hacc : acc = s.content i := by
    rw [hrd.2, List.take_of_length_le hlen]
  refine ⟨?_, hacc.symm⟩
  rw [hacc]
  apply h1.cont i hlt
  intro u q hq
  by_cases hu : u = t
  · rw [hu, hp] at hq
    cases hq
    rfl
  · cases hx : q.writing i with
    | false => rfl
    | true =>
      have hex : q.exclusive i = true := by cases q <;> first | exact hx | (cases hx)
      have := h1.inv.ex u t q _ i hq hp hu hex
      simp [Pc.holds] at this

theorem linv_advance (h : LInv v k s cur done) (hs : s.advance t = some s') : Kept v k s' cur done t := by
  obtain ⟨seg, h1, h2⟩ := h
  have hi := inv_advance h1.inv hs
  unfold Sys.advance at hs
  split at hs
  · rename_i p hp
    split at hs
    · rename_i p' s1 hn
      cases hs
      cases p with
      | idle r => cases hn
      | getCheck =>
        cases he : s.entry with
        | none =>
          simp only [Sys.next, he, Option.isSome_none, Bool.false_eq_true, if_false] at hn
          cases hn
          exact kept_absent (c := .get) h1 h2 hp (fun _ => rfl) he (by simp) rfl hi
            (by intro c' h; cases c' <;> first | rfl | (cases h)) (fun st => ⟨.inl rfl, rfl⟩)
        | some i =>
          simp only [Sys.next, he, Option.isSome_some, if_true] at hn
          cases hn
          exact kept_move h1 h2 hp hi (fun _ => rfl) (by simp [Pc.ino]) (by simp) (by simp)
            (by intro c h; cases c <;> first | trivial | (cases h)) rfl
      | getOpen =>
        cases he : s.entry with
        | none =>
          simp only [Sys.next, he] at hn
          cases hn
          exact kept_absent (c := .get) h1 h2 hp (fun _ => rfl) he (by simp) rfl hi
            (by intro c' h; cases c' <;> first | rfl | (cases h)) (fun st => ⟨.inr ⟨rfl, .inl rfl⟩, rfl⟩)
        | some i =>
          simp only [Sys.next, he] at hn
          cases hn
          exact kept_move h1 h2 hp hi (fun _ => rfl) (by intro j hj; cases hj; exact .inr he) (by simp) (by simp)
            (by intro c h; cases c <;> first | trivial | (cases h)) rfl
      | getLock i =>
        simp only [Sys.next] at hn
        split at hn
        · cases hn
        · cases hn
          exact kept_move h1 h2 hp hi (fun _ => rfl) (by intro j hj; exact .inl hj) (by simp) (by simp)
            (by intro c h; cases c <;> first | trivial | (cases h)) rfl
      | getRead i acc =>
        cases hg : (s.content i)[acc.length]? with
        | some b =>
          simp only [Sys.next, hg] at hn
          cases hn
          exact kept_move h1 h2 hp hi (fun _ => rfl) (by intro j hj; exact .inl hj) (by simp) (by simp)
            (by intro c h; cases c <;> first | trivial | (cases h)) rfl
        | none =>
          simp only [Sys.next, hg] at hn
          cases hn
          obtain ⟨e1, e2⟩ := h1.read hp hg
          refine kept_used (c := .get) h1 h2 hp rfl (fun _ _ => rfl) (by simp) rfl hi
            (by intro c' h; cases c' <;> first | rfl | (cases h)) (fun st => ⟨?_, by rw [e2]; exact e1⟩)
          cases hst : afterAll (beginsWith v i) (seg (2 * i + 1)) with
          | none =>
            rw [hst] at e1
            exact .inr ⟨rfl, .inr (by rw [e1]; rfl)⟩
          | some b =>
            rw [hst] at e1
            exact .inl (by rw [e1]; rfl)
      | setOpen w =>
        cases he : s.entry with
        | none =>
          simp only [Sys.next, he] at hn
          cases hn
          refine .inl ⟨?_, seg, h1.create he hp hi, ?_⟩
          · intro r e
            rw [getElem?_set_self' hp] at e
            cases e
          · have := h2.silent (p' := .setLock s.data.length w) hp (by simp) (by simp)
              (by intro c h; cases c <;> first | exact h | (cases h)) rfl
            simp only [List.length_append, List.length_singleton]
            rw [show 2 * (s.data.length + 1) + 1 = (2 * s.data.length + 1) + 1 + 1 by omega, flat_succ, flat_succ,
              h1.beyond _ (by omega), h1.beyond _ (by omega), List.append_nil, List.append_nil]
            exact this
        | some i =>
          simp only [Sys.next, he] at hn
          cases hn
          exact kept_move h1 h2 hp hi (fun _ => rfl) (by intro j hj; cases hj; exact .inr he) (by simp) (by simp)
            (by intro c h; cases c <;> first | exact h | (cases h)) rfl
      | setLock i w =>
        simp only [Sys.next] at hn
        split at hn
        · cases hn
        · cases hn
          exact kept_move h1 h2 hp hi (fun _ => rfl) (by intro j hj; exact .inl hj) (by simp) (by simp)
            (by intro c h; cases c <;> first | exact h | (cases h)) rfl
      | setTrunc i w =>
        simp only [Sys.next] at hn
        cases hn
        exact kept_write h1 h2 hp hi (fun _ _ => rfl) (by simp [Pc.writing]) (by intro j hj; exact hj) (by simp) (by simp)
            (by intro c h; cases c <;> first | exact h | (cases h)) rfl
      | setWrite i w m =>
        cases hg : w[m]? with
        | some b =>
          simp only [Sys.next, hg] at hn
          cases hn
          exact kept_write h1 h2 hp hi (by intro j hj; simp [Pc.writing, hj]) (by simp [Pc.writing])
            (by intro j hj; exact hj) (by simp) (by simp)
            (by intro c h; cases c <;> first | exact h | (cases h)) rfl
        | none =>
          simp only [Sys.next, hg] at hn
          cases hn
          have hwr := h1.inv.wr t i w m hp
          have hc : s.content i = w := by
            rw [hwr.2, List.take_of_length_le (List.getElem?_eq_none_iff.mp hg)]
          exact kept_used (c := .set w) h1 h2 hp rfl
            (by intro j hj; simp [Pc.writing, hj]) (by simp) rfl hi
            (by intro c' h; cases c' <;> first | (cases h; rfl) | (cases h)) (fun st => ⟨rfl, hc⟩)
      | eraCheck =>
        cases he : s.entry with
        | none =>
          simp only [Sys.next, he, Option.isSome_none, Bool.false_eq_true, if_false] at hn
          cases hn
          obtain ⟨st, c, hc, ho⟩ := h2.curr t _ hp (by simp)
          have : c = .erase := by cases c <;> first | rfl | (cases ho)
          subst this
          refine .inl ⟨?_, _, h1.absent (k := k) (x := ⟨t, st, .erase, none⟩) he hp (fun _ => rfl) hi rfl
            (fun _ _ => rfl) h2.curLt trivial rfl (by simp), ?_⟩
          · intro r e
            rw [getElem?_set_self' hp] at e
            cases e
          · have h3 := h2.place (p' := .eraFinal) hp rfl rfl hc trivial
            show HInv (k + 1) _ _ _ (flat _ (2 * s.data.length + 1))
            rw [flat_succ, flat_congr (seg' := seg) (fun j hj => by simp [upd, show j ≠ 2 * s.data.length by omega])]
            rw [flat_succ, List.append_assoc] at h3
            simpa [upd] using h3
        | some i =>
          simp only [Sys.next, he, Option.isSome_some, if_true] at hn
          cases hn
          exact kept_move h1 h2 hp hi (fun _ => rfl) (by simp [Pc.ino]) (by simp) (by simp)
            (by intro c h; cases c <;> first | trivial | (cases h)) rfl
      | eraOpen =>
        cases he : s.entry with
        | none =>
          simp only [Sys.next, he] at hn
          cases hn
          exact kept_absent (c := .erase) h1 h2 hp (fun _ => rfl) he (by simp) rfl hi
            (by intro c' h; cases c' <;> first | rfl | (cases h)) (fun st => ⟨.inr ⟨rfl, rfl⟩, rfl⟩)
        | some i =>
          simp only [Sys.next, he] at hn
          cases hn
          exact kept_move h1 h2 hp hi (fun _ => rfl) (by intro j hj; cases hj; exact .inr he) (by simp) (by simp)
            (by intro c h; cases c <;> first | trivial | (cases h)) rfl
      | eraLock i =>
        simp only [Sys.next] at hn
        split at hn
        · cases hn
        · cases hn
          exact kept_move h1 h2 hp hi (fun _ => rfl) (by intro j hj; exact .inl hj) (by simp) (by simp)
            (by intro c h; cases c <;> first | trivial | (cases h)) rfl
      | eraUnlink i =>
        cases he : s.entry with
        | none =>
          simp only [Sys.next, he, Option.isSome_none, Bool.false_eq_true, if_false] at hn
          cases hn
          exact kept_absent (c := .erase) h1 h2 hp (fun _ => rfl) he (by simp) rfl hi
            (by intro c' h; cases c' <;> first | rfl | (cases h)) (fun st => ⟨.inr ⟨rfl, rfl⟩, rfl⟩)
        | some i1 =>
          simp only [Sys.next, he, Option.isSome_some, if_true] at hn
          cases hn
          obtain ⟨st, c, hc, ho⟩ := h2.curr t _ hp (by simp)
          have : c = .erase := by cases c <;> first | rfl | (cases ho)
          subst this
          refine .inl ⟨?_, _, h1.unlink (x := ⟨t, st, .erase, none⟩) he hp hi (fun st => ⟨trivial, rfl⟩) rfl, ?_⟩
          · intro r e
            rw [getElem?_set_self' hp] at e
            cases e
          · have h3 := h2.place (p' := .eraClose i) hp rfl rfl hc trivial
            show HInv (k + 1) _ _ _ (flat _ (2 * s.data.length + 1))
            rw [flat_succ, flat_congr (seg' := seg) (fun j hj => by simp [upd, show j ≠ 2 * s.data.length by omega])]
            rw [flat_succ, List.append_assoc] at h3
            simpa [upd] using h3
      | eraClose i =>
        simp only [Sys.next] at hn
        cases hn
        exact kept_move h1 h2 hp hi (fun _ => rfl) (by simp [Pc.ino]) (by simp) (by simp)
            (by intro c h; cases c <;> first | trivial | (cases h)) rfl
      | eraFinal =>
        simp only [Sys.next] at hn
        cases hn
        obtain ⟨st, c, hc, ho⟩ := h2.curr t _ hp (by simp)
        refine .inr ⟨_, st, c, getElem?_set_self' hp, hc, _,
          h1.finish (a := st) (k := k) hp hi (fun u hu => by simp [upd, hu]) h2.curLt ?_, ?_⟩
        · intro j o ho' e
          have hj : j < 2 * s.data.length + 1 := by
            apply Nat.lt_of_not_le
            intro hj
            rw [h1.beyond j (by omega)] at ho'
            cases ho'
          obtain ⟨o0, ho0, e0, hf0⟩ := h2.lin t _ st c hp rfl hc
          rw [start_inj h2.nodup (mem_flat.mpr ⟨j, hj, ho'⟩) ho0 (e.trans e0.symm)]
          exact (h2.pend o0 ho0 hf0).1
        · show HInv (k + 1) _ _ _ (flat _ (2 * s.data.length + 1))
          rw [flat_map]
          exact h2.finish hp rfl hc
    · cases hs
  · cases hs

end

/-! ## C118 -/

theorem linv_timed {P : Call → Prop} {v : Option Bytes} {n k : Nat} {s : Sys} {cur : Nat → Option (Nat × Call)}
    {done : List Op} (h : Timed P v n k s cur done) : LInv v k s cur done := by
  induction h with
  | init => exact linv_initial v n
  | start _ _ hs ih => exact linv_start ih hs
  | go _ hs hn ih =>
    rcases linv_advance ih hs with ⟨_, h⟩ | ⟨r, _, _, hr, _⟩
    · exact h
    · exact absurd hr (hn _)
  | @finish k s s' cur done t st c r _ hs hr hc ih =>
    rcases linv_advance ih hs with ⟨h, _⟩ | ⟨r', st', c', hr', hc', h⟩
    · exact absurd hr (h _)
    · rw [hr] at hr'
      cases hr'
      rw [hc] at hc'
      cases hc'
      exact h

/-- Every run is a run with a clock. -/
theorem timed_of_reach {P : Call → Prop} {v : Option Bytes} {n : Nat} {s : Sys} (h : Reach P (Sys.initial v n) s) :
    ∃ k cur done, Timed P v n k s cur done := by
  induction h with
  | refl => exact ⟨_, _, _, .init⟩
  | step _ hs ih =>
    obtain ⟨k, cur, done, h⟩ := ih
    cases hs with
    | start t c hc hs => exact ⟨_, _, _, h.start hc hs⟩
    | advance t hs =>
      rcases linv_advance (linv_timed h) hs with ⟨hn, _⟩ | ⟨r, st, c, hr, hc, _⟩
      · exact ⟨_, _, _, h.go hs hn⟩
      · exact ⟨_, _, _, h.finish hs hr hc⟩

/-- C118 (partial). Any number of threads call `get`, `set` and `erase` for one key, in any order and any
interleaving of their system calls, with files that lose their name while they are open. The calls that have
returned, and some `erase`s that are under way, can be put in one sequence that keeps the order of calls that
do not overlap and in which every call has a result it may have: `get` gives the value that the calls before
it left. Only when there is no value at its place in the sequence a call may fail with `NotFound` or a `get` give an
empty value, and `erase` may say that it did not erase. -/
theorem C118_partial (P : Call → Prop) (v : Option Bytes) (n k : Nat) (s : Sys) (cur : Nat → Option (Nat × Call))
    (done : List Op) (h : Timed P v n k s cur done) : Linearizable Op.Loose v cur done := by
  obtain ⟨seg, h1, h2⟩ := linv_timed h
  refine ⟨_, h2.nodup, h2.dn, ?_, h2.rt, h1.served⟩
  intro o ho hf
  obtain ⟨e1, e2, _⟩ := h2.pend o ho hf
  rw [e1]
  exact e2

/-- Only calls that were made are in the sequence. -/
theorem timed_calls {P : Call → Prop} {v : Option Bytes} {n k : Nat} {s : Sys} {cur : Nat → Option (Nat × Call)}
    {done : List Op} (h : Timed P v n k s cur done) :
    (∀ o ∈ done, P o.call) ∧ ∀ t st c, cur t = some (st, c) → P c := by
  induction h with
  | init => exact ⟨by simp, by simp⟩
  | @start k s s' cur done t c _ hc _ ih =>
    refine ⟨ih.1, ?_⟩
    intro u st c' hu
    by_cases e : u = t
    · simp only [upd, if_pos e] at hu
      cases hu
      exact hc
    · simp only [upd, if_neg e] at hu
      exact ih.2 u st c' hu
  | go _ _ _ ih => exact ih
  | @finish k s s' cur done t st c r _ _ _ hc ih =>
    refine ⟨?_, ?_⟩
    · intro o ho
      rcases List.mem_cons.mp ho with rfl | ho
      · exact ih.2 t st c hc
      · exact ih.1 o ho
    · intro u st' c' hu
      by_cases e : u = t
      · simp only [upd, if_pos e] at hu
        cases hu
      · simp only [upd, if_neg e] at hu
        exact ih.2 u st' c' hu

/-- C118 (partial). If the key has a value at first and nobody erases it, the calls can be put in a sequence
in which they have exactly the results of calls made one after the other. -/
theorem C118_partial_kept (v : Bytes) (n k : Nat) (s : Sys) (cur : Nat → Option (Nat × Call)) (done : List Op)
    (h : Timed (· ≠ .erase) (some v) n k s cur done) : Linearizable Op.Exact (some v) cur done := by
  obtain ⟨L, h1, h2, h3, h4, h5⟩ := C118_partial _ _ _ _ _ _ _ h
  refine ⟨L, h1, h2, h3, h4, ?_⟩
  have hcalls : ∀ o ∈ L, o.call ≠ .erase := by
    intro o ho
    cases hf : o.finish with
    | none => exact (timed_calls h).2 _ _ _ (h3 o ho hf)
    | some f => exact (timed_calls h).1 o ((h2 o (by rw [hf]; rfl)).mpr ho)
  have key : ∀ (l : List Op) (b : Bytes), (∀ o ∈ l, o.call ≠ .erase) → AllServed Op.Loose (some b) l →
      AllServed Op.Exact (some b) l := by
    intro l
    induction l with
    | nil => intro _ _ _; trivial
    | cons o l ih =>
      rintro b hl ⟨ho, hrest⟩
      have hne := hl o (by simp)
      have hafter : ∃ b', o.after (some b) = some b' := by
        unfold Op.after
        cases hc : o.call with
        | get => exact ⟨b, rfl⟩
        | set w => exact ⟨w, rfl⟩
        | erase => exact absurd hc hne
      obtain ⟨b', hb'⟩ := hafter
      refine ⟨?_, ?_⟩
      · unfold Op.Loose at ho
        unfold Op.Exact
        cases hf : o.finish with
        | none => trivial
        | some f =>
          rw [hf] at ho
          cases hc : o.call with
          | get =>
            rw [hc] at ho
            rcases ho with ho | ⟨ho, _⟩
            · exact ho
            · cases ho
          | set w =>
            rw [hc] at ho
            exact ho
          | erase => exact absurd hc hne
      · rw [hb'] at hrest ⊢
        exact ih b' (fun o ho => hl o (by simp [ho])) hrest
  exact key L v hcalls h5

/-! ## Runs that have no such sequence -/

/-- A run with its clock. -/
structure Clocked where
  time : Nat
  sys : Sys
  cur : Nat → Option (Nat × Call)
  done : List Op

/-- One step of a schedule. -/
def Clocked.step (x : Clocked) (t : Nat) : Option Call → Option Clocked
  | some c => (x.sys.start t c).map fun s' => ⟨x.time + 1, s', upd x.cur t (some (x.time, c)), x.done⟩
  | none =>
    (x.sys.advance t).bind fun s' =>
      match s'.pcs[t]?, x.cur t with
      | some (.idle (some r)), some (st, c) =>
        some ⟨x.time + 1, s', upd x.cur t none, ⟨t, st, c, some (x.time, r)⟩ :: x.done⟩
      | some (.idle _), _ => none
      | _, _ => some ⟨x.time + 1, s', x.cur, x.done⟩

/-- A schedule. -/
def Clocked.run (x : Clocked) : List (Nat × Option Call) → Option Clocked
  | [] => some x
  | (t, c) :: l => (x.step t c).bind fun y => y.run l

theorem Clocked.timed {v : Option Bytes} {n : Nat} : ∀ (l : List (Nat × Option Call)) (x y : Clocked),
    Timed (fun _ => True) v n x.time x.sys x.cur x.done → x.run l = some y →
    Timed (fun _ => True) v n y.time y.sys y.cur y.done
  | [], x, y, h, hr => by cases hr; exact h
  | (t, c) :: l, x, y, h, hr => by
    simp only [Clocked.run] at hr
    cases hs : x.step t c with
    | none => rw [hs] at hr; cases hr
    | some z =>
      rw [hs] at hr
      refine Clocked.timed l z y ?_ hr
      cases c with
      | some c =>
        simp only [Clocked.step, Option.map_eq_some_iff] at hs
        obtain ⟨s', e, rfl⟩ := hs
        exact h.start trivial e
      | none =>
        simp only [Clocked.step, Option.bind_eq_some_iff] at hs
        obtain ⟨s', e, hs⟩ := hs
        split at hs
        · rename_i r st c hr' hc
          cases hs
          exact h.finish e hr' hc
        · cases hs
        · rename_i h1 _
          cases hs
          exact h.go e h1

/-- A run from the start. -/
theorem Clocked.timed_init {v : Option Bytes} {n : Nat} (l : List (Nat × Option Call)) (y : Clocked)
    (h : (Clocked.mk 0 (Sys.initial v n) (fun _ => none) []).run l = some y) :
    Timed (fun _ => True) v n y.time y.sys y.cur y.done := Clocked.timed l _ y .init h

theorem allServed_mem {ok : Option Bytes → Op → Prop} {o : Op} : ∀ {st : Option Bytes} {l : List Op},
    AllServed ok st l → o ∈ l → ∃ st', ok st' o
  | _, [], _, h => by cases h
  | st, a :: l, ⟨h1, h2⟩, h => by
    rcases List.mem_cons.mp h with rfl | h
    · exact ⟨st, h1⟩
    · exact allServed_mem h2 h

/-- A value that is read was there or was set. -/
theorem exact_get {o : Op} {b : Bytes} {f : Nat} (hc : o.call = .get) (hf : o.finish = some (f, .got (some b))) :
    ∀ {st : Option Bytes} {l : List Op}, AllServed Op.Exact st l → o ∈ l →
      st = some b ∨ ∃ o' ∈ l, o'.call = .set b
  | _, [], _, h => by cases h
  | st, a :: l, ⟨h1, h2⟩, h => by
    rcases List.mem_cons.mp h with rfl | h
    · simp only [Op.Exact, hf, hc] at h1
      cases h1
      exact .inl rfl
    · rcases exact_get hc hf h2 h with e | ⟨o', ho', e⟩
      · unfold Op.after at e
        cases hca : a.call with
        | get => rw [hca] at e; exact .inl e
        | set w => rw [hca] at e; cases e; exact .inr ⟨a, by simp, hca⟩
        | erase => rw [hca] at e; cases e
      · exact .inr ⟨o', by simp [ho'], e⟩

/-- C118 (violated). There are runs that no sequence explains exactly. While the key gets its first value
`w`, a `get` returns an empty value. While it is erased, a `get` fails with `NotFound`, and so does another
`erase`. While it is set again, the `erase` that removed it returns `false`. -/
theorem C118_violated (v w : Bytes) (hw : w ≠ []) :
    (∃ k s cur st f, Timed (fun _ => True) none 2 k s cur [⟨1, st, .get, some (f, .got (some []))⟩] ∧
      cur 0 = some (0, .set w) ∧
      ¬ Linearizable Op.Exact none cur [⟨1, st, .get, some (f, .got (some []))⟩]) ∧
    (∃ k s cur o d st f, Timed (fun _ => True) (some v) 2 k s cur [⟨o, st, .get, some (f, .notFound)⟩, d] ∧
      ¬ Linearizable Op.Exact (some v) cur [⟨o, st, .get, some (f, .notFound)⟩, d]) ∧
    (∃ k s cur o d st f, Timed (fun _ => True) (some v) 2 k s cur [⟨o, st, .erase, some (f, .notFound)⟩, d] ∧
      ¬ Linearizable Op.Exact (some v) cur [⟨o, st, .erase, some (f, .notFound)⟩, d]) ∧
    (∃ k s cur o st f, Timed (fun _ => True) (some v) 2 k s cur [⟨o, st, .erase, some (f, .erased false)⟩] ∧
      ¬ Linearizable Op.Exact (some v) cur [⟨o, st, .erase, some (f, .erased false)⟩]) := by
  have h1 := Clocked.timed_init (v := none) (n := 2)
      [(0, some (.set w)), (0, none), (1, some .get), (1, none), (1, none), (1, none), (1, none)] _ rfl
  have h2 := Clocked.timed_init (v := some v) (n := 2)
      [(1, some .get), (1, none), (0, some .erase), (0, none), (0, none), (0, none), (0, none), (0, none), (0, none),
        (1, none)] _ rfl
  have h3 := Clocked.timed_init (v := some v) (n := 2)
      [(1, some .erase), (1, none), (0, some .erase), (0, none), (0, none), (0, none), (0, none), (0, none), (0, none),
        (1, none)] _ rfl
  have h4 := Clocked.timed_init (v := some v) (n := 2)
      [(0, some .erase), (0, none), (0, none), (0, none), (0, none), (0, none), (1, some (.set w)), (1, none),
        (0, none)] _ rfl
  refine ⟨⟨_, _, _, _, _, h1, rfl, ?_⟩, ⟨_, _, _, _, _, _, _, h2, ?_⟩, ⟨_, _, _, _, _, _, _, h3, ?_⟩,
    ⟨_, _, _, _, _, _, h4, ?_⟩⟩
  · rintro ⟨L, _, h2, h3, _, h5⟩
    have hm := (h2 ⟨1, 2, .get, some (6, .got (some []))⟩ rfl).mp (by simp)
    rcases exact_get rfl rfl h5 hm with e | ⟨o, ho, hc⟩
    · cases e
    · cases hf : o.finish with
      | some f =>
        have := (h2 o (by rw [hf]; rfl)).mpr ho
        cases List.mem_singleton.mp this
        cases hc
      | none =>
        have := h3 o ho hf
        simp only [upd] at this
        split at this
        · cases this
        · split at this
          · have hce : Call.set w = o.call := congrArg Prod.snd (Option.some.inj this)
            rw [hc] at hce
            cases hce
            exact hw rfl
          · cases this
  · rintro ⟨L, _, h2, _, _, h5⟩
    obtain ⟨st, h⟩ := allServed_mem h5 ((h2 _ rfl).mp (List.mem_cons_self ..))
    cases h
  · rintro ⟨L, _, h2, _, _, h5⟩
    obtain ⟨st, h⟩ := allServed_mem h5 ((h2 _ rfl).mp (List.mem_cons_self ..))
    cases h
  · rintro ⟨L, _, h2, _, _, h5⟩
    obtain ⟨st, h⟩ := allServed_mem h5 ((h2 _ rfl).mp (List.mem_cons_self ..))
    cases h

/-- A run that C118 is about: thread 0 sets the key, thread 1 erases it after thread 0 opened the file, thread 2
has the same file open and reads what thread 0 wrote into it after it lost its name. The sequence is set,
get, erase, get. -/
example : ((Clocked.mk 0 (Sys.initial (some [1, 2]) 3) (fun _ => none) []).run
    [(0, some (.set [3, 4])), (0, none), (2, some .get), (2, none), (2, none), (1, some .erase), (1, none),
     (1, none), (1, none), (1, none), (1, none), (1, none), (0, none), (0, none), (0, none), (0, none), (0, none),
     (2, none), (2, none), (2, none), (2, none), (2, some .get), (2, none)]).map (·.done) =
    some [⟨2, 21, .get, some (22, .got none)⟩, ⟨2, 2, .get, some (20, .got (some [3, 4]))⟩,
      ⟨0, 0, .set [3, 4], some (16, .wrote)⟩, ⟨1, 5, .erase, some (11, .erased true)⟩] := by
  decide

/-- Results that no sequence explains, not even loosely: the new value is read and later the old one. -/
example : ¬ Linearizable Op.Loose (some [1, 2]) (fun _ => none)
    [⟨0, 6, .get, some (7, .got (some [1, 2]))⟩, ⟨0, 4, .get, some (5, .got (some [3, 4]))⟩,
      ⟨1, 0, .set [3, 4], some (9, .wrote)⟩] := by
  rintro ⟨L, h1, h2, h3, h4, h5⟩
  have hm : ∀ o, o ∈ L ↔ o = ⟨0, 6, .get, some (7, .got (some [1, 2]))⟩ ∨
      o = ⟨0, 4, .get, some (5, .got (some [3, 4]))⟩ ∨ o = ⟨1, 0, .set [3, 4], some (9, .wrote)⟩ := by
    intro o
    cases hf : o.finish with
    | none =>
      refine ⟨fun ho => absurd (h3 o ho hf) (by simp), ?_⟩
      rintro (rfl | rfl | rfl) <;> cases hf
    | some f => rw [← h2 o (by rw [hf]; rfl)]; simp
  have stay : ∀ (l : List Op), (∀ o ∈ l, o ∈ L) → AllServed Op.Loose (some [3, 4]) l →
      ⟨0, 6, .get, some (7, .got (some [1, 2]))⟩ ∉ l := by
    intro l
    induction l with
    | nil => simp
    | cons a l ih =>
      rintro hl ⟨e1, e2⟩ ha
      have e3 : a.after (some [3, 4]) = some [3, 4] := by
        rcases (hm a).mp (hl a (by simp)) with rfl | rfl | rfl <;> rfl
      rw [e3] at e2
      rcases List.mem_cons.mp ha with rfl | ha
      · simp [Op.Loose] at e1
      · exact ih (fun o ho => hl o (by simp [ho])) e2 ha
  obtain ⟨l1, l2, rfl⟩ := List.append_of_mem ((hm _).mpr (.inr (.inl rfl)))
  rw [allServed_append] at h5
  obtain ⟨_, h6, h7⟩ := h5
  have h8 : afterAll (some [1, 2]) l1 = some [3, 4] := by
    simp only [Op.Loose, Result.got.injEq] at h6
    rcases h6 with h6 | ⟨_, h6⟩
    · exact h6.symm
    · simp at h6
  rw [h8] at h7
  have hA := (hm ⟨0, 6, .get, some (7, .got (some [1, 2]))⟩).mpr (.inl rfl)
  rcases List.mem_append.mp hA with hA | hA
  · have := (List.pairwise_append.mp h4).2.2 _ hA _ (List.mem_cons_self ..) _ rfl
    simp at this
  · rcases List.mem_cons.mp hA with hA | hA
    · cases hA
    · exact stay l2 (fun o ho => by simp [ho]) h7 hA

end Locks
end Zarr
