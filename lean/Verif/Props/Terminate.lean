import Verif.Props.Atomic
import Verif.Demo
/-!
# Concurrent calls end: C80
-/

namespace Zarr.Threads

variable {α : Type}

/-! ## A measure of the rest of a thread -/

/-- What may follow a store call. -/
inductive Sub : Prog α → Prog α → Prop where
  | exists (key : Str) (k : Outcome Bool → Prog α) (r : Outcome Bool) : Sub (k r) (.exists key k)
  | get (key : Str) (k : Outcome (Option Bytes) → Prog α) (r : Outcome (Option Bytes)) : Sub (k r) (.get key k)
  | set (key : Str) (v : Bytes × Outcome Unit) (k : Outcome Unit → Prog α) (r : Outcome Unit) : Sub (k r) (.set key v k)
  | erase (key : Str) (k : Outcome Bool → Prog α) (r : Outcome Bool) : Sub (k r) (.erase key k)

theorem Sub.acc (p : Prog α) : Acc Sub p := by
  induction p with
  | done r => exact ⟨_, fun q hq => by cases hq⟩
  | «exists» key k ih => exact ⟨_, fun q hq => by cases hq; exact ih _⟩
  | get key k ih => exact ⟨_, fun q hq => by cases hq; exact ih _⟩
  | set key v k ih => exact ⟨_, fun q hq => by cases hq; exact ih _⟩
  | erase key k ih => exact ⟨_, fun q hq => by cases hq; exact ih _⟩

/-- The program without what the first call is about. -/
def Prog.bare : Prog α → Prog α
  | .done r => .done r
  | .exists _ k => .exists [] k
  | .get _ k => .get [] k
  | .set _ _ k => .set [] ([], .ok ()) k
  | .erase _ k => .erase [] k

/-- The rest of the program, the phase of the call in progress, what is left of the phase. -/
def Pc.rest (fs : Fs) : Pc α → Prog α × Nat × Nat
  | .prog p => (p.bare, 9, 0)
  | .getOpen _ k => (.get [] k, 8, 0)
  | .getLock _ k => (.get [] k, 7, 0)
  | .getRead l acc k => (.get [] k, 6, (content fs l).length - acc.length)
  | .mkdirDown _ n _ k => (.set [] ([], .ok ()) k, 8, n)
  | .mkdirDir p n _ _ k => (.set [] ([], .ok ()) k, 7, max (2 * (p.length - n)) 2)
  | .mkdirUp p n _ k => (.set [] ([], .ok ()) k, 7, 2 * (p.length - n) + 1)
  | .setOpen _ _ k => (.set [] ([], .ok ()) k, 6, 0)
  | .setLock _ _ k => (.set [] ([], .ok ()) k, 5, 0)
  | .setTrunc _ _ k => (.set [] ([], .ok ()) k, 4, 0)
  | .setWrite _ v n k => (.set [] ([], .ok ()) k, 3, v.1.length - n)
  | .eraOpen _ k => (.erase [] k, 8, 0)
  | .eraLock _ _ k => (.erase [] k, 7, 0)
  | .eraUnlink _ _ k => (.erase [] k, 6, 0)
  | .eraFinal _ k => (.erase [] k, 5, 0)

/-- Less is left: a later call, or a later phase, or less of the phase. -/
inductive Less : Prog α × Nat × Nat → Prog α × Nat × Nat → Prop where
  | call {p p' : Prog α} {a b a' b' : Nat} (h : Sub p p') : Less (p.bare, a, b) (p', a', b')
  | phase {p : Prog α} {a b a' b' : Nat} (h : a < a') : Less (p, a, b) (p, a', b')
  | part {p : Prog α} {a b b' : Nat} (h : b < b') : Less (p, a, b) (p, a, b')

theorem Sub.bare {p q : Prog α} (h : Sub p q.bare) : Sub p q := by
  cases q <;> cases h <;> constructor

theorem Less.acc (x : Prog α × Nat × Nat) : Acc Less x := by
  obtain ⟨p, a, b⟩ := x
  have main : ∀ p : Prog α, (∀ q, Sub q p → ∀ a b, Acc Less (q.bare, a, b)) → ∀ a b, Acc Less (p, a, b) := by
    intro p ih a
    induction a using Nat.strongRecOn with
    | _ a iha =>
      intro b
      induction b using Nat.strongRecOn with
      | _ b ihb =>
        refine ⟨_, fun y hy => ?_⟩
        cases hy with
        | call h => exact ih _ h _ _
        | phase h => exact iha _ h _
        | part h => exact ihb _ h
  have bare : ∀ a b, Acc Less (p.bare, a, b) := by
    induction Sub.acc p with
    | intro p _ ih => exact main _ fun q hq => ih q hq.bare
  refine main p (fun q hq => ?_) a b
  have := Sub.acc q
  clear hq
  induction this with
  | intro q _ ih => exact main _ fun r hr => ih r hr.bare

/-! ## Steps -/

variable {h : Hier} {pcs : List (Pc α)} {fs fs' : Fs} {pc pc' : Pc α}

/-- A step leaves less to do. -/
theorem Pc.next_less (hn : pc.next h pcs fs = some (pc', fs')) : Less (pc'.rest fs') (pc.rest fs) := by
  cases pc with
  | prog p =>
    cases p with
    | done r => simp [Pc.next] at hn
    | «exists» key k =>
      simp only [Pc.next] at hn
      split at hn <;> simp only [Option.some.injEq, Prod.mk.injEq] at hn <;> obtain ⟨rfl, rfl⟩ := hn <;>
        exact .call (.exists _ _ _)
    | get key k =>
      simp only [Pc.next] at hn
      split at hn <;> simp only [Option.some.injEq, Prod.mk.injEq] at hn <;> obtain ⟨rfl, rfl⟩ := hn
      · split
        · exact .phase (by decide)
        · exact .call (.get _ _ _)
      · exact .call (.get _ _ _)
      · exact .call (.get _ _ _)
    | set key v k =>
      simp only [Pc.next] at hn
      split at hn <;> simp only [Option.some.injEq, Prod.mk.injEq] at hn <;> obtain ⟨rfl, rfl⟩ := hn
      · split
        · exact .phase (by decide)
        · exact .phase (by decide)
      · exact .call (.set _ _ _ _)
      · exact .call (.set _ _ _ _)
    | erase key k =>
      simp only [Pc.next] at hn
      split at hn <;> simp only [Option.some.injEq, Prod.mk.injEq] at hn <;> obtain ⟨rfl, rfl⟩ := hn
      · split
        · exact .phase (by decide)
        · exact .phase (by decide)
      · exact .call (.erase _ _ _)
      · exact .call (.erase _ _ _)
  | getOpen p k =>
    simp only [Pc.next] at hn
    split at hn <;> simp only [Option.some.injEq, Prod.mk.injEq] at hn <;> obtain ⟨rfl, rfl⟩ := hn
    · split
      · exact .phase (by decide)
      · exact .call (.get _ _ _)
    · exact .call (.get _ _ _)
    · exact .call (.get _ _ _)
  | getLock l k =>
    simp only [Pc.next] at hn
    split at hn <;> simp only [Option.some.injEq, Prod.mk.injEq, reduceCtorEq] at hn
    obtain ⟨rfl, rfl⟩ := hn
    exact .phase (by decide)
  | getRead l acc k =>
    simp only [Pc.next] at hn
    split at hn
    · simp only [Option.some.injEq, Prod.mk.injEq] at hn
      obtain ⟨rfl, rfl⟩ := hn
      exact .call (.get _ _ _)
    · split at hn <;> simp only [Option.some.injEq, Prod.mk.injEq] at hn <;> obtain ⟨rfl, rfl⟩ := hn
      · rename_i b hb
        have := (List.getElem?_eq_some_iff.mp hb).1
        refine .part ?_
        rw [List.length_append, List.length_singleton]
        omega
      · exact .call (.get _ _ _)
  | mkdirDown p n v k =>
    simp only [Pc.next] at hn
    split at hn
    · simp only [Option.some.injEq, Prod.mk.injEq] at hn
      obtain ⟨rfl, rfl⟩ := hn
      split
      · exact .phase (by decide)
      · exact .call (.set _ _ _ _)
    · split at hn <;> simp only [Option.some.injEq, Prod.mk.injEq] at hn <;> obtain ⟨rfl, rfl⟩ := hn
      · exact .phase (by decide)
      · split
        · exact .part (by omega)
        · exact .phase (by decide)
      · exact .call (.set _ _ _ _)
  | mkdirDir p n e v k =>
    simp only [Pc.next, Option.some.injEq, Prod.mk.injEq] at hn
    obtain ⟨rfl, rfl⟩ := hn
    split
    · exact .part (by omega)
    · exact .call (.set _ _ _ _)
  | mkdirUp p n v k =>
    simp only [Pc.next] at hn
    split at hn
    · simp only [Option.some.injEq, Prod.mk.injEq] at hn
      obtain ⟨rfl, rfl⟩ := hn
      exact .phase (by decide)
    · split at hn <;> simp only [Option.some.injEq, Prod.mk.injEq] at hn <;> obtain ⟨rfl, rfl⟩ := hn
      · exact .part (by omega)
      · exact .part (by omega)
      · exact .call (.set _ _ _ _)
  | setOpen p v k =>
    simp only [Pc.next] at hn
    split at hn <;> simp only [Option.some.injEq, Prod.mk.injEq] at hn <;> obtain ⟨rfl, rfl⟩ := hn
    · exact .phase (by decide)
    · exact .call (.set _ _ _ _)
    · exact .call (.set _ _ _ _)
  | setLock l v k =>
    simp only [Pc.next] at hn
    split at hn <;> simp only [Option.some.injEq, Prod.mk.injEq, reduceCtorEq] at hn
    obtain ⟨rfl, rfl⟩ := hn
    exact .phase (by decide)
  | setTrunc l v k =>
    simp only [Pc.next, Option.some.injEq, Prod.mk.injEq] at hn
    obtain ⟨rfl, rfl⟩ := hn
    exact .phase (by decide)
  | setWrite l v n k =>
    simp only [Pc.next] at hn
    split at hn <;> simp only [Option.some.injEq, Prod.mk.injEq] at hn <;> obtain ⟨rfl, rfl⟩ := hn
    · rename_i b hb
      have := (List.getElem?_eq_some_iff.mp hb).1
      exact .part (by omega)
    · exact .call (.set _ _ _ _)
  | eraOpen p k =>
    simp only [Pc.next] at hn
    split at hn <;> simp only [Option.some.injEq, Prod.mk.injEq] at hn <;> obtain ⟨rfl, rfl⟩ := hn
    · split
      · exact .phase (by decide)
      · exact .call (.erase _ _ _)
    · exact .call (.erase _ _ _)
    · exact .call (.erase _ _ _)
  | eraLock p l k =>
    simp only [Pc.next] at hn
    split at hn <;> simp only [Option.some.injEq, Prod.mk.injEq, reduceCtorEq] at hn
    obtain ⟨rfl, rfl⟩ := hn
    exact .phase (by decide)
  | eraUnlink p l k =>
    simp only [Pc.next] at hn
    (repeat' split at hn) <;> simp only [Option.some.injEq, Prod.mk.injEq] at hn <;> obtain ⟨rfl, rfl⟩ := hn
    · exact .phase (by decide)
    all_goals exact .call (.erase _ _ _)
  | eraFinal p k =>
    simp only [Pc.next, Option.some.injEq, Prod.mk.injEq] at hn
    obtain ⟨rfl, rfl⟩ := hn
    exact .call (.erase _ _ _)

theorem content_put_length {l x : Loc} {n : Node} (hx : x ≠ l ∨ n = .dir ∨ n = .file []) :
    (content (fs.put l n) x).length ≤ (content fs x).length := by
  unfold content
  rw [Fs.get_put]
  by_cases e : x = l
  · rw [if_pos e]
    rcases hx with hx | rfl | rfl
    · exact absurd e hx
    · simp
    · simp
  · rw [if_neg e]
    exact Nat.le_refl _

/-- A file that the thread has not locked does not grow. -/
theorem Pc.next_content (hn : pc.next h pcs fs = some (pc', fs')) {l : Loc} (hl : pc.exclusive l = false) :
    (content fs' l).length ≤ (content fs l).length := by
  have same : fs' = fs → (content fs' l).length ≤ (content fs l).length := fun e => by rw [e]; exact Nat.le_refl _
  have mk : ∀ {p : List Str} {g : Fs}, fs.mkdir p = .ok g → (content g l).length ≤ (content fs l).length := by
    intro p g e
    unfold Fs.mkdir at e
    (repeat' split at e) <;> simp only [Outcome.ok.injEq, reduceCtorEq] at e
    subst e
    exact content_put_length (.inr (.inl rfl))
  cases pc with
  | prog p =>
    cases p <;> simp only [Pc.next] at hn <;> (repeat' split at hn) <;>
      simp only [Option.some.injEq, Prod.mk.injEq, reduceCtorEq] at hn <;> exact same hn.2.symm
  | mkdirDown p n v k =>
    simp only [Pc.next] at hn
    split at hn
    · simp only [Option.some.injEq, Prod.mk.injEq] at hn; exact same hn.2.symm
    · split at hn <;> simp only [Option.some.injEq, Prod.mk.injEq] at hn
      · rename_i e
        obtain ⟨_, rfl⟩ := hn
        exact mk e
      · exact same hn.2.symm
      · exact same hn.2.symm
  | mkdirUp p n v k =>
    simp only [Pc.next] at hn
    split at hn
    · simp only [Option.some.injEq, Prod.mk.injEq] at hn; exact same hn.2.symm
    · split at hn <;> simp only [Option.some.injEq, Prod.mk.injEq] at hn
      · rename_i e
        obtain ⟨_, rfl⟩ := hn
        exact mk e
      · exact same hn.2.symm
      · exact same hn.2.symm
  | setOpen p v k =>
    simp only [Pc.next] at hn
    split at hn <;> simp only [Option.some.injEq, Prod.mk.injEq] at hn
    · rename_i e
      obtain ⟨_, rfl⟩ := hn
      unfold Fs.openCreate at e
      (repeat' split at e) <;> simp only [Outcome.ok.injEq, Prod.mk.injEq, reduceCtorEq] at e
      · exact same e.2.symm
      · rw [← e.2]; exact content_put_length (.inr (.inr rfl))
    · exact same hn.2.symm
    · exact same hn.2.symm
  | setTrunc l' v k =>
    simp only [Pc.next, Option.some.injEq, Prod.mk.injEq] at hn
    obtain ⟨_, rfl⟩ := hn
    exact content_put_length (.inr (.inr rfl))
  | setWrite l' v n k =>
    simp only [Pc.exclusive, decide_eq_false_iff_not] at hl
    simp only [Pc.next] at hn
    split at hn <;> simp only [Option.some.injEq, Prod.mk.injEq] at hn
    · obtain ⟨_, rfl⟩ := hn
      exact content_put_length (.inl hl)
    · exact same hn.2.symm
  | eraUnlink p l' k =>
    simp only [Pc.next] at hn
    (repeat' split at hn) <;> simp only [Option.some.injEq, Prod.mk.injEq] at hn
    · obtain ⟨_, rfl⟩ := hn
      unfold content
      rw [Fs.get_del]
      by_cases e : l = ‹Loc›
      · rw [if_pos e]; simp
      · rw [if_neg e]; exact Nat.le_refl _
    all_goals exact same hn.2.symm
  | _ =>
    simp only [Pc.next] at hn
    (repeat' split at hn) <;> simp only [Option.some.injEq, Prod.mk.injEq, reduceCtorEq] at hn <;> exact same hn.2.symm

/-! ## All threads -/

/-- Locks exclude each other. -/
def Locked (s : Sys α) : Prop :=
  ∀ (i j : Nat) (p q : Pc α) (l : Loc), s.pcs[i]? = some p → s.pcs[j]? = some q → p.exclusive l = true →
    q.holds l = true → i = j

theorem Locked.initial (fs : Fs) (ps : List (Prog α)) : Locked (Sys.initial fs ps) := by
  intro i j p q l e1 _ e3 _
  simp only [Sys.initial, List.getElem?_map, Option.map_eq_some_iff] at e1
  obtain ⟨_, _, rfl⟩ := e1
  simp [Pc.exclusive] at e3

variable {s s' : Sys α} {t : Nat}

theorem advance_split (ha : s.advance h t = some s') : ∃ pc r, s.pcs[t]? = some pc ∧ pc.next h s.pcs s.fs = some r ∧
    s' = ⟨r.2, s.pcs.set t r.1⟩ := by
  unfold Sys.advance at ha
  simp only [Option.bind_eq_some_iff, Option.map_eq_some_iff] at ha
  obtain ⟨pc, h1, r, h2, h3⟩ := ha
  exact ⟨pc, r, h1, h2, h3.symm⟩

theorem Locked.advance (hl : Locked s) (ha : s.advance h t = some s') : Locked s' := by
  obtain ⟨pc, ⟨pc', fs'⟩, hpc, hn, rfl⟩ := advance_split ha
  have htl := (List.getElem?_eq_some_iff.mp hpc).1
  intro i j p r l e1 e2 x1 x2
  dsimp only at e1 e2
  by_cases hi : t = i
  · subst hi
    by_cases hj : t = j
    · exact hj
    rw [List.getElem?_set_self htl, Option.some.injEq] at e1
    rw [List.getElem?_set_ne hj] at e2
    subst e1
    rcases (Pc.locks hn l).1 x1 with y | y
    · exact hl _ _ _ _ l hpc e2 y x2
    · rw [List.any_eq_false] at y
      exact absurd x2 (y r (List.mem_of_getElem? e2))
  · rw [List.getElem?_set_ne hi] at e1
    by_cases hj : t = j
    · subst hj
      rw [List.getElem?_set_self htl, Option.some.injEq] at e2
      subst e2
      rcases (Pc.locks hn l).2 x2 with y | y
      · exact hl _ _ _ _ l e1 hpc x1 y
      · rw [List.any_eq_false] at y
        exact absurd x1 (y p (List.mem_of_getElem? e1))
    · rw [List.getElem?_set_ne hj] at e2
      exact hl _ _ _ _ l e1 e2 x1 x2

/-- Less or the same. -/
def LessEq (x y : Prog α × Nat × Nat) : Prop := x = y ∨ Less x y

/-- Of two lists of measures, nothing in the first is more and something is less. -/
inductive Fewer : List (Prog α × Nat × Nat) → List (Prog α × Nat × Nat) → Prop where
  | one {x y xs} (h : Less x y) : Fewer (x :: xs) (y :: xs)
  | head {x y xs ys} (h : Less x y) (hs : Fewer xs ys) : Fewer (x :: xs) (y :: ys)
  | tail {x xs ys} (hs : Fewer xs ys) : Fewer (x :: xs) (x :: ys)

theorem Fewer.acc (xs : List (Prog α × Nat × Nat)) : Acc Fewer xs := by
  induction xs with
  | nil => exact ⟨_, fun y hy => by cases hy⟩
  | cons x xs ih =>
    have hx := Less.acc x
    induction hx generalizing xs with
    | intro x _ ihx =>
      induction ih with
      | intro xs hxs ihxs =>
        refine ⟨_, fun y hy => ?_⟩
        cases hy with
        | one h => exact ihx _ h _ ⟨_, hxs⟩
        | head h hs => exact ihx _ h _ (hxs _ hs)
        | tail hs => exact ihxs _ hs

theorem fewer_of {xs ys : List (Prog α × Nat × Nat)} (hlen : xs.length = ys.length)
    (hle : ∀ (i : Nat) x y, xs[i]? = some x → ys[i]? = some y → LessEq x y) :
    xs = ys ∨ Fewer xs ys := by
  induction xs generalizing ys with
  | nil => cases ys <;> simp at hlen ⊢
  | cons x xs ih =>
    cases ys with
    | nil => simp at hlen
    | cons y ys =>
      have h1 := ih (ys := ys) (by simpa using hlen) fun i a b ha hb => hle (i + 1) a b (by simpa using ha) (by simpa using hb)
      rcases hle 0 x y rfl rfl with rfl | h2
      · rcases h1 with rfl | h1
        · exact .inl rfl
        · exact .inr (.tail h1)
      · rcases h1 with rfl | h1
        · exact .inr (.one h2)
        · exact .inr (.head h2 h1)

theorem Less.irrefl (x : Prog α × Nat × Nat) : ¬ Less x x := by
  intro hx
  have := Less.acc x
  induction this with
  | intro x _ ih => exact ih x hx hx

/-- What is left of all threads. -/
def Sys.rest (s : Sys α) : List (Prog α × Nat × Nat) := s.pcs.map (Pc.rest s.fs)

theorem Sys.advance_fewer (hl : Locked s) (ha : s.advance h t = some s') : Fewer s'.rest s.rest := by
  obtain ⟨pc, ⟨pc', fs'⟩, hpc, hn, rfl⟩ := advance_split ha
  have htl := (List.getElem?_eq_some_iff.mp hpc).1
  have hless := Pc.next_less hn
  have key := fewer_of (xs := Sys.rest ⟨fs', s.pcs.set t pc'⟩) (ys := s.rest) (by simp [Sys.rest]) (by
    intro i x y hx hy
    simp only [Sys.rest, List.getElem?_map, Option.map_eq_some_iff] at hx hy
    obtain ⟨p, hp, rfl⟩ := hx
    obtain ⟨q, hq, rfl⟩ := hy
    by_cases e : t = i
    · subst e
      rw [List.getElem?_set_self htl, Option.some.injEq] at hp
      rw [hpc, Option.some.injEq] at hq
      subst hp hq
      exact .inr hless
    · rw [List.getElem?_set_ne e, hq, Option.some.injEq] at hp
      subst hp
      cases q with
      | getRead l acc k =>
        have hx : pc.exclusive l = false := by
          cases hx : pc.exclusive l with
          | false => rfl
          | true => exact absurd (hl t i _ _ l hpc hq hx (by simp [Pc.holds])) e
        have hc := Pc.next_content hn hx
        by_cases hz : (content fs' l).length - acc.length = (content s.fs l).length - acc.length
        · exact .inl (by simp only [Pc.rest, hz])
        · exact .inr (.part (by omega))
      | _ => exact .inl rfl)
  rcases key with e | k
  · have h1 : (Sys.rest ⟨fs', s.pcs.set t pc'⟩)[t]? = some (pc'.rest fs') := by
      simp only [Sys.rest, List.getElem?_map, List.getElem?_set_self htl, Option.map_some]
    have h2 : s.rest[t]? = some (pc.rest s.fs) := by simp only [Sys.rest, List.getElem?_map, hpc, Option.map_some]
    rw [e, h2, Option.some.injEq] at h1
    rw [← h1] at hless
    exact absurd hless (Less.irrefl _)
  · exact k

theorem bounded (hl : Locked s) : ∃ N, ∀ ts s', s.run h ts = some s' → ts.length ≤ N := by
  generalize hr : s.rest = r
  have hacc := Fewer.acc r
  induction hacc generalizing s with
  | intro r _ ih =>
    subst hr
    have each : ∀ t, ∃ N, ∀ s1, s.advance h t = some s1 → ∀ ts s', s1.run h ts = some s' → ts.length ≤ N := by
      intro t
      cases ha : s.advance h t with
      | none => exact ⟨0, fun s1 e => by simp at e⟩
      | some s1 =>
        obtain ⟨N, hN⟩ := ih _ (Sys.advance_fewer hl ha) (hl.advance ha) rfl
        exact ⟨N, fun s2 e => by rw [Option.some.injEq] at e; subst e; exact hN⟩
    have all : ∀ n, ∃ N, ∀ t, t < n → ∀ s1, s.advance h t = some s1 → ∀ ts s', s1.run h ts = some s' → ts.length ≤ N := by
      intro n
      induction n with
      | zero => exact ⟨0, fun t ht => by omega⟩
      | succ n ihn =>
        obtain ⟨N, hN⟩ := ihn
        obtain ⟨M, hM⟩ := each n
        refine ⟨max N M, fun t ht s1 ha ts s' hs => ?_⟩
        by_cases e : t = n
        · subst e
          exact Nat.le_trans (hM s1 ha ts s' hs) (Nat.le_max_right _ _)
        · exact Nat.le_trans (hN t (by omega) s1 ha ts s' hs) (Nat.le_max_left _ _)
    obtain ⟨N, hN⟩ := all s.pcs.length
    refine ⟨N + 1, fun ts s' hs => ?_⟩
    cases ts with
    | nil => simp
    | cons t ts =>
      simp only [Sys.run, Option.bind_eq_some_iff] at hs
      obtain ⟨s1, h1, h2⟩ := hs
      obtain ⟨pc, _, hpc, _⟩ := advance_split h1
      have := hN t (List.getElem?_eq_some_iff.mp hpc).1 s1 h1 ts s' h2
      simp only [List.length_cons]
      omega

theorem Sys.run_append {ts ts' : List Nat} {s'' : Sys α} (h1 : s.run h ts = some s') (h2 : s'.run h ts' = some s'') :
    s.run h (ts ++ ts') = some s'' := by
  induction ts generalizing s with
  | nil => cases Option.some.inj h1; exact h2
  | cons t ts ih =>
    simp only [Sys.run, Option.bind_eq_some_iff] at h1
    obtain ⟨s1, h3, h4⟩ := h1
    simp only [List.cons_append, Sys.run, h3, Option.bind_some]
    exact ih h4

theorem Sys.run_length {ts : List Nat} (h1 : s.run h ts = some s') : s'.pcs.length = s.pcs.length := by
  induction ts generalizing s with
  | nil => cases Option.some.inj h1; rfl
  | cons t ts ih =>
    simp only [Sys.run, Option.bind_eq_some_iff] at h1
    obtain ⟨s1, h3, h4⟩ := h1
    obtain ⟨pc, r, _, _, rfl⟩ := advance_split h3
    rw [ih h4]
    simp

/-- **C80.** Concurrent calls end. Whatever programs of store calls the threads run, on whatever
filesystem, with or without files in common: the number of system calls is bounded, whatever their order,
and as long as a thread has not finished, some thread can go on; hence from wherever the threads are, all of
them finish. -/
theorem C80 (h : Hier) (fs : Fs) (ps : List (Prog α)) :
    (∃ N, ∀ ts s, (Sys.initial fs ps).run h ts = some s → ts.length ≤ N) ∧
    ∀ ts s, (Sys.initial fs ps).run h ts = some s →
      ((∃ i, i < ps.length ∧ s.result i = none) → ∃ j s', s.advance h j = some s') ∧
      ∃ ts' s', s.run h ts' = some s' ∧ ∀ i, i < ps.length → (s'.result i).isSome := by
  obtain ⟨N, hN⟩ := bounded (h := h) (Locked.initial fs ps)
  refine ⟨⟨N, hN⟩, fun ts s hs => ?_⟩
  have prog : ∀ ts s, (Sys.initial fs ps).run h ts = some s → (∃ i, i < ps.length ∧ s.result i = none) →
      ∃ j s', s.advance h j = some s' := by
    rintro ts s hs ⟨i, h1, h2⟩
    refine C79_progress h s (i := i) ?_ h2
    rw [Sys.run_length hs]
    simpa [Sys.initial] using h1
  refine ⟨prog ts s hs, ?_⟩
  have main : ∀ n ts s, N - ts.length = n → (Sys.initial fs ps).run h ts = some s →
      ∃ ts' s', s.run h ts' = some s' ∧ ∀ i, i < ps.length → (s'.result i).isSome := by
    intro n
    induction n using Nat.strongRecOn with
    | _ n ih =>
      intro ts s hn hs
      by_cases hd : ∃ i, i < ps.length ∧ s.result i = none
      · obtain ⟨j, s1, hj⟩ := prog ts s hs hd
        have h1 : (Sys.initial fs ps).run h (ts ++ [j]) = some s1 := Sys.run_append hs (by simp [Sys.run, hj])
        have h2 := hN _ _ h1
        simp only [List.length_append, List.length_singleton] at h2
        obtain ⟨ts', s', h3, h4⟩ := ih (N - (ts ++ [j]).length)
          (by simp only [List.length_append, List.length_singleton]; omega) _ _ rfl h1
        exact ⟨j :: ts', s', by simp only [Sys.run, hj, Option.bind_some, h3], h4⟩
      · refine ⟨[], s, rfl, fun i hi => ?_⟩
        cases hr : s.result i with
        | none => exact absurd ⟨i, hi, hr⟩ hd
        | some r => rfl
  exact main _ ts s rfl hs

/-! ### Concrete cases -/

/-- Three threads about one file that does not exist: one stores a value and reads it, one erases it, one
stores another. -/
def rivals : List (Prog (Option Bytes)) :=
  [.set str!"u" ([1#8, 2#8], .ok ()) fun _ => pGet str!"u", .erase str!"u" fun _ => .done (.ok none),
   .set str!"u" ([3#8], .ok ()) fun _ => .done (.ok none)]

example : ∃ N, (∀ ts s, (Sys.initial Demo.emptyFs rivals).run Demo.hier ts = some s → ts.length ≤ N) ∧
    ∃ ts s, (Sys.initial Demo.emptyFs rivals).run Demo.hier ts = some s ∧ ∀ i, i < 3 → (s.result i).isSome := by
  obtain ⟨⟨N, h1⟩, h2⟩ := C80 Demo.hier Demo.emptyFs rivals
  exact ⟨N, h1, (h2 [] _ rfl).2⟩

/-- A filesystem with one file. -/
def oneFile : Fs := ⟨[([], .dir), ([str!"h"], .dir), ([str!"h", str!"s"], .file [9#8])]⟩

theorem oneFile_get (l : Loc) : oneFile.get l = if l = [] then some .dir else if l = [str!"h"] then some .dir else
    if l = [str!"h", str!"s"] then some (.file [9#8]) else none := by
  simp only [oneFile, Fs.get, Fs.lookup]
  by_cases h1 : l = []
  · simp [h1]
  by_cases h2 : l = [str!"h"]
  · simp [h2]
  by_cases h3 : l = [str!"h", str!"s"]
  · simp [h3]
  simp [h1, h2, h3, eq_comm]

theorem oneFile_wf : oneFile.WF where
  nodup := by decide
  root := rfl
  parent := by
    intro l x n hg
    rw [oneFile_get] at hg ⊢
    by_cases h1 : l = []
    · simp [h1]
    by_cases h2 : l = [str!"h"]
    · simp [h2]
    exfalso
    rw [if_neg (by simp), if_neg, if_neg] at hg
    · simp at hg
    · intro e
      have e : l ++ [x] = [str!"h"] ++ [str!"s"] := e
      exact h2 (List.append_inj' e rfl).1
    · intro e
      have e : l ++ [x] = [] ++ [str!"h"] := e
      exact h1 (List.append_inj' e rfl).1

/-- One thread stores a value at a new key and then reads the shared file, which the other overwrites. -/
def sharers : List (Prog (Option Bytes)) :=
  [.set str!"u" ([1#8], .ok ()) fun _ => pGet str!"s", .set str!"s" ([2#8, 3#8], .ok ()) fun _ => .done (.ok none)]

/-- `P` holds after all runs of store calls made one after the other; they have fewer than `n` calls. -/
def allRuns (h : Hier) (P : ASys α → Bool) : Nat → ASys α → Bool
  | 0, _ => false
  | n + 1, s => P s && (List.range s.progs.length).all fun t =>
    match s.advance h t with
    | none => true
    | some s' => allRuns h P n s'

theorem allRuns_run {P : ASys α → Bool} {n : Nat} {s a : ASys α} {ts : List Nat} (hP : allRuns h P n s = true)
    (hr : s.run h ts = some a) : P a = true := by
  induction n generalizing s ts with
  | zero => simp [allRuns] at hP
  | succ n ih =>
    simp only [allRuns, Bool.and_eq_true, List.all_eq_true, List.mem_range] at hP
    cases ts with
    | nil => cases Option.some.inj hr; exact hP.1
    | cons t ts =>
      simp only [ASys.run, Option.bind_eq_some_iff] at hr
      obtain ⟨s1, h1, h2⟩ := hr
      have ht : t < s.progs.length := by
        unfold ASys.advance at h1
        simp only [Option.bind_eq_some_iff] at h1
        obtain ⟨p, h3, _⟩ := h1
        exact (List.getElem?_eq_some_iff.mp h3).1
      have := hP.2 t ht
      rw [h1] at this
      exact ih this h2

/-- The first thread has not finished or has read the old or the new value. -/
def oldOrNew (a : ASys (Option Bytes)) : Bool :=
  match (a.progs[0]? : Option (Prog (Option Bytes))) with
  | some (.done (.ok (some b))) => b == [9#8] || b == [2#8, 3#8]
  | some (.done _) => false
  | _ => true

/-- They meet the hypotheses of C79; so the first reads the old or the new value, never a part of it. -/
example (ts : List Nat) (s : Sys (Option Bytes)) (hr : (Sys.initial oneFile sharers).run Demo.hier ts = some s)
    (r : Outcome (Option Bytes)) (h0 : s.result 0 = some r) : r = .ok (some [9#8]) ∨ r = .ok (some [2#8, 3#8]) := by
  have hl : Layout oneFile (fun i l => i = 0 ∧ l = Demo.hier.loc str!"u") (fun l => l = Demo.hier.loc str!"s") := by
    refine ⟨oneFile_wf, ?_, ?_, ?_, ?_⟩
    · rintro i l ⟨_, rfl⟩
      refine ⟨fun x hx hne b hb => ?_, by decide⟩
      rw [oneFile_get] at hb
      split at hb
      · simp at hb
      split at hb
      · simp at hb
      split at hb
      · rename_i e
        subst e
        exact absurd hx (by decide)
      · simp at hb
    · rintro i j a b ⟨rfl, rfl⟩ ⟨rfl, rfl⟩ _
      exact ⟨rfl, rfl⟩
    · rintro l rfl
      exact ⟨_, rfl⟩
    · rintro i l ⟨_, rfl⟩ e
      exact absurd e (by decide)
  obtain ⟨bs, h1, h2⟩ := C79 (h := Demo.hier) (ps := sharers) hl (by
    intro i p hi
    match i with
    | 0 =>
      cases Option.some.inj hi
      exact ⟨by decide, .inl ⟨rfl, rfl⟩, by decide, fun j hj => absurd hj.2 (by decide), fun _ _ => trivial⟩
    | 1 =>
      cases Option.some.inj hi
      exact ⟨by decide, .inr rfl, trivial⟩
    | i + 2 => simp [sharers] at hi) hr
  obtain ⟨a, h3, h4, _⟩ := h2 ts.length s (by rw [List.take_length]; exact hr)
  have hp : s.pcs[0]? = some (.prog (.done r)) := by
    unfold Sys.result at h0
    split at h0
    · rename_i e; rw [e]; cases h0; rfl
    · simp at h0
  have hq := h4 0 _ hp
  have hb : oldOrNew a = true := allRuns_run (n := 4) (by decide +kernel) h3
  unfold oldOrNew at hb
  rw [hq] at hb
  cases r with
  | err e => simp at hb
  | panic => simp at hb
  | ok v =>
    cases v with
    | none => simp at hb
    | some b => simpa using hb

end Zarr.Threads
