import Verif.Model.Locks
/-!
# Concurrent store calls on one key: C47, C62, C63
-/

namespace Zarr.Locks

/-- The inode a thread has open. -/
def Pc.ino : Pc → Option Nat
  | .getLock i => some i
  | .getRead i _ => some i
  | .setLock i _ => some i
  | .setTrunc i _ => some i
  | .setWrite i _ _ => some i
  | .eraLock i => some i
  | .eraUnlink i => some i
  | .eraClose i => some i
  | _ => none

/-- The thread is writing to the inode. -/
def Pc.writing (i : Nat) : Pc → Bool
  | .setWrite j _ _ => i == j
  | _ => false

/-- The thread is in a `set` that has the inode open. -/
def Pc.setting (i : Nat) : Pc → Bool
  | .setLock j _ => i == j
  | .setTrunc j _ => i == j
  | .setWrite j _ _ => i == j
  | _ => false

/-- What holds in every reachable state, `v` being the value at the beginning. -/
structure Inv (v : Option Bytes) (s : Sys) : Prop where
  base : v.toList.length ≤ s.data.length
  ex : ∀ (t t' : Nat) (p p' : Pc) (i : Nat), s.pcs[t]? = some p → s.pcs[t']? = some p' → t ≠ t' →
    p.exclusive i = true → p'.holds i = false
  ino : ∀ (t : Nat) (p : Pc) (i : Nat), s.pcs[t]? = some p → p.ino = some i → i < s.data.length
  entry : ∀ (i : Nat), s.entry = some i → i < s.data.length
  wr : ∀ (t i : Nat) (w : Bytes) (n : Nat), s.pcs[t]? = some (.setWrite i w n) →
    n ≤ w.length ∧ s.content i = w.take n
  rd : ∀ (t i : Nat) (acc : Bytes), s.pcs[t]? = some (.getRead i acc) →
    acc.length ≤ (s.content i).length ∧ acc = (s.content i).take acc.length
  good : ∀ (i : Nat), i < s.data.length → (∀ (t : Nat) (p : Pc), s.pcs[t]? = some p → p.writing i = false) →
    s.content i ∈ s.log ∨ (i < v.toList.length ∧ v = some (s.content i)) ∨
      (v.toList.length ≤ i ∧ s.content i = [])
  fresh : ∀ (i : Nat), v.toList.length ≤ i → i < s.data.length → s.content i ∈ s.log ∨
    ∃ (t : Nat) (p : Pc), s.pcs[t]? = some p ∧ p.setting i = true
  res : ∀ (t : Nat) (b : Bytes), s.pcs[t]? = some (.idle (some (.got (some b)))) →
    b ∈ s.log ∨ v = some b ∨ (v.toList.length < s.data.length ∧ b = [])

theorem inv_initial (v : Option Bytes) (n : Nat) : Inv v (Sys.initial v n) := by
  have hp : ∀ (t : Nat) (p : Pc), (Sys.initial v n).pcs[t]? = some p → p = .idle none := by
    intro t p h
    simp only [Sys.initial, List.getElem?_replicate] at h
    split at h
    · exact (Option.some.inj h).symm
    · cases h
  constructor
  · exact Nat.le_refl _
  · intro t t' p p' i h1 h2 _ h3
    rw [hp t p h1] at h3; cases h3
  · intro t p i h1 h2
    rw [hp t p h1] at h2; cases h2
  · intro i hi
    cases v with
    | none => cases hi
    | some b => cases hi; simp [Sys.initial]
  · intro t i w m h1; cases hp t _ h1
  · intro t i acc h1; cases hp t _ h1
  · intro i hi _
    cases v with
    | none => simp [Sys.initial] at hi
    | some b =>
      have : i = 0 := by simpa [Sys.initial] using hi
      subst this
      right; left
      simp [Sys.initial, Sys.content]
  · intro i h1 h2
    simp only [Sys.initial] at h2
    omega
  · intro t b h1; cases hp t _ h1

theorem getElem?_set' {α : Type} (l : List α) (i j : Nat) (a x : α) (h : (l.set i a)[j]? = some x) :
    (j = i ∧ x = a) ∨ (j ≠ i ∧ l[j]? = some x) := by
  rw [List.getElem?_set] at h
  by_cases hij : i = j
  · subst hij
    rw [if_pos rfl] at h
    split at h
    · exact .inl ⟨rfl, (Option.some.inj h).symm⟩
    · cases h
  · rw [if_neg hij] at h
    exact .inr ⟨fun e => hij e.symm, h⟩

theorem getElem?_set_self' {α : Type} {l : List α} {i : Nat} {a x : α} (h : l[i]? = some x) :
    (l.set i a)[i]? = some a := by
  rw [List.getElem?_set, if_pos rfl, if_pos]
  exact (List.getElem?_eq_some_iff.mp h).1

/-- A step that changes nothing but the position of a thread, where the new position has no lock, no
result and no `set` that the old one did not have. -/
theorem Inv.move {v : Option Bytes} {s : Sys} (h : Inv v s) {t : Nat} {p p' : Pc}
    (hp : s.pcs[t]? = some p)
    (h1 : ∀ i, p'.exclusive i = true → ∀ (t' : Nat) (q : Pc), t' ≠ t → s.pcs[t']? = some q → q.holds i = false)
    (h2 : ∀ i, p'.holds i = true → ∀ (t' : Nat) (q : Pc), t' ≠ t → s.pcs[t']? = some q → q.exclusive i = false)
    (h3 : ∀ i, p'.ino = some i → i < s.data.length)
    (h4 : ∀ i w n, p' ≠ .setWrite i w n)
    (h5 : ∀ i acc, p' = .getRead i acc →
      acc.length ≤ (s.content i).length ∧ acc = (s.content i).take acc.length)
    (h6 : ∀ i, p.writing i = true → False)
    (h7 : ∀ i, p.setting i = true → p'.setting i = true)
    (h8 : ∀ b, p' = .idle (some (.got (some b))) →
      b ∈ s.log ∨ v = some b ∨ (v.toList.length < s.data.length ∧ b = [])) :
    Inv v { s with pcs := s.pcs.set t p' } := by
  have hself := getElem?_set_self' (a := p') hp
  have hother : ∀ t', t' ≠ t → (s.pcs.set t p')[t']? = s.pcs[t']? := by
    intro t' hne; rw [List.getElem?_set, if_neg (fun e => hne e.symm)]
  constructor
  · exact h.base
  · intro t1 t2 q1 q2 i e1 e2 hne hx
    rcases getElem?_set' _ _ _ _ _ e1 with ⟨rfl, rfl⟩ | ⟨n1, e1⟩
    · rcases getElem?_set' _ _ _ _ _ e2 with ⟨rfl, rfl⟩ | ⟨n2, e2⟩
      · exact absurd rfl hne
      · exact h1 i hx t2 q2 n2 e2
    · rcases getElem?_set' _ _ _ _ _ e2 with ⟨a, e⟩ | ⟨n2, e2⟩
      · cases hh : q2.holds i with
        | false => rfl
        | true =>
          have := h2 i (e ▸ hh) t1 q1 n1 e1
          rw [this] at hx; cases hx
      · exact h.ex t1 t2 q1 q2 i e1 e2 hne hx
  · intro t1 q1 i e1 hi
    rcases getElem?_set' _ _ _ _ _ e1 with ⟨rfl, rfl⟩ | ⟨_, e1⟩
    · exact h3 i hi
    · exact h.ino t1 q1 i e1 hi
  · exact h.entry
  · intro t1 i w n e1
    rcases getElem?_set' _ _ _ _ _ e1 with ⟨rfl, e⟩ | ⟨_, e1⟩
    · exact absurd e.symm (h4 i w n)
    · exact h.wr t1 i w n e1
  · intro t1 i acc e1
    rcases getElem?_set' _ _ _ _ _ e1 with ⟨rfl, e⟩ | ⟨_, e1⟩
    · exact h5 i acc e.symm
    · exact h.rd t1 i acc e1
  · intro i hi hw
    apply h.good i hi
    intro t1 q1 e1
    by_cases ht : t1 = t
    · subst ht
      rw [hp] at e1
      cases e1
      cases hh : p.writing i with
      | false => rfl
      | true => exact absurd hh (fun x => h6 i x)
    · exact hw t1 q1 (by rw [hother t1 ht]; exact e1)
  · intro i hi1 hi2
    rcases h.fresh i hi1 hi2 with hg | ⟨t1, q1, e1, hs⟩
    · exact .inl hg
    · right
      by_cases ht : t1 = t
      · subst ht
        rw [hp] at e1
        cases e1
        exact ⟨t1, p', hself, h7 i hs⟩
      · exact ⟨t1, q1, by rw [hother t1 ht]; exact e1, hs⟩
  · intro t1 b e1
    rcases getElem?_set' _ _ _ _ _ e1 with ⟨rfl, e⟩ | ⟨_, e1⟩
    · exact h8 b e.symm
    · exact h.res t1 b e1

theorem not_any {l : List Pc} {f : Pc → Bool} (h : ¬ l.any f = true) {t : Nat} {q : Pc}
    (hq : l[t]? = some q) : f q = false := by
  cases hf : f q with
  | false => rfl
  | true => exact absurd (List.any_eq_true.mpr ⟨q, List.mem_of_getElem? hq, hf⟩) h

theorem exclusive_holds {p : Pc} {i : Nat} (h : p.exclusive i = true) : p.holds i = true := by
  cases p <;> first | exact h | (simp [Pc.exclusive] at h)

theorem holds_false {p : Pc} {i : Nat} (h : p.holds i = false) : p.exclusive i = false := by
  cases hx : p.exclusive i with
  | false => rfl
  | true => rw [exclusive_holds hx] at h; cases h

theorem inv_start {v : Option Bytes} {s s' : Sys} (h : Inv v s) {t : Nat} {c : Call}
    (hs : s.start t c = some s') : Inv v s' := by
  unfold Sys.start at hs
  split at hs
  · rename_i r hp
    cases hs
    apply h.move hp <;> cases c <;> simp [Call.begin, Pc.exclusive, Pc.holds, Pc.ino, Pc.writing, Pc.setting]
  · cases hs

theorem content_set {s : Sys} {i : Nat} {x : Bytes} {pcs : List Pc} (hi : i < s.data.length) (j : Nat) :
    Sys.content { s with data := s.data.set i x, pcs := pcs } j = if j = i then x else s.content j := by
  unfold Sys.content
  simp only [List.getElem?_set]
  by_cases h : j = i
  · subst h; simp [hi]
  · rw [if_neg (fun e => h e.symm), if_neg h]

/-- A step that writes to an inode. -/
theorem Inv.write {v : Option Bytes} {s : Sys} (h : Inv v s) {t i n : Nat} {p : Pc} {w : Bytes}
    (hp : s.pcs[t]? = some p) (hn : n ≤ w.length)
    (h1 : ∀ j, p.exclusive j = true ↔ j = i) (h2 : ∀ j, p.writing j = true → j = i)
    (h3 : ∀ j, p.setting j = true → j = i) (h4 : p.ino = some i) :
    Inv v { s with data := s.data.set i (w.take n), pcs := s.pcs.set t (.setWrite i w n) } := by
  have hi := h.ino t p i hp h4
  have hself := getElem?_set_self' (a := Pc.setWrite i w n) hp
  have hother : ∀ t', t' ≠ t → (s.pcs.set t (.setWrite i w n))[t']? = s.pcs[t']? := by
    intro t' hne; rw [List.getElem?_set, if_neg (fun e => hne e.symm)]
  have hfree : ∀ t' q, t' ≠ t → s.pcs[t']? = some q → q.holds i = false := by
    intro t' q hne hq
    exact h.ex t t' p q i hp hq (fun e => hne e.symm) ((h1 i).mpr rfl)
  have hc := fun j => content_set (s := s) (i := i) (x := w.take n)
    (pcs := s.pcs.set t (.setWrite i w n)) hi j
  constructor
  · simpa using h.base
  · intro t1 t2 q1 q2 j e1 e2 hne hx
    rcases getElem?_set' _ _ _ _ _ e1 with ⟨a1, b1⟩ | ⟨a1, e1'⟩
    · rcases getElem?_set' _ _ _ _ _ e2 with ⟨a2, b2⟩ | ⟨a2, e2'⟩
      · exact absurd (a1.trans a2.symm) hne
      · rw [b1] at hx
        have : j = i := by simpa [Pc.exclusive] using hx
        subst this
        exact hfree t2 q2 a2 e2'
    · rcases getElem?_set' _ _ _ _ _ e2 with ⟨a2, b2⟩ | ⟨a2, e2'⟩
      · cases hh : q2.holds j with
        | false => rfl
        | true =>
          rw [b2] at hh
          have : j = i := by simpa [Pc.holds, Pc.exclusive] using hh
          subst this
          rw [holds_false (hfree t1 q1 a1 e1')] at hx; cases hx
      · exact h.ex t1 t2 q1 q2 j e1' e2' hne hx
  · intro t1 q1 j e1 hj
    simp only [List.length_set]
    rcases getElem?_set' _ _ _ _ _ e1 with ⟨_, b1⟩ | ⟨_, e1'⟩
    · rw [b1] at hj; cases hj; exact hi
    · exact h.ino t1 q1 j e1' hj
  · intro j hj
    simp only [List.length_set]
    exact h.entry j hj
  · intro t1 j w' n' e1
    rcases getElem?_set' _ _ _ _ _ e1 with ⟨_, b1⟩ | ⟨a1, e1'⟩
    · cases b1
      rw [hc, if_pos rfl]
      exact ⟨hn, rfl⟩
    · have hne : j ≠ i := by
        rintro rfl
        have := hfree t1 _ a1 e1'
        simp [Pc.holds, Pc.exclusive] at this
      rw [hc, if_neg hne]
      exact h.wr t1 j w' n' e1'
  · intro t1 j acc e1
    rcases getElem?_set' _ _ _ _ _ e1 with ⟨_, b1⟩ | ⟨a1, e1'⟩
    · cases b1
    · have hne : j ≠ i := by
        rintro rfl
        have := hfree t1 _ a1 e1'
        simp [Pc.holds] at this
      rw [hc, if_neg hne]
      exact h.rd t1 j acc e1'
  · intro j hj hw
    simp only [List.length_set] at hj
    have hne : j ≠ i := by
      rintro rfl
      have := hw t _ hself
      simp [Pc.writing] at this
    rw [hc, if_neg hne]
    apply h.good j hj
    intro t1 q1 e1
    by_cases ht : t1 = t
    · subst ht
      rw [hp] at e1
      cases e1
      cases hh : p.writing j with
      | false => rfl
      | true => exact absurd (h2 j hh) hne
    · exact hw t1 q1 (by rw [hother t1 ht]; exact e1)
  · intro j hj1 hj2
    simp only [List.length_set] at hj2
    by_cases hne : j = i
    · subst hne
      exact .inr ⟨t, _, hself, by simp [Pc.setting]⟩
    · rw [hc, if_neg hne]
      rcases h.fresh j hj1 hj2 with hg | ⟨t1, q1, e1, hs⟩
      · exact .inl hg
      · right
        by_cases ht : t1 = t
        · subst ht
          rw [hp] at e1
          cases e1
          exact absurd (h3 j hs) hne
        · exact ⟨t1, q1, by rw [hother t1 ht]; exact e1, hs⟩
  · intro t1 b e1
    simp only [List.length_set]
    rcases getElem?_set' _ _ _ _ _ e1 with ⟨_, b1⟩ | ⟨_, e1'⟩
    · cases b1
    · exact h.res t1 b e1'

/-- The step that ends a `set`. -/
theorem Inv.close {v : Option Bytes} {s : Sys} (h : Inv v s) {t i : Nat} {w : Bytes}
    (hp : s.pcs[t]? = some (.setWrite i w w.length)) :
    Inv v { s with log := w :: s.log, pcs := s.pcs.set t (.idle (some .wrote)) } := by
  have hother : ∀ t', t' ≠ t → (s.pcs.set t (.idle (some .wrote)))[t']? = s.pcs[t']? := by
    intro t' hne; rw [List.getElem?_set, if_neg (fun e => hne e.symm)]
  have hcon : s.content i = w := by rw [(h.wr t i w _ hp).2, List.take_length]
  constructor
  · exact h.base
  · intro t1 t2 q1 q2 j e1 e2 hne hx
    rcases getElem?_set' _ _ _ _ _ e1 with ⟨a1, b1⟩ | ⟨a1, e1'⟩
    · rw [b1] at hx; cases hx
    · rcases getElem?_set' _ _ _ _ _ e2 with ⟨a2, b2⟩ | ⟨a2, e2'⟩
      · rw [b2]; rfl
      · exact h.ex t1 t2 q1 q2 j e1' e2' hne hx
  · intro t1 q1 j e1 hj
    rcases getElem?_set' _ _ _ _ _ e1 with ⟨_, b1⟩ | ⟨_, e1'⟩
    · rw [b1] at hj; cases hj
    · exact h.ino t1 q1 j e1' hj
  · exact h.entry
  · intro t1 j w' n' e1
    rcases getElem?_set' _ _ _ _ _ e1 with ⟨_, b1⟩ | ⟨a1, e1'⟩
    · cases b1
    · exact h.wr t1 j w' n' e1'
  · intro t1 j acc e1
    rcases getElem?_set' _ _ _ _ _ e1 with ⟨_, b1⟩ | ⟨a1, e1'⟩
    · cases b1
    · exact h.rd t1 j acc e1'
  · intro j hj hw
    by_cases hne : j = i
    · subst hne
      left
      show s.content j ∈ w :: s.log
      rw [hcon]; exact List.mem_cons_self
    · have := h.good j hj (by
        intro t1 q1 e1
        by_cases ht : t1 = t
        · subst ht
          rw [hp] at e1
          cases e1
          simpa [Pc.writing] using hne
        · exact hw t1 q1 (by rw [hother t1 ht]; exact e1))
      rcases this with hg | hg
      · exact .inl (List.mem_cons_of_mem _ hg)
      · exact .inr hg
  · intro j hj1 hj2
    rcases h.fresh j hj1 hj2 with hg | ⟨t1, q1, e1, hs⟩
    · exact .inl (List.mem_cons_of_mem _ hg)
    · by_cases ht : t1 = t
      · subst ht
        rw [hp] at e1
        cases e1
        have : j = i := by simpa [Pc.setting] using hs
        subst this
        left
        show s.content j ∈ w :: s.log
        rw [hcon]; exact List.mem_cons_self
      · exact .inr ⟨t1, q1, by rw [hother t1 ht]; exact e1, hs⟩
  · intro t1 b e1
    rcases getElem?_set' _ _ _ _ _ e1 with ⟨_, b1⟩ | ⟨_, e1'⟩
    · cases b1
    · rcases h.res t1 b e1' with hg | hg
      · exact .inl (List.mem_cons_of_mem _ hg)
      · exact .inr hg

/-- The step that creates a file. -/
theorem Inv.create {v : Option Bytes} {s : Sys} (h : Inv v s) {t : Nat} {w : Bytes}
    (hp : s.pcs[t]? = some (.setOpen w)) :
    Inv v { s with entry := some s.data.length, data := s.data ++ [[]],
                   pcs := s.pcs.set t (.setLock s.data.length w) } := by
  have hself := getElem?_set_self' (a := Pc.setLock s.data.length w) hp
  have hother : ∀ t', t' ≠ t → (s.pcs.set t (.setLock s.data.length w))[t']? = s.pcs[t']? := by
    intro t' hne; rw [List.getElem?_set, if_neg (fun e => hne e.symm)]
  have hc : ∀ j, j < s.data.length → Sys.content { s with entry := some s.data.length, data := s.data ++ [[]], pcs := s.pcs.set t (.setLock s.data.length w) } j = s.content j := by
    intro j hj
    unfold Sys.content
    simp only [List.getElem?_append_left hj]
  have hc' : Sys.content { s with entry := some s.data.length, data := s.data ++ [[]], pcs := s.pcs.set t (.setLock s.data.length w) } s.data.length = [] := by
    unfold Sys.content
    simp
  have hb := h.base
  constructor
  · simp; omega
  · intro t1 t2 q1 q2 j e1 e2 hne hx
    rcases getElem?_set' _ _ _ _ _ e1 with ⟨a1, b1⟩ | ⟨a1, e1'⟩
    · rw [b1] at hx; cases hx
    · rcases getElem?_set' _ _ _ _ _ e2 with ⟨a2, b2⟩ | ⟨a2, e2'⟩
      · rw [b2]; rfl
      · exact h.ex t1 t2 q1 q2 j e1' e2' hne hx
  · intro t1 q1 j e1 hj
    simp only [List.length_append, List.length_singleton]
    rcases getElem?_set' _ _ _ _ _ e1 with ⟨_, b1⟩ | ⟨_, e1'⟩
    · rw [b1] at hj; cases hj; omega
    · have := h.ino t1 q1 j e1' hj; omega
  · intro j hj
    simp only [List.length_append, List.length_singleton]
    cases hj; omega
  · intro t1 j w' n' e1
    rcases getElem?_set' _ _ _ _ _ e1 with ⟨_, b1⟩ | ⟨a1, e1'⟩
    · cases b1
    · rw [hc j (h.ino t1 _ j e1' rfl)]
      exact h.wr t1 j w' n' e1'
  · intro t1 j acc e1
    rcases getElem?_set' _ _ _ _ _ e1 with ⟨_, b1⟩ | ⟨a1, e1'⟩
    · cases b1
    · rw [hc j (h.ino t1 _ j e1' rfl)]
      exact h.rd t1 j acc e1'
  · intro j hj hw
    simp only [List.length_append, List.length_singleton] at hj
    by_cases hlt : j < s.data.length
    · rw [hc j hlt]
      apply h.good j hlt
      intro t1 q1 e1
      by_cases ht : t1 = t
      · subst ht
        rw [hp] at e1
        cases e1
        rfl
      · exact hw t1 q1 (by rw [hother t1 ht]; exact e1)
    · have : j = s.data.length := by omega
      subst this
      rw [hc']
      exact .inr (.inr ⟨hb, rfl⟩)
  · intro j hj1 hj2
    simp only [List.length_append, List.length_singleton] at hj2
    by_cases hlt : j < s.data.length
    · rw [hc j hlt]
      rcases h.fresh j hj1 hlt with hg | ⟨t1, q1, e1, hs⟩
      · exact .inl hg
      · right
        by_cases ht : t1 = t
        · subst ht
          rw [hp] at e1
          cases e1
          cases hs
        · exact ⟨t1, q1, by rw [hother t1 ht]; exact e1, hs⟩
    · have : j = s.data.length := by omega
      subst this
      exact .inr ⟨t, _, hself, by simp [Pc.setting]⟩
  · intro t1 b e1
    simp only [List.length_append, List.length_singleton]
    rcases getElem?_set' _ _ _ _ _ e1 with ⟨_, b1⟩ | ⟨_, e1'⟩
    · cases b1
    · rcases h.res t1 b e1' with hg | hg | ⟨hg1, hg2⟩
      · exact .inl hg
      · exact .inr (.inl hg)
      · exact .inr (.inr ⟨by omega, hg2⟩)

theorem Inv.unlink {v : Option Bytes} {s : Sys} (h : Inv v s) : Inv v { s with entry := none } :=
  ⟨h.base, h.ex, h.ino, by simp, h.wr, h.rd, h.good, h.fresh, h.res⟩

theorem inv_advance {v : Option Bytes} {s s' : Sys} (h : Inv v s) {t : Nat}
    (hs : s.advance t = some s') : Inv v s' := by
  unfold Sys.advance at hs
  split at hs
  · rename_i p hp
    split at hs
    · rename_i p' s1 hn
      cases hs
      cases p with
      | idle r => cases hn
      | getCheck =>
        cases hn
        split
        all_goals
          apply h.move hp <;> simp [Pc.exclusive, Pc.holds, Pc.ino, Pc.writing, Pc.setting]
      | getOpen =>
        simp only [Sys.next] at hn
        split at hn
        · rename_i i he
          cases hn
          have := h.entry i he
          apply h.move hp <;> simp [Pc.exclusive, Pc.holds, Pc.ino, Pc.writing, Pc.setting, this]
        · cases hn
          apply h.move hp <;> simp [Pc.exclusive, Pc.holds, Pc.ino, Pc.writing, Pc.setting]
      | getLock i =>
        simp only [Sys.next] at hn
        split at hn
        · cases hn
        · rename_i hany
          cases hn
          have hi := h.ino t _ i hp rfl
          apply h.move hp
          · simp [Pc.exclusive]
          · intro j hj t' q _ hq
            have : j = i := by simpa [Pc.holds] using hj
            subst this
            exact not_any hany hq
          · simpa [Pc.ino] using hi
          · simp
          · intro j acc hj; cases hj; simp
          · simp [Pc.writing]
          · simp [Pc.setting]
          · simp
      | getRead i acc =>
        have hrd := h.rd t i acc hp
        have hi := h.ino t _ i hp rfl
        simp only [Sys.next] at hn
        split at hn
        · rename_i b hb
          cases hn
          obtain ⟨hlt, hb'⟩ := List.getElem?_eq_some_iff.mp hb
          apply h.move hp
          · simp [Pc.exclusive]
          · intro j hj t' q hne hq
            have : j = i := by simpa [Pc.holds] using hj
            subst this
            cases hx : q.exclusive j with
            | false => rfl
            | true =>
              have := h.ex t' t q _ j hq hp hne hx
              simp [Pc.holds] at this
          · simpa [Pc.ino] using hi
          · simp
          · intro j acc' hj
            cases hj
            rw [List.length_append, List.length_singleton]
            refine ⟨hlt, ?_⟩
            rw [List.take_add_one, ← hrd.2, hb]; rfl
          · simp [Pc.writing]
          · simp [Pc.setting]
          · simp
        · rename_i hb
          cases hn
          have hlen := List.getElem?_eq_none_iff.mp hb
          have hacc : acc = s.content i := by rw [hrd.2, List.take_of_length_le hlen]
          apply h.move hp
          · simp [Pc.exclusive]
          · simp [Pc.holds, Pc.exclusive]
          · simp [Pc.ino]
          · simp
          · simp
          · simp [Pc.writing]
          · simp [Pc.setting]
          · intro b hb
            cases hb
            have := h.good i hi (by
              intro t' q hq
              by_cases ht : t' = t
              · subst ht; rw [hp] at hq; cases hq; rfl
              · cases hx : q.writing i with
                | false => rfl
                | true =>
                  have hex : q.exclusive i = true := by
                    cases q <;> first | exact hx | (cases hx)
                  have := h.ex t' t q _ i hq hp ht hex
                  simp [Pc.holds] at this)
            rw [← hacc] at this
            rcases this with hg | ⟨_, hg⟩ | ⟨hg1, hg2⟩
            · exact .inl hg
            · exact .inr (.inl hg)
            · exact .inr (.inr ⟨by omega, hg2⟩)
      | setOpen w =>
        simp only [Sys.next] at hn
        split at hn
        · rename_i i he
          cases hn
          have := h.entry i he
          apply h.move hp <;> simp [Pc.exclusive, Pc.holds, Pc.ino, Pc.writing, Pc.setting, this]
        · cases hn
          exact h.create hp
      | setLock i w =>
        simp only [Sys.next] at hn
        split at hn
        · cases hn
        · rename_i hany
          cases hn
          have hi := h.ino t _ i hp rfl
          apply h.move hp
          · intro j hj t' q _ hq
            have : j = i := by simpa [Pc.exclusive] using hj
            subst this
            exact not_any hany hq
          · intro j hj t' q _ hq
            have : j = i := by simpa [Pc.holds, Pc.exclusive] using hj
            subst this
            exact holds_false (not_any hany hq)
          · simpa [Pc.ino] using hi
          · simp
          · simp
          · simp [Pc.writing]
          · simp [Pc.setting]
          · simp
      | setTrunc i w =>
        cases hn
        exact h.write (n := 0) hp (Nat.zero_le _) (by simp [Pc.exclusive]) (by simp [Pc.writing])
          (by simp [Pc.setting]) rfl
      | setWrite i w n =>
        have hwr := h.wr t i w n hp
        simp only [Sys.next] at hn
        split at hn
        · rename_i b hb
          cases hn
          obtain ⟨hlt, hb'⟩ := List.getElem?_eq_some_iff.mp hb
          have hval : (s.content i).take n ++ b :: (s.content i).drop (n + 1) = w.take (n + 1) := by
            rw [hwr.2, List.take_take, Nat.min_self, List.drop_eq_nil_of_le (by
              rw [List.length_take]; omega), List.take_add_one, hb]
            rfl
          rw [hval]
          exact h.write hp (by omega) (by simp [Pc.exclusive]) (by simp [Pc.writing])
            (by simp [Pc.setting]) rfl
        · rename_i hb
          cases hn
          have hlen := List.getElem?_eq_none_iff.mp hb
          have : n = w.length := by omega
          subst this
          exact h.close hp
      | eraCheck =>
        cases hn
        split
        all_goals
          apply h.move hp <;> simp [Pc.exclusive, Pc.holds, Pc.ino, Pc.writing, Pc.setting]
      | eraOpen =>
        simp only [Sys.next] at hn
        split at hn
        · rename_i i he
          cases hn
          have := h.entry i he
          apply h.move hp <;> simp [Pc.exclusive, Pc.holds, Pc.ino, Pc.writing, Pc.setting, this]
        · cases hn
          apply h.move hp <;> simp [Pc.exclusive, Pc.holds, Pc.ino, Pc.writing, Pc.setting]
      | eraLock i =>
        simp only [Sys.next] at hn
        split at hn
        · cases hn
        · rename_i hany
          cases hn
          have hi := h.ino t _ i hp rfl
          apply h.move hp
          · intro j hj t' q _ hq
            have : j = i := by simpa [Pc.exclusive] using hj
            subst this
            exact not_any hany hq
          · intro j hj t' q _ hq
            have : j = i := by simpa [Pc.holds, Pc.exclusive] using hj
            subst this
            exact holds_false (not_any hany hq)
          · simpa [Pc.ino] using hi
          · simp
          · simp
          · simp [Pc.writing]
          · simp [Pc.setting]
          · simp
      | eraUnlink i =>
        have hi := h.ino t _ i hp rfl
        simp only [Sys.next] at hn
        split at hn
        · cases hn
          have : Inv v { s with pcs := s.pcs.set t (.eraClose i) } := by
            apply h.move hp
            · intro j hj t' q hne hq
              have : j = i := by simpa [Pc.exclusive] using hj
              subst this
              exact h.ex t t' _ q j hp hq (fun e => hne e.symm) (by simp [Pc.exclusive])
            · intro j hj t' q hne hq
              have : j = i := by simpa [Pc.holds, Pc.exclusive] using hj
              subst this
              exact holds_false (h.ex t t' _ q j hp hq (fun e => hne e.symm) (by simp [Pc.exclusive]))
            · simpa [Pc.ino] using hi
            · simp
            · simp
            · simp [Pc.writing]
            · simp [Pc.setting]
            · simp
          exact this.unlink
        · cases hn
          apply h.move hp <;> simp [Pc.exclusive, Pc.holds, Pc.ino, Pc.writing, Pc.setting]
      | eraClose i =>
        cases hn
        apply h.move hp <;> simp [Pc.exclusive, Pc.holds, Pc.ino, Pc.writing, Pc.setting]
      | eraFinal =>
        cases hn
        apply h.move hp <;> simp [Pc.exclusive, Pc.holds, Pc.ino, Pc.writing, Pc.setting]
    · cases hs
  · cases hs

theorem inv_reach {P : Call → Prop} {v : Option Bytes} {n : Nat} {s : Sys}
    (h : Reach P (Sys.initial v n) s) : Inv v s := by
  induction h with
  | refl => exact inv_initial v n
  | step _ hs ih =>
    cases hs with
    | start t c _ h => exact inv_start ih h
    | advance t h => exact inv_advance ih h

/-! ## Without erasures -/

/-- The thread is in an `erase`. -/
def Pc.erasing : Pc → Bool
  | .eraCheck | .eraOpen | .eraLock _ | .eraUnlink _ | .eraClose _ | .eraFinal => true
  | _ => false

/-- The thread is in a `set`. -/
def Pc.inSet : Pc → Bool
  | .setOpen _ | .setLock _ _ | .setTrunc _ _ | .setWrite _ _ _ => true
  | _ => false

/-- What holds in every state that can be reached without calls of `erase`. -/
structure InvSet (v : Option Bytes) (s : Sys) : Prop where
  inv : Inv v s
  noEra : ∀ (t : Nat) (p : Pc), s.pcs[t]? = some p → p.erasing = false
  shape : (s.entry = none ∧ s.data = [] ∧ v = none ∧ s.log = []) ∨
    (s.entry = some 0 ∧ s.data.length = 1)
  last : (∀ (t : Nat) (p : Pc), s.pcs[t]? = some p → p.writing 0 = false) →
    s.content 0 = s.log.head?.getD (v.getD [])

theorem invSet_initial (v : Option Bytes) (n : Nat) : InvSet v (Sys.initial v n) := by
  refine ⟨inv_initial v n, ?_, ?_, ?_⟩
  · intro t p h
    simp only [Sys.initial, List.getElem?_replicate] at h
    split at h
    · cases h; rfl
    · cases h
  · cases v with
    | none => exact .inl ⟨rfl, rfl, rfl, rfl⟩
    | some b => exact .inr ⟨rfl, rfl⟩
  · intro _
    cases v <;> rfl

theorem invSet_start {v : Option Bytes} {s s' : Sys} (h : InvSet v s) {t : Nat} {c : Call}
    (hc : c ≠ .erase) (hs : s.start t c = some s') : InvSet v s' := by
  have hinv := inv_start h.inv hs
  unfold Sys.start at hs
  split at hs
  · rename_i r hp
    cases hs
    refine ⟨hinv, ?_, h.shape, ?_⟩
    · intro t1 q1 e1
      rcases getElem?_set' _ _ _ _ _ e1 with ⟨_, b1⟩ | ⟨_, e1'⟩
      · rw [b1]
        cases c with
        | get => rfl
        | set w => rfl
        | erase => exact absurd rfl hc
      · exact h.noEra t1 q1 e1'
    · intro hw
      apply h.last
      intro t1 q1 e1
      by_cases ht : t1 = t
      · subst ht; rw [hp] at e1; cases e1; rfl
      · exact hw t1 q1 (by
          show (s.pcs.set t c.begin)[t1]? = _
          rw [List.getElem?_set, if_neg (fun e => ht e.symm)]; exact e1)
  · cases hs

/-- Steps that change neither the files nor the log. -/
theorem InvSet.move {v : Option Bytes} {s : Sys} (h : InvSet v s) {t : Nat} {p p' : Pc}
    (hp : s.pcs[t]? = some p) (hi : Inv v { s with pcs := s.pcs.set t p' })
    (h1 : p'.erasing = false) (h2 : p.writing 0 = false) :
    InvSet v { s with pcs := s.pcs.set t p' } := by
  refine ⟨hi, ?_, h.shape, ?_⟩
  · intro t1 q1 e1
    rcases getElem?_set' _ _ _ _ _ e1 with ⟨_, b1⟩ | ⟨_, e1'⟩
    · rw [b1]; exact h1
    · exact h.noEra t1 q1 e1'
  · intro hw
    apply h.last
    intro t1 q1 e1
    by_cases ht : t1 = t
    · subst ht; rw [hp] at e1; cases e1; exact h2
    · exact hw t1 q1 (by
        show (s.pcs.set t p')[t1]? = _
        rw [List.getElem?_set, if_neg (fun e => ht e.symm)]; exact e1)

theorem invSet_advance {v : Option Bytes} {s s' : Sys} (h : InvSet v s) {t : Nat}
    (hs : s.advance t = some s') : InvSet v s' := by
  have hinv := inv_advance h.inv hs
  unfold Sys.advance at hs
  split at hs
  · rename_i p hp
    have hera := h.noEra t p hp
    split at hs
    · rename_i p' s1 hn
      cases hs
      have hzero : ∀ i, p.ino = some i → i = 0 ∧ s.entry = some 0 ∧ s.data.length = 1 := by
        intro i hi
        have := h.inv.ino t p i hp hi
        rcases h.shape with ⟨_, h2, _⟩ | ⟨h1, h2⟩
        · rw [h2] at this; cases this
        · exact ⟨by omega, h1, h2⟩
      cases p with
      | idle r => cases hn
      | getCheck =>
        cases hn
        exact h.move hp hinv (by split <;> rfl) rfl
      | getOpen =>
        simp only [Sys.next] at hn
        split at hn
        · cases hn; exact h.move hp hinv rfl rfl
        · cases hn; exact h.move hp hinv rfl rfl
      | getLock i =>
        simp only [Sys.next] at hn
        split at hn
        · cases hn
        · cases hn; exact h.move hp hinv rfl rfl
      | getRead i acc =>
        simp only [Sys.next] at hn
        split at hn
        · cases hn; exact h.move hp hinv rfl rfl
        · cases hn; exact h.move hp hinv rfl rfl
      | setOpen w =>
        simp only [Sys.next] at hn
        split at hn
        · cases hn; exact h.move hp hinv rfl rfl
        · rename_i he
          cases hn
          rcases h.shape with ⟨_, h2, h3, h4⟩ | ⟨h1, _⟩
          · refine ⟨hinv, ?_, ?_, ?_⟩
            · intro t1 q1 e1
              rcases getElem?_set' _ _ _ _ _ e1 with ⟨_, b1⟩ | ⟨_, e1'⟩
              · rw [b1]; rfl
              · exact h.noEra t1 q1 e1'
            · right; simp [h2]
            · intro _; simp [Sys.content, h2, h3, h4]
          · rw [he] at h1; cases h1
      | setLock i w =>
        simp only [Sys.next] at hn
        split at hn
        · cases hn
        · cases hn; exact h.move hp hinv rfl rfl
      | setTrunc i w =>
        obtain ⟨h0, h1, h2⟩ := hzero i rfl
        subst h0
        cases hn
        refine ⟨hinv, ?_, .inr ⟨h1, by simpa using h2⟩, ?_⟩
        · intro t1 q1 e1
          rcases getElem?_set' _ _ _ _ _ e1 with ⟨_, b1⟩ | ⟨_, e1'⟩
          · rw [b1]; rfl
          · exact h.noEra t1 q1 e1'
        · intro hw
          have := hw t _ (getElem?_set_self' (a := Pc.setWrite 0 w 0) hp)
          cases this
      | setWrite i w n =>
        obtain ⟨h0, h1, h2⟩ := hzero i rfl
        subst h0
        simp only [Sys.next] at hn
        split at hn
        · cases hn
          refine ⟨hinv, ?_, .inr ⟨h1, by simpa using h2⟩, ?_⟩
          · intro t1 q1 e1
            rcases getElem?_set' _ _ _ _ _ e1 with ⟨_, b1⟩ | ⟨_, e1'⟩
            · rw [b1]; rfl
            · exact h.noEra t1 q1 e1'
          · intro hw
            have := hw t _ (getElem?_set_self' (a := Pc.setWrite 0 w (n + 1)) hp)
            cases this
        · rename_i hb
          cases hn
          have hwr := h.inv.wr t 0 w n hp
          have hlen := List.getElem?_eq_none_iff.mp hb
          refine ⟨hinv, ?_, .inr ⟨h1, h2⟩, ?_⟩
          · intro t1 q1 e1
            rcases getElem?_set' _ _ _ _ _ e1 with ⟨_, b1⟩ | ⟨_, e1'⟩
            · rw [b1]; rfl
            · exact h.noEra t1 q1 e1'
          · intro _
            show s.content 0 = w
            rw [hwr.2, List.take_of_length_le hlen]
      | eraCheck => cases hera
      | eraOpen => cases hera
      | eraLock i => cases hera
      | eraUnlink i => cases hera
      | eraClose i => cases hera
      | eraFinal => cases hera
    · cases hs
  · cases hs

theorem invSet_reach {v : Option Bytes} {n : Nat} {s : Sys}
    (h : Reach (· ≠ .erase) (Sys.initial v n) s) : InvSet v s := by
  induction h with
  | refl => exact invSet_initial v n
  | step _ hs ih =>
    cases hs with
    | start t c hc h => exact invSet_start ih hc h
    | advance t h => exact invSet_advance ih h

/-! ## C47 -/

/-- C47 (partial). Any number of threads call `get`, `set` and `erase` for one key, in any order and
any interleaving of their system calls. What a `get` returned is nothing, an error, the value the key
had at first, a value some `set` wrote completely, or the empty value of a file that was created and
not yet locked: never a mixture and never a proper non-empty part. Without erasures a `get` that ends
returns the value of the `set` that ended last, and what the key held at first if none has; the value
is empty only in the time between the creation of the file and the end of the first `set`. -/
theorem C47_partial (v : Option Bytes) (n : Nat) :
    (∀ (P : Call → Prop) (s : Sys), Reach P (Sys.initial v n) s →
      ∀ (t : Nat) (b : Bytes), s.pcs[t]? = some (.idle (some (.got (some b)))) →
        b ∈ s.log ∨ v = some b ∨ (v.toList.length < s.data.length ∧ b = [])) ∧
    (∀ (s s' : Sys), Reach (· ≠ .erase) (Sys.initial v n) s →
      ∀ (t i : Nat) (acc b : Bytes), s.pcs[t]? = some (.getRead i acc) → s.advance t = some s' →
        s'.pcs[t]? = some (.idle (some (.got (some b)))) →
        b = s.log.head?.getD (v.getD []) ∧ s'.log = s.log) := by
  refine ⟨fun P s hr => (inv_reach hr).res, ?_⟩
  intro s s' hr t i acc b hp hs hb
  have h := invSet_reach hr
  have hi := h.inv.ino t _ i hp rfl
  have h0 : i = 0 := by
    rcases h.shape with ⟨_, h2, _⟩ | ⟨h1, h2⟩
    · rw [h2] at hi; cases hi
    · omega
  subst h0
  have hrd := h.inv.rd t 0 acc hp
  unfold Sys.advance at hs
  rw [hp] at hs
  simp only [Sys.next] at hs
  cases hg : (s.content 0)[acc.length]? with
  | some x =>
    rw [hg] at hs
    cases hs
    have := getElem?_set_self' (a := Pc.getRead 0 (acc ++ [x])) hp
    rw [show (s.pcs.set t (.getRead 0 (acc ++ [x])))[t]? = _ from this] at hb
    cases hb
  | none =>
    rw [hg] at hs
    cases hs
    have := getElem?_set_self' (a := Pc.idle (some (.got (some acc)))) hp
    rw [show (s.pcs.set t (.idle (some (.got (some acc)))))[t]? = _ from this] at hb
    cases hb
    refine ⟨?_, rfl⟩
    have hlen := List.getElem?_eq_none_iff.mp hg
    rw [← h.last, hrd.2, List.take_of_length_le hlen]
    intro t' q hq
    by_cases ht : t' = t
    · subst ht; rw [hp] at hq; cases hq; rfl
    · cases hx : q.writing 0 with
      | false => rfl
      | true =>
        have hex : q.exclusive 0 = true := by cases q <;> first | exact hx | (cases hx)
        have := h.inv.ex t' t q _ 0 hq hp ht hex
        cases this

/-- Reading, and a schedule, lead to reachable states. -/
theorem reach_run {P : Call → Prop} (hP : ∀ c, P c) (s0 : Sys) :
    ∀ (l : List (Nat × Option Call)) (s s' : Sys), Reach P s0 s → s.run l = some s' → Reach P s0 s'
  | [], s, s', hr, h => by cases h; exact hr
  | (t, some c) :: l, s, s', hr, h => by
    simp only [Sys.run] at h
    cases hs : s.start t c with
    | none => rw [hs] at h; cases h
    | some s1 => rw [hs] at h; exact reach_run hP s0 l s1 s' (hr.step (.start t c (hP c) hs)) h
  | (t, none) :: l, s, s', hr, h => by
    simp only [Sys.run] at h
    cases hs : s.advance t with
    | none => rw [hs] at h; cases h
    | some s1 => rw [hs] at h; exact reach_run hP s0 l s1 s' (hr.step (.advance t hs)) h

/-- C47 (violated): `set` creates the file before it locks it, and a reader can come in between: it
returns an empty value that nobody wrote. -/
theorem C47_violated : ∃ s : Sys, Reach (fun _ => True) (Sys.initial none 2) s ∧
    s.pcs[1]? = some (.idle (some (.got (some [])))) ∧ s.log = [] ∧
    s.pcs[0]? = some (.setLock 0 [1, 2]) := by
  refine ⟨_, reach_run (fun _ => trivial) _
    [(0, some (.set [1, 2])), (0, none), (1, some .get), (1, none), (1, none), (1, none), (1, none)]
    (Sys.initial none 2) _ .refl rfl, rfl, rfl, rfl⟩

/-- A reader that waits for a writer gets the whole value. -/
example : (Sys.initial (some [9, 9, 9]) 2).run
    [(0, some (.set [1, 2])), (0, none), (1, some .get), (1, none), (1, none), (0, none), (0, none),
     (0, none), (0, none), (0, none), (1, none), (1, none), (1, none), (1, none)] =
    some ⟨some 0, [[1, 2]], [.idle (some .wrote), .idle (some (.got (some [1, 2])))], [[1, 2]]⟩ := by
  decide

/-- It cannot come earlier. -/
example : (Sys.initial (some [9, 9, 9]) 2).run
    [(0, some (.set [1, 2])), (0, none), (1, some .get), (1, none), (1, none), (0, none), (0, none),
     (1, none)] = none := by
  decide

/-! ## C62 -/

/-- C62. In any reachable state in which no thread is in a `set`, the key is absent or holds a value
some `set` wrote completely, or the one it held at first. If nothing was erased it holds the value of
the `set` that ended last, and what it held at first if there was none. -/
theorem C62_concurrentWriters (v : Option Bytes) (n : Nat) :
    (∀ (P : Call → Prop) (s : Sys), Reach P (Sys.initial v n) s →
      (∀ (t : Nat) (p : Pc), s.pcs[t]? = some p → p.inSet = false) →
      ∀ (i : Nat), s.entry = some i → s.content i ∈ s.log ∨ v = some (s.content i)) ∧
    (∀ (s : Sys), Reach (· ≠ .erase) (Sys.initial v n) s →
      (∀ (t : Nat) (p : Pc), s.pcs[t]? = some p → p.inSet = false) →
      s.entry.map s.content = s.log.head?.or v) := by
  have hw : ∀ (p : Pc) (i : Nat), p.inSet = false → p.setting i = false ∧ p.writing i = false := by
    intro p i hp
    cases p <;> first | exact ⟨rfl, rfl⟩ | (cases hp)
  constructor
  · intro P s hr hq i hi
    have h := inv_reach hr
    have hlt := h.entry i hi
    by_cases hv : v.toList.length ≤ i
    · rcases h.fresh i hv hlt with hg | ⟨t, p, e, hs⟩
      · exact .inl hg
      · rw [(hw p i (hq t p e)).1] at hs; cases hs
    · rcases h.good i hlt (fun t p e => (hw p i (hq t p e)).2) with hg | ⟨_, hg⟩ | ⟨hg, _⟩
      · exact .inl hg
      · exact .inr hg
      · exact absurd hg hv
  · intro s hr hq
    have h := invSet_reach hr
    have hlast := h.last (fun t p e => (hw p 0 (hq t p e)).2)
    rcases h.shape with ⟨h1, _, h3, h4⟩ | ⟨h1, h2⟩
    · rw [h1, h3, h4]; rfl
    · rw [h1]
      show some (s.content 0) = _
      rw [hlast]
      cases hl : s.log with
      | cons x xs => rfl
      | nil =>
        cases v with
        | some b => rfl
        | none =>
          rcases h.inv.fresh 0 (Nat.zero_le _) (by omega) with hg | ⟨t, p, e, hs⟩
          · rw [hl] at hg; cases hg
          · rw [(hw p 0 (hq t p e)).1] at hs; cases hs

/-- Two writers at once. -/
example : (Sys.initial none 2).run
    [(0, some (.set [1, 2])), (0, none), (1, some (.set [7])), (1, none), (1, none), (1, none),
     (1, none), (1, none), (0, none), (0, none), (0, none), (0, none), (0, none)] =
    some ⟨some 0, [[1, 2]], [.idle (some .wrote), .idle (some .wrote)], [[1, 2], [7]]⟩ := by
  decide

/-! ## C63 -/

/-- A thread that holds a lock does not wait. -/
theorem holder_advances (s : Sys) {p : Pc} {i : Nat} (h : p.holds i = true) :
    (s.next p).isSome = true := by
  cases p <;> first | (cases h; done) | skip
  case getRead j acc => simp only [Sys.next]; split <;> rfl
  case setTrunc j w => rfl
  case setWrite j w n => simp only [Sys.next]; split <;> rfl
  case eraUnlink j => simp only [Sys.next]; split <;> rfl
  case eraClose j => rfl

theorem advance_isSome {s : Sys} {t : Nat} {p : Pc} (hp : s.pcs[t]? = some p)
    (h : (s.next p).isSome = true) : (s.advance t).isSome = true := by
  unfold Sys.advance
  rw [hp]
  cases hn : s.next p with
  | none => rw [hn] at h; cases h
  | some q => simp only [hn, Option.isSome_some]

theorem any_index {l : List Pc} {f : Pc → Bool} (h : l.any f = true) :
    ∃ (t : Nat) (p : Pc), l[t]? = some p ∧ f p = true := by
  obtain ⟨p, hp, hf⟩ := List.any_eq_true.mp h
  obtain ⟨t, ht⟩ := List.getElem?_of_mem hp
  exact ⟨t, p, ht, hf⟩

/-- The steps a thread still has to take, for values of at most `M` bytes. -/
def Pc.weight (M : Nat) : Pc → Nat
  | .idle _ => 0
  | .getCheck => M + 4
  | .getOpen => M + 3
  | .getLock _ => M + 2
  | .getRead _ acc => M + 1 - acc.length
  | .setOpen v => v.length + 4
  | .setLock _ v => v.length + 3
  | .setTrunc _ v => v.length + 2
  | .setWrite _ v n => v.length + 1 - n
  | .eraCheck => 6
  | .eraOpen => 5
  | .eraLock _ => 4
  | .eraUnlink _ => 3
  | .eraClose _ => 2
  | .eraFinal => 1

/-- Steps of threads that are in calls, with no new calls. -/
inductive Advances : Nat → Sys → Sys → Prop
  | zero (s : Sys) : Advances 0 s s
  | succ {k : Nat} {s s1 s2 : Sys} (t : Nat) (h : s.advance t = some s1) (r : Advances k s1 s2) :
    Advances (k + 1) s s2

/-- The value a thread is going to write. -/
def Pc.value : Pc → Bytes
  | .setOpen v => v
  | .setLock _ v => v
  | .setTrunc _ v => v
  | .setWrite _ v _ => v
  | _ => []

/-- All values, stored and to be stored, have at most `M` bytes. -/
structure Bounded (M : Nat) (s : Sys) : Prop where
  data : ∀ d ∈ s.data, d.length ≤ M
  pcs : ∀ p ∈ s.pcs, p.value.length ≤ M

/-- The steps all threads still have to take. -/
def Sys.weight (M : Nat) (s : Sys) : Nat := (s.pcs.map (Pc.weight M)).sum

theorem sum_set {l : List Pc} {f : Pc → Nat} {t : Nat} {p p' : Pc} (hp : l[t]? = some p) :
    ((l.set t p').map f).sum + f p = (l.map f).sum + f p' := by
  induction l generalizing t with
  | nil => cases hp
  | cons a l ih =>
    cases t with
    | zero => cases hp; simp; omega
    | succ t =>
      have := ih (t := t) (by simpa using hp)
      simp only [List.set_cons_succ, List.map_cons, List.sum_cons]
      omega

theorem mem_set_pcs {l : List Pc} {t : Nat} {p' q : Pc} (h : q ∈ l.set t p') : q ∈ l ∨ q = p' :=
  (List.mem_or_eq_of_mem_set h)

theorem content_bounded {M : Nat} {s : Sys} (h : Bounded M s) (i : Nat) : (s.content i).length ≤ M := by
  unfold Sys.content
  cases hd : s.data[i]? with
  | none => exact Nat.zero_le _
  | some d => exact h.data d (List.mem_of_getElem? hd)

/-- Every step leaves fewer steps to take. -/
theorem advance_weight {v : Option Bytes} {M : Nat} {s s' : Sys} (hi : Inv v s) (hb : Bounded M s)
    {t : Nat} (hs : s.advance t = some s') : Bounded M s' ∧ s'.weight M < s.weight M := by
  unfold Sys.advance at hs
  split at hs
  · rename_i p hp
    have hval : p.value.length ≤ M := hb.pcs p (List.mem_of_getElem? hp)
    split at hs
    · rename_i p' s1 hn
      cases hs
      have key : (∀ d ∈ s1.data, d.length ≤ M) ∧ p'.value.length ≤ M ∧ p'.weight M < p.weight M := by
        cases p with
        | idle r => cases hn
        | getCheck =>
          cases hn
          refine ⟨hb.data, ?_⟩
          split <;> simp [Pc.value, Pc.weight]
        | getOpen =>
          simp only [Sys.next] at hn
          split at hn <;> cases hn <;> exact ⟨hb.data, by simp [Pc.value], by simp [Pc.weight]⟩
        | getLock i =>
          simp only [Sys.next] at hn
          split at hn <;> cases hn
          exact ⟨hb.data, by simp [Pc.value], by simp [Pc.weight]⟩
        | getRead i acc =>
          simp only [Sys.next] at hn
          have hrd := (hi.rd t i acc hp).1
          have hc := content_bounded hb i
          split at hn
          · cases hn
            exact ⟨hb.data, by simp [Pc.value], by simp only [Pc.weight, List.length_append, List.length_singleton]; omega⟩
          · cases hn
            exact ⟨hb.data, by simp [Pc.value], by simp only [Pc.weight]; omega⟩
        | setOpen w =>
          simp only [Sys.next] at hn
          split at hn
          · cases hn
            exact ⟨hb.data, hval, by simp [Pc.weight]⟩
          · cases hn
            refine ⟨?_, hval, by simp [Pc.weight]⟩
            intro d hd
            rcases List.mem_append.mp hd with hd | hd
            · exact hb.data d hd
            · rw [List.mem_singleton.mp hd]; exact Nat.zero_le _
        | setLock i w =>
          simp only [Sys.next] at hn
          split at hn <;> cases hn
          exact ⟨hb.data, hval, by simp [Pc.weight]⟩
        | setTrunc i w =>
          cases hn
          refine ⟨?_, hval, by simp [Pc.weight]⟩
          intro d hd
          rcases List.mem_or_eq_of_mem_set hd with hd | hd
          · exact hb.data d hd
          · rw [hd]; exact Nat.zero_le _
        | setWrite i w n =>
          have hwr := hi.wr t i w n hp
          simp only [Sys.next] at hn
          split at hn
          · rename_i b hb'
            cases hn
            have hlt := (List.getElem?_eq_some_iff.mp hb').1
            refine ⟨?_, hval, by simp only [Pc.weight]; omega⟩
            intro d hd
            rcases List.mem_or_eq_of_mem_set hd with hd | hd
            · exact hb.data d hd
            · rw [hd, hwr.2]
              have : w.length ≤ M := hval
              simp only [List.length_append, List.length_cons, List.length_take, List.length_drop]
              omega
          · cases hn
            exact ⟨hb.data, by simp [Pc.value], by simp only [Pc.weight]; omega⟩
        | eraCheck =>
          cases hn
          refine ⟨hb.data, ?_⟩
          split <;> simp [Pc.value, Pc.weight]
        | eraOpen =>
          simp only [Sys.next] at hn
          split at hn <;> cases hn <;> exact ⟨hb.data, by simp [Pc.value], by simp [Pc.weight]⟩
        | eraLock i =>
          simp only [Sys.next] at hn
          split at hn <;> cases hn
          exact ⟨hb.data, by simp [Pc.value], by simp [Pc.weight]⟩
        | eraUnlink i =>
          simp only [Sys.next] at hn
          split at hn <;> cases hn <;> exact ⟨hb.data, by simp [Pc.value], by simp [Pc.weight]⟩
        | eraClose i =>
          cases hn
          exact ⟨hb.data, by simp [Pc.value], by simp [Pc.weight]⟩
        | eraFinal =>
          cases hn
          exact ⟨hb.data, by simp [Pc.value], by simp [Pc.weight]⟩
      obtain ⟨k1, k2, k3⟩ := key
      refine ⟨⟨k1, ?_⟩, ?_⟩
      · intro q hq
        rcases mem_set_pcs hq with hq | hq
        · exact hb.pcs q hq
        · rw [hq]; exact k2
      · have := sum_set (f := Pc.weight M) (p' := p') hp
        show ((s.pcs.set t p').map (Pc.weight M)).sum < (s.pcs.map (Pc.weight M)).sum
        omega
    · cases hs
  · cases hs

theorem advances_bounded {v : Option Bytes} {M k : Nat} {s s' : Sys} (ha : Advances k s s')
    (hi : Inv v s) (hb : Bounded M s) : k ≤ s.weight M ∧ Inv v s' := by
  induction ha with
  | zero s => exact ⟨Nat.zero_le _, hi⟩
  | succ t h _ ih =>
    have hw := advance_weight hi hb h
    have := ih (inv_advance hi h) hw.1
    exact ⟨by omega, this.2⟩

theorem exists_bound (s : Sys) : ∃ M, Bounded M s := by
  have h : ∀ l : List Bytes, ∃ M, ∀ d ∈ l, d.length ≤ M := by
    intro l
    induction l with
    | nil => exact ⟨0, by simp⟩
    | cons a l ih =>
      obtain ⟨M, hM⟩ := ih
      refine ⟨max M a.length, ?_⟩
      intro d hd
      rcases List.mem_cons.mp hd with rfl | hd
      · exact Nat.le_max_right _ _
      · exact Nat.le_trans (hM d hd) (Nat.le_max_left _ _)
  obtain ⟨M1, h1⟩ := h s.data
  obtain ⟨M2, h2⟩ := h (s.pcs.map Pc.value)
  refine ⟨max M1 M2, ⟨fun d hd => Nat.le_trans (h1 d hd) (Nat.le_max_left _ _), ?_⟩⟩
  intro p hp
  exact Nat.le_trans (h2 _ (List.mem_map_of_mem hp)) (Nat.le_max_right _ _)

/-- C63. Calls of `get`, `set` and `erase` for one key do not wait for each other for ever. In a state
in which some thread is in a call, some thread can go on; and from any reachable state only finitely
many steps can be taken before new calls start, so that all calls return however the threads are
scheduled. -/
theorem C63_noDeadlock :
    (∀ (s : Sys), (∀ t, s.advance t = none) →
      ∀ (t : Nat) (p : Pc), s.pcs[t]? = some p → ∃ r, p = .idle r) ∧
    (∀ (v : Option Bytes) (n : Nat) (P : Call → Prop) (s : Sys), Reach P (Sys.initial v n) s →
      ∃ N, ∀ (k : Nat) (s' : Sys), Advances k s s' → k ≤ N) := by
  constructor
  · intro s hstuck t p hp
    have hfree : ∀ (i : Nat), s.pcs.any (Pc.holds i) = false := by
      intro i
      cases hany : s.pcs.any (Pc.holds i) with
      | false => rfl
      | true =>
        obtain ⟨t', q, hq, hh⟩ := any_index hany
        have := advance_isSome hq (holder_advances s hh)
        rw [hstuck t'] at this; cases this
    have hfree' : ∀ (i : Nat), s.pcs.any (Pc.exclusive i) = false := by
      intro i
      cases hany : s.pcs.any (Pc.exclusive i) with
      | false => rfl
      | true =>
        obtain ⟨t', q, hq, hh⟩ := any_index hany
        have := advance_isSome hq (holder_advances s (exclusive_holds hh))
        rw [hstuck t'] at this; cases this
    have hnone : (s.next p).isSome = true → False := by
      intro h
      have := advance_isSome hp h
      rw [hstuck t] at this; cases this
    cases p with
    | idle r => exact ⟨r, rfl⟩
    | getCheck => exact (hnone rfl).elim
    | getOpen => exact (hnone (by simp only [Sys.next]; split <;> rfl)).elim
    | getLock i => exact (hnone (by simp only [Sys.next]; rw [hfree' i]; rfl)).elim
    | getRead i acc => exact (hnone (by simp only [Sys.next]; split <;> rfl)).elim
    | setOpen w => exact (hnone (by simp only [Sys.next]; split <;> rfl)).elim
    | setLock i w => exact (hnone (by simp only [Sys.next]; rw [hfree i]; rfl)).elim
    | setTrunc i w => exact (hnone rfl).elim
    | setWrite i w n => exact (hnone (by simp only [Sys.next]; split <;> rfl)).elim
    | eraCheck => exact (hnone rfl).elim
    | eraOpen => exact (hnone (by simp only [Sys.next]; split <;> rfl)).elim
    | eraLock i => exact (hnone (by simp only [Sys.next]; rw [hfree i]; rfl)).elim
    | eraUnlink i => exact (hnone (by simp only [Sys.next]; split <;> rfl)).elim
    | eraClose i => exact (hnone rfl).elim
    | eraFinal => exact (hnone rfl).elim
  · intro v n P s hr
    obtain ⟨M, hM⟩ := exists_bound s
    exact ⟨s.weight M, fun k s' ha => (advances_bounded ha (inv_reach hr) hM).1⟩

/-- Three threads in calls: a reader waits for a writer, an eraser waits too. -/
example : ∃ s : Sys, (Sys.initial (some [5]) 3).run
    [(0, some (.set [1])), (0, none), (0, none), (1, some .get), (1, none), (1, none),
     (2, some .erase), (2, none), (2, none)] = some s ∧
    s.advance 1 = none ∧ s.advance 2 = none ∧ (s.advance 0).isSome = true := by
  refine ⟨_, rfl, ?_⟩
  decide

end Zarr.Locks
