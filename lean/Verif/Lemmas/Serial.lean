import Verif.Props.Atomic
/-!
# Calls that take effect at once

Programs with at most one visible access: calls made of several store calls that nevertheless happen as if
made one after the other. -/

namespace Zarr.Threads

open Classical in
/-- `m` with the files of thread `i` as in `m'`. -/
noncomputable def ov (W : Nat → Loc → Prop) (i : Nat) (m m' : Mem) : Mem := fun l => if W i l then m' l else m l

namespace Prog
variable {α β γ : Type} (h : Hier)

/-- At most one access of thread `i` to a shared file is visible: a `get` of a file that others may change
or a `set`. `O j` are the shared files that only thread `j` changes. -/
def Visible (m0 : Mem) (W : Nat → Loc → Prop) (S : Loc → Prop) (O : Nat → Loc → Prop) (i : Nat) :
    Bool → Prog α → Prop
  | _, .done _ => True
  | b, .exists key k => Plain (h.loc key) ∧ (∀ j, W j (h.loc key) → j = i) ∧
      ∀ v, Sees m0 W S (h.loc key) v → (k (.ok v.isSome)).Visible m0 W S O i b
  | b, .get key k => Plain (h.loc key) ∧ (∀ j, W j (h.loc key) → j = i) ∧
      (((S (h.loc key) → O i (h.loc key)) ∧ ∀ v, Sees m0 W S (h.loc key) v → (k (.ok v)).Visible m0 W S O i b) ∨
        (b = true ∧ ∀ v, Sees m0 W S (h.loc key) v → (k (.ok v)).Visible m0 W S O i false))
  | b, .set key v k => Plain (h.loc key) ∧
      ((W i (h.loc key) ∧ (k v.2).Visible m0 W S O i b) ∨
        (S (h.loc key) ∧ (∀ j, O j (h.loc key) → j = i) ∧ b = true ∧ (k v.2).Visible m0 W S O i false))
  | b, .erase key k => Plain (h.loc key) ∧ W i (h.loc key) ∧ (k (.ok true)).Visible m0 W S O i b

theorem bind_assoc (p : Prog α) (f : α → Prog β) (g : β → Prog γ) :
    (p.bind f).bind g = p.bind fun a => (f a).bind g := by
  induction p with
  | done r => cases r <;> rfl
  | «exists» key k ih => simp only [bind]; congr 1; funext r; exact ih r
  | get key k ih => simp only [bind]; congr 1; funext r; exact ih r
  | set key v k ih => simp only [bind]; congr 1; funext r; exact ih r
  | erase key k ih => simp only [bind]; congr 1; funext r; exact ih r

theorem eval_of_astep {h : Hier} {p p' : Prog α} {m m' : Mem} (hs : p.astep h m = some (p', m')) :
    p.eval h m = p'.eval h m' := by
  cases p <;> simp only [astep, Option.some.injEq, Prod.mk.injEq, reduceCtorEq] at hs <;>
    obtain ⟨rfl, rfl⟩ := hs <;> rfl

/-- The first store call of a sequence of programs. -/
theorem astep_bind {h : Hier} {p : Prog α} {f : α → Prog β} {q : Prog β} {m m' : Mem} (hp : ∀ r, p ≠ .done r)
    (hs : (p.bind f).astep h m = some (q, m')) : ∃ p', p.astep h m = some (p', m') ∧ q = p'.bind f := by
  cases p with
  | done r => exact absurd rfl (hp r)
  | _ => simp only [bind, astep, Option.some.injEq, Prod.mk.injEq] at hs ⊢; exact ⟨_, ⟨rfl, hs.2⟩, hs.1.symm⟩

theorem bind_ne_done {p : Prog α} {f : α → Prog β} (hp : ∀ r, p ≠ .done r) (r : Outcome β) : p.bind f ≠ .done r := by
  cases p with
  | done r => exact absurd rfl (hp r)
  | _ => simp [bind]

end Prog

section
variable {α : Type} {h : Hier} {m0 : Mem} {W : Nat → Loc → Prop} {S : Loc → Prop} {O : Nat → Loc → Prop} {i : Nat}
variable {b : Bool} {p p' : Prog α} {m m' : Mem}

/-- The files thread `i` may use. -/
def Mine (W : Nat → Loc → Prop) (i : Nat) (l : Loc) : Prop := ∀ j, W j l → j = i

/-- The maps agree on the files that only thread `i` may change or that nobody changes. -/
def Stable (W : Nat → Loc → Prop) (S : Loc → Prop) (O : Nat → Loc → Prop) (i : Nat) (m m' : Mem) : Prop :=
  ∀ l, Mine W i l → (S l → O i l) → m l = m' l

/-- Programs see what they may see. -/
def Seen (m0 : Mem) (W : Nat → Loc → Prop) (S : Loc → Prop) (m : Mem) : Prop := ∀ l, Prog.Sees m0 W S l (m l)

theorem Seen.upd_own (hs : Seen m0 W S m) {l : Loc} (hl : W i l) (hap : ∀ i l, W i l → ¬ S l) (v : Option Bytes) :
    Seen m0 W S (upd m l v) := by
  intro x
  unfold upd
  split
  · rename_i e
    subst e
    exact ⟨fun _ k => absurd hl (k i), fun k => absurd k (hap i x hl)⟩
  · exact hs x

theorem Seen.upd_shared (hs : Seen m0 W S m) {l : Loc} (hl : S l) (v : Bytes) :
    Seen m0 W S (upd m l (some v)) := by
  intro x
  unfold upd
  split
  · rename_i e
    subst e
    exact ⟨fun k => absurd hl k, fun _ => rfl⟩
  · exact hs x

theorem Seen.isSome_eq (hs : Seen m0 W S m) (hs' : Seen m0 W S m') {l : Loc} (hm : Mine W i l) (he : Stable W S O i m m') :
    (m l).isSome = (m' l).isSome := by
  by_cases x : S l
  · rw [(hs l).2 x, (hs' l).2 x]
  · rw [he l hm fun y => absurd y x]

theorem Stable.upd (he : Stable W S O i m m') (l : Loc) (v : Option Bytes) : Stable W S O i (upd m l v) (upd m' l v) := by
  intro x h1 h2
  unfold Threads.upd
  split
  · rfl
  · exact he x h1 h2

/-- What programs with no visible access do depends only on files that are stable. -/
theorem Prog.Visible.congr (hap : ∀ i l, W i l → ¬ S l) (hv : p.Visible h m0 W S O i false) (hs : Seen m0 W S m)
    (hs' : Seen m0 W S m') (he : Stable W S O i m m') :
    (p.eval h m).1 = (p.eval h m').1 ∧ Stable W S O i (p.eval h m).2 (p.eval h m').2 := by
  induction p generalizing m m' with
  | done r => exact ⟨rfl, he⟩
  | «exists» key k ih =>
    simp only [Prog.eval, hs.isSome_eq hs' hv.2.1 he]
    exact ih _ (hv.2.2 _ (hs' _)) hs hs' he
  | get key k ih =>
    rcases hv.2.2 with ⟨k1, k2⟩ | ⟨k1, _⟩
    · simp only [Prog.eval, he _ hv.2.1 k1]
      exact ih _ (k2 _ (hs' _)) hs hs' he
    · simp at k1
  | set key v k ih =>
    rcases hv.2 with ⟨k1, k2⟩ | ⟨_, _, k1, _⟩
    · exact ih _ k2 (hs.upd_own k1 hap _) (hs'.upd_own k1 hap _) (he.upd _ _)
    · simp at k1
  | erase key k ih =>
    exact ih _ hv.2.2 (hs.upd_own hv.2.1 hap _) (hs'.upd_own hv.2.1 hap _) (he.upd _ _)

/-- The files a program changes. -/
theorem Prog.Visible.frame (hap : ∀ i l, W i l → ¬ S l) (hv : p.Visible h m0 W S O i b) (hs : Seen m0 W S m) :
    Seen m0 W S (p.eval h m).2 ∧
    ∀ l, ¬ W i l → ¬ (b = true ∧ S l ∧ ∀ j, O j l → j = i) → (p.eval h m).2 l = m l := by
  have un : ∀ {x l : Loc} {v : Option Bytes} {m : Mem}, ¬ x = l → upd m l v x = m x := fun hx => by rw [upd, if_neg hx]
  induction p generalizing m b with
  | done r => exact ⟨hs, fun _ _ _ => rfl⟩
  | «exists» key k ih => exact ih _ (hv.2.2 _ (hs _)) hs
  | get key k ih =>
    rcases hv.2.2 with ⟨k1, k2⟩ | ⟨rfl, k2⟩
    · exact ih _ (k2 _ (hs _)) hs
    · obtain ⟨j1, j2⟩ := ih _ (k2 _ (hs _)) hs
      exact ⟨j1, fun l h1 _ => j2 l h1 (by simp)⟩
  | set key v k ih =>
    rcases hv.2 with ⟨k1, k2⟩ | ⟨k1, k2, rfl, k3⟩
    · obtain ⟨j1, j2⟩ := ih _ k2 (hs.upd_own k1 hap (some v.1))
      refine ⟨j1, fun l h1 h2 => (j2 l h1 h2).trans (un ?_)⟩
      rintro rfl; exact h1 k1
    · obtain ⟨j1, j2⟩ := ih _ k3 (hs.upd_shared k1 v.1)
      refine ⟨j1, fun l h1 h2 => (j2 l h1 (by simp)).trans (un ?_)⟩
      rintro rfl; exact h2 ⟨rfl, k1, k2⟩
  | erase key k ih =>
    obtain ⟨j1, j2⟩ := ih _ hv.2.2 (hs.upd_own hv.2.1 hap none)
    refine ⟨j1, fun l h1 h2 => (j2 l h1 h2).trans (un ?_)⟩
    rintro rfl; exact h1 hv.2.1

/-- Programs with at most one visible access share files. -/
theorem Prog.Visible.shares (hv : p.Visible h m0 W S O i b) : p.Shares h m0 W S i := by
  induction p generalizing b with
  | done r => trivial
  | «exists» key k ih => exact ⟨hv.1, hv.2.1, fun v hs => ih _ (hv.2.2 v hs)⟩
  | get key k ih =>
    rcases hv.2.2 with ⟨k1, k2⟩ | ⟨rfl, k2⟩
    · exact ⟨hv.1, hv.2.1, fun v hs => ih _ (k2 v hs)⟩
    · exact ⟨hv.1, hv.2.1, fun v hs => ih _ (k2 v hs)⟩
  | set key v k ih =>
    rcases hv.2 with ⟨k1, k2⟩ | ⟨k1, k2, rfl, k3⟩
    · exact ⟨hv.1, .inl k1, ih _ k2⟩
    · exact ⟨hv.1, .inr k1, ih _ k3⟩
  | erase key k ih => exact ⟨hv.1, hv.2.1, ih _ hv.2.2⟩

theorem Prog.Shares.bind {α β : Type} {p : Prog α} {f : α → Prog β} (hp : p.Shares h m0 W S i)
    (hf : ∀ a, (f a).Shares h m0 W S i) : (p.bind f).Shares h m0 W S i := by
  induction p with
  | done r => cases r <;> first | exact hf _ | trivial
  | «exists» key k ih => exact ⟨hp.1, hp.2.1, fun v hv => ih _ (hp.2.2 v hv)⟩
  | get key k ih => exact ⟨hp.1, hp.2.1, fun v hv => ih _ (hp.2.2 v hv)⟩
  | set key v k ih => exact ⟨hp.1, hp.2.1, ih _ hp.2.2⟩
  | erase key k ih => exact ⟨hp.1, hp.2.1, ih _ hp.2.2⟩

end

/-! ## Threads that make calls one after the other -/

/-- A thread that makes calls one after the other and collects their results. -/
def seqProg {C R : Type} (prog : C → Prog R) : List C → Prog (List R)
  | [] => .done (.ok [])
  | c :: cs => (prog c).bind fun r => (seqProg prog cs).bind fun rs => .done (.ok (r :: rs))

/-- Calls made one after the other lead from `m` to `M` and have the results in the log. -/
def Valid {C R : Type} (h : Hier) (prog : C → Prog R) : Mem → List (Nat × C × R) → Mem → Prop
  | m, [], M => m = M
  | m, (_, c, r) :: log, M => ((prog c).eval h m).1 = .ok r ∧ Valid h prog ((prog c).eval h m).2 log M

/-- The entries of thread `i`. -/
def ofThread {β : Type} (i : Nat) (log : List (Nat × β)) : List β := (log.filter fun x => x.1 == i).map (·.2)

section
variable {C R : Type} {h : Hier} {prog : C → Prog R}

theorem Valid.append {m M M' : Mem} {log log' : List (Nat × C × R)} (h1 : Valid h prog m log M)
    (h2 : Valid h prog M log' M') : Valid h prog m (log ++ log') M' := by
  induction log generalizing m with
  | nil => cases h1; exact h2
  | cons x xs ih => exact ⟨h1.1, ih h1.2⟩

theorem ofThread_append {β : Type} (i : Nat) (xs ys : List (Nat × β)) :
    ofThread i (xs ++ ys) = ofThread i xs ++ ofThread i ys := by simp [ofThread]

theorem ofThread_self {β : Type} (i : Nat) (xs : List β) : ofThread i (xs.map fun x => (i, x)) = xs := by
  induction xs with
  | nil => rfl
  | cons x xs ih => simpa [ofThread] using ih

theorem ofThread_other {β : Type} {i j : Nat} (hij : j ≠ i) (xs : List β) : ofThread i (xs.map fun x => (j, x)) = [] := by
  induction xs with
  | nil => rfl
  | cons x xs ih => simpa [ofThread, hij] using ih

variable (h prog) in
/-- Where a thread is: it has finished; it is in a call that is not in the log; it is in a call that is. -/
def Place (m0 : Mem) (W : Nat → Loc → Prop) (S : Loc → Prop) (O : Nat → Loc → Prop) (i : Nat) (m M : Mem)
    (rs : List R) (rest : List C) (q : Prog (List R)) : Prop :=
  (rest = [] ∧ q = .done (.ok rs) ∧ ∀ l, W i l → m l = M l) ∨
  (∃ (c : C) (rest' : List C) (cur : Prog R), rest = c :: rest' ∧ (∀ r, cur ≠ .done r) ∧
    q = cur.bind (fun r => (seqProg prog rest').bind fun xs => .done (.ok (rs ++ r :: xs))) ∧
    cur.Visible h m0 W S O i true ∧
    ∀ M', Stable W S O i M' M → Seen m0 W S M' → (prog c).eval h M' = cur.eval h (ov W i M' m)) ∨
  (∃ (rs' : List R) (r : R) (cur : Prog R), rs = rs' ++ [r] ∧ (∀ r, cur ≠ .done r) ∧
    q = cur.bind (fun r => (seqProg prog rest).bind fun xs => .done (.ok (rs' ++ r :: xs))) ∧
    cur.Visible h m0 W S O i false ∧ (cur.eval h m).1 = .ok r ∧ ∀ l, W i l → (cur.eval h m).2 l = M l)

end

/-- What is assumed of the calls. -/
structure Calls {C R : Type} (h : Hier) (prog : C → Prog R) (m0 : Mem) (W : Nat → Loc → Prop) (S : Loc → Prop)
    (O : Nat → Loc → Prop) (css : List (List C)) : Prop where
  apart : ∀ i l, W i l → ¬ S l
  bound : ∀ i l, W i l → i < css.length
  sep : ∀ i j l, W i l → W j l → i = j
  visible : ∀ (i : Nat) cs, css[i]? = some cs → ∀ c ∈ cs, (prog c).Visible h m0 W S O i true
  total : ∀ cs ∈ css, ∀ c ∈ cs, ∀ m, ∃ r, ((prog c).eval h m).1 = .ok r

/-- The threads between store calls. -/
structure Serial {C R : Type} (h : Hier) (prog : C → Prog R) (m0 : Mem) (W : Nat → Loc → Prop) (S : Loc → Prop)
    (O : Nat → Loc → Prop) (css : List (List C)) (qs : List (Prog (List R))) (m : Mem) (log : List (Nat × C × R))
    (M : Mem) : Prop where
  valid : Valid h prog m0 log M
  ids : ∀ x ∈ log, x.1 < css.length
  out : ∀ l, (∀ i, ¬ W i l) → m l = M l
  seen : Seen m0 W S m
  seenM : Seen m0 W S M
  len : qs.length = css.length
  place : ∀ (i : Nat) cs q, css[i]? = some cs → qs[i]? = some q → ∃ rest,
    cs = (ofThread i log).map (·.1) ++ rest ∧ Place h prog m0 W S O i m M ((ofThread i log).map (·.2)) rest q

section
variable {C R : Type} {h : Hier} {prog : C → Prog R} {m0 : Mem} {W : Nat → Loc → Prop} {S : Loc → Prop}
  {O : Nat → Loc → Prop} {css : List (List C)} {i : Nat} {m M m' M' : Mem}

theorem ov_eq (hag : ∀ l, W i l → m l = M l) : ov W i M m = M := by
  funext l
  unfold ov
  split
  · rename_i x; exact hag l x
  · rfl

/-- A thread between two calls: calls that do not use the store go into the log. -/
theorem settle (hC : Calls h prog m0 W S O css) {cs : List C} (hcs : css[i]? = some cs) {rs : List R} {rest : List C}
    (hsub : ∀ c ∈ rest, c ∈ cs) (hag : ∀ l, W i l → m l = M l) :
    ∃ (ext : List (C × R)) (rest' : List C), rest = ext.map (·.1) ++ rest' ∧
      Valid h prog M (ext.map fun x => (i, x)) M ∧
      Place h prog m0 W S O i m M (rs ++ ext.map (·.2)) rest'
        ((seqProg prog rest).bind fun xs => .done (.ok (rs ++ xs))) := by
  induction rest generalizing rs with
  | nil => exact ⟨[], [], rfl, rfl, Or.inl ⟨rfl, by simp [seqProg, Prog.bind], hag⟩⟩
  | cons c rest ih =>
    have hmem := hsub c (by simp)
    have htot := hC.total cs (List.mem_of_getElem? hcs) c hmem M
    have hassoc : (seqProg prog (c :: rest)).bind (fun xs => .done (.ok (rs ++ xs))) =
        (prog c).bind fun r => (seqProg prog rest).bind fun xs => .done (.ok (rs ++ r :: xs)) := by
      simp only [seqProg, Prog.bind_assoc]
      rfl
    by_cases hd : ∃ o, prog c = .done o
    · obtain ⟨o, ho⟩ := hd
      obtain ⟨r, hr⟩ := htot
      rw [ho, Prog.eval] at hr
      dsimp only at hr
      subst hr
      obtain ⟨ext, rest', h1, h2, h3⟩ := ih (rs := rs ++ [r]) (fun c hc => hsub c (by simp [hc]))
      refine ⟨(c, r) :: ext, rest', by simp [h1], ?_, ?_⟩
      · refine ⟨by rw [ho]; rfl, ?_⟩
        rw [ho]; exact h2
      · rw [hassoc, ho]
        simpa [Prog.bind] using h3
    · refine ⟨[], c :: rest, rfl, rfl, Or.inr (.inl ⟨c, rest, prog c, rfl, fun r e => hd ⟨r, e⟩, ?_,
        hC.visible i cs hcs c hmem, fun M' h1 h2 => ?_⟩)⟩
      · simp only [List.map_nil, List.append_nil]; exact hassoc
      · rw [ov_eq]
        intro l hl
        rw [hag l hl, h1 l (fun j hj => hC.sep _ _ _ hj hl) fun x => absurd x (hC.apart i l hl)]

/-- Steps of others leave a thread where it is. -/
theorem Place.frame (hC : Calls h prog m0 W S O css) {rs : List R} {rest : List C} {q : Prog (List R)}
    (hp : Place h prog m0 W S O i m M rs rest q) (hs : Seen m0 W S m) (hs' : Seen m0 W S m')
    (h1 : Stable W S O i m m') (h2 : Stable W S O i M M') : Place h prog m0 W S O i m' M' rs rest q := by
  have own : ∀ l, W i l → m l = m' l ∧ M l = M' l := fun l hl =>
    ⟨h1 l (fun j hj => hC.sep _ _ _ hj hl) fun x => absurd x (hC.apart i l hl),
     h2 l (fun j hj => hC.sep _ _ _ hj hl) fun x => absurd x (hC.apart i l hl)⟩
  rcases hp with ⟨a1, a2, a3⟩ | ⟨c, rest', cur, a1, a2, a3, a4, a5⟩ | ⟨rs', r, cur, a1, a2, a3, a4, a5, a6⟩
  · exact Or.inl ⟨a1, a2, fun l hl => by rw [← (own l hl).1, ← (own l hl).2]; exact a3 l hl⟩
  · refine Or.inr (.inl ⟨c, rest', cur, a1, a2, a3, a4, fun N k1 k2 => ?_⟩)
    rw [a5 N (fun l x y => (k1 l x y).trans (h2 l x y).symm) k2]
    congr 1
    funext l
    unfold ov
    split
    · rename_i x; exact (own l x).1
    · rfl
  · obtain ⟨e1, e2⟩ := a4.congr hC.apart hs hs' h1
    refine Or.inr (.inr ⟨rs', r, cur, a1, a2, a3, a4, e1 ▸ a5, fun l hl => ?_⟩)
    rw [← (own l hl).2, ← a6 l hl]
    exact (e2 l (fun j hj => hC.sep _ _ _ hj hl) fun x => absurd x (hC.apart i l hl)).symm

/-- A call in the log goes on. -/
theorem arrive_post (hC : Calls h prog m0 W S O css) {cs : List C} (hcs : css[i]? = some cs) {rs' : List R} {r : R}
    {rest : List C} (hsub : ∀ c ∈ rest, c ∈ cs) {cur : Prog R} (hv : cur.Visible h m0 W S O i false)
    (hr : (cur.eval h m).1 = .ok r) (hag : ∀ l, W i l → (cur.eval h m).2 l = M l) :
    ∃ (ext : List (C × R)) (rest' : List C), rest = ext.map (·.1) ++ rest' ∧
      Valid h prog M (ext.map fun x => (i, x)) M ∧
      Place h prog m0 W S O i m M (rs' ++ [r] ++ ext.map (·.2)) rest'
        (cur.bind fun r => (seqProg prog rest).bind fun xs => .done (.ok (rs' ++ r :: xs))) := by
  by_cases hd : ∃ o, cur = .done o
  · obtain ⟨o, rfl⟩ := hd
    obtain rfl : o = .ok r := hr
    have := settle (m := m) hC hcs (rs := rs' ++ [r]) hsub hag
    simpa only [Prog.bind, List.append_assoc, List.singleton_append, List.cons_append, List.nil_append] using this
  · exact ⟨[], rest, rfl, rfl, Or.inr (.inr ⟨rs', r, cur, by simp, fun r e => hd ⟨r, e⟩, rfl, hv, hr, hag⟩)⟩

/-- What a store call of thread `i` does. -/
structure Moved (h : Hier) (prog : C → Prog R) (m0 : Mem) (W : Nat → Loc → Prop) (S : Loc → Prop)
    (O : Nat → Loc → Prop) (i : Nat) (m M m' : Mem) (rs : List R) (rest : List C) (q' : Prog (List R))
    (ext : List (C × R)) (rest' : List C) (M' : Mem) : Prop where
  split : rest = ext.map (·.1) ++ rest'
  valid : Valid h prog M (ext.map fun x => (i, x)) M'
  place : Place h prog m0 W S O i m' M' (rs ++ ext.map (·.2)) rest' q'
  seen : Seen m0 W S m'
  seenM : Seen m0 W S M'
  out : ∀ l, (∀ j, ¬ W j l) → m' l = M' l
  files : ∀ l, ¬ W i l → ¬ (S l ∧ ∀ j, O j l → j = i) → m' l = m l
  filesM : ∀ l, ¬ W i l → ¬ (S l ∧ ∀ j, O j l → j = i) → M' l = M l

/-- A call that is not in the log goes on. -/
theorem arrive_pre (hC : Calls h prog m0 W S O css) {cs : List C} (hcs : css[i]? = some cs) {rs : List R} {c : C}
    {rest : List C} (hsub : ∀ x ∈ c :: rest, x ∈ cs) {cur : Prog R} (hv : cur.Visible h m0 W S O i true)
    (he : ∀ M', Stable W S O i M' M → Seen m0 W S M' → (prog c).eval h M' = cur.eval h (ov W i M' m'))
    (hs : Seen m0 W S m') (hsM : Seen m0 W S M) (hout : ∀ l, (∀ j, ¬ W j l) → m' l = M l)
    (hm : ∀ l, ¬ W i l → m' l = m l) :
    ∃ ext rest' M', Moved h prog m0 W S O i m M m' rs (c :: rest)
      (cur.bind fun r => (seqProg prog rest).bind fun xs => .done (.ok (rs ++ r :: xs))) ext rest' M' := by
  by_cases hd : ∃ o, cur = .done o
  · obtain ⟨o, rfl⟩ := hd
    have e := he M (fun _ _ _ => rfl) hsM
    obtain ⟨r, hr⟩ := hC.total cs (List.mem_of_getElem? hcs) c (hsub c (by simp)) M
    rw [e] at hr
    obtain rfl : o = .ok r := hr
    have hag : ∀ l, W i l → m' l = ov W i M m' l := fun l hl => by rw [ov, if_pos hl]
    obtain ⟨ext, rest', h1, h2, h3⟩ := settle hC hcs (rs := rs ++ [r]) (rest := rest) (fun x hx => hsub x (by simp [hx])) hag
    refine ⟨(c, r) :: ext, rest', ov W i M m', by simp [h1], ⟨by rw [e]; rfl, by rw [e]; exact h2⟩, ?_, hs, ?_, ?_, ?_, ?_⟩
    · simpa only [Prog.bind, List.append_assoc, List.singleton_append, List.cons_append, List.nil_append, List.map_cons]
        using h3
    · intro l
      unfold ov
      split
      · exact hs l
      · exact hsM l
    · intro l hl
      rw [ov, if_neg (hl i)]; exact hout l hl
    · exact fun l hl _ => hm l hl
    · intro l hl _
      rw [ov, if_neg hl]
  · exact ⟨[], c :: rest, M, rfl, rfl, Or.inr (.inl ⟨c, rest, cur, rfl, fun r e => hd ⟨r, e⟩, by simp, hv, he⟩), hs, hsM,
      hout, fun l hl _ => hm l hl, fun _ _ _ => rfl⟩

/-- The visible access of a call: the call goes into the log. -/
theorem commit (hC : Calls h prog m0 W S O css) {cs : List C} (hcs : css[i]? = some cs) {rs : List R} {c : C}
    {rest : List C} (hsub : ∀ x ∈ c :: rest, x ∈ cs) {cur : Prog R} {m1 : Mem}
    (hv : cur.Visible h m0 W S O i false) (he : (prog c).eval h M = cur.eval h m1)
    (h1 : ∀ l, Mine W i l → m1 l = m' l) (hs1 : Seen m0 W S m1)
    (hs : Seen m0 W S m') (hsM : Seen m0 W S M)
    (hm : ∀ l, ¬ W i l → ¬ (S l ∧ ∀ j, O j l → j = i) → m' l = m l) :
    ∃ ext rest' M', Moved h prog m0 W S O i m M m' rs (c :: rest)
      (cur.bind fun r => (seqProg prog rest).bind fun xs => .done (.ok (rs ++ r :: xs))) ext rest' M' := by
  obtain ⟨r, hr⟩ := hC.total cs (List.mem_of_getElem? hcs) c (hsub c (by simp)) M
  obtain ⟨c1, c2⟩ := hv.congr hC.apart hs1 hs fun l k _ => h1 l k
  obtain ⟨f1, f2⟩ := (hC.visible i cs hcs c (hsub c (by simp))).frame hC.apart hsM
  obtain ⟨g1, g2⟩ := hv.frame hC.apart hs1
  have own : ∀ l, W i l → (cur.eval h m').2 l = ((prog c).eval h M).2 l := fun l hl => by
    rw [he]
    exact (c2 l (fun j hj => hC.sep _ _ _ hj hl) fun x => absurd x (hC.apart i l hl)).symm
  obtain ⟨ext, rest', k1, k2, k3⟩ := arrive_post hC hcs (rs' := rs) (rest := rest) (M := ((prog c).eval h M).2)
    (fun x hx => hsub x (by simp [hx])) hv (by rw [← c1, ← he, hr]) own
  refine ⟨(c, r) :: ext, rest', ((prog c).eval h M).2, by simp [k1], ⟨hr, k2⟩, ?_, hs, f1, ?_, hm, ?_⟩
  · simpa only [List.append_assoc, List.singleton_append, List.map_cons] using k3
  · intro l hl
    rw [he, g2 l (hl i) (by simp), h1 l fun j hj => absurd hj (hl j)]
  · exact fun l x y => f2 l x fun z => y z.2

/-- A store call of thread `i`. -/
theorem Place.step (hC : Calls h prog m0 W S O css) {cs : List C} (hcs : css[i]? = some cs) {rs : List R} {rest : List C}
    (hsub : ∀ c ∈ rest, c ∈ cs) {q q' : Prog (List R)} (hp : Place h prog m0 W S O i m M rs rest q)
    (hs : Seen m0 W S m) (hsM : Seen m0 W S M) (hout : ∀ l, (∀ j, ¬ W j l) → m l = M l)
    (hst : q.astep h m = some (q', m')) :
    ∃ ext rest' M', Moved h prog m0 W S O i m M m' rs rest q' ext rest' M' := by
  have un : ∀ {x l : Loc} {v : Option Bytes} {m : Mem}, ¬ x = l → upd m l v x = m x := fun hx => by rw [upd, if_neg hx]
  have mine : ∀ l, Mine W i l → ov W i M m l = m l := by
    intro l hl
    unfold ov
    split
    · rfl
    · rename_i x
      exact (hout l fun j hj => x (hl j hj ▸ hj)).symm
  have seenov : ∀ {M' : Mem}, Seen m0 W S M' → Seen m0 W S (ov W i M' m) := by
    intro M' k l
    unfold ov
    split
    · exact hs l
    · exact k l
  have upov : ∀ {l : Loc} {v : Option Bytes} (M' : Mem), W i l → upd (ov W i M' m) l v = ov W i M' (upd m l v) := by
    intro l v M' hl
    funext x
    unfold upd ov
    by_cases e : x = l
    · subst e; rw [if_pos rfl, if_pos hl]; simp
    · rw [if_neg e]; simp only [if_neg e]
  rcases hp with ⟨_, rfl, _⟩ | ⟨c, rest', cur, rfl, a2, rfl, a4, a5⟩ | ⟨rs', r, cur, rfl, a2, rfl, a4, a5, a6⟩
  · simp [Prog.astep] at hst
  · obtain ⟨cur', k1, rfl⟩ := Prog.astep_bind a2 hst
    have e0 := a5 M (fun _ _ _ => rfl) hsM
    -- what the thread sees does not depend on the files of others
    have look : ∀ M', Stable W S O i M' M → ∀ l, Mine W i l → (S l → O i l) → ov W i M' m l = m l := by
      intro M' k l hl ho
      unfold ov
      split
      · rfl
      · rename_i x
        rw [k l hl ho, hout l fun j hj => x (hl j hj ▸ hj)]
    cases cur with
    | done r => exact absurd rfl (a2 r)
    | «exists» key k =>
      simp only [Prog.astep, Option.some.injEq, Prod.mk.injEq] at k1
      obtain ⟨rfl, rfl⟩ := k1
      refine arrive_pre hC hcs hsub (a4.2.2 _ (hs _)) (fun M' j1 j2 => ?_) hs hsM hout fun _ _ => rfl
      rw [a5 M' j1 j2, Prog.eval]
      congr 3
      exact (seenov j2).isSome_eq hs a4.2.1 fun l x y => look M' j1 l x y
    | get key k =>
      simp only [Prog.astep, Option.some.injEq, Prod.mk.injEq] at k1
      obtain ⟨rfl, rfl⟩ := k1
      rcases a4.2.2 with ⟨j1, j2⟩ | ⟨_, j2⟩
      · refine arrive_pre hC hcs hsub (j2 _ (hs _)) (fun M' i1 i2 => ?_) hs hsM hout fun _ _ => rfl
        rw [a5 M' i1 i2, Prog.eval, look M' i1 _ a4.2.1 j1]
      · refine commit hC hcs hsub (m1 := ov W i M m) (j2 _ (hs _)) ?_ mine (seenov hsM) hs hsM fun _ _ _ => rfl
        rw [e0, Prog.eval, mine _ a4.2.1]
    | set key v k =>
      simp only [Prog.astep, Option.some.injEq, Prod.mk.injEq] at k1
      obtain ⟨rfl, rfl⟩ := k1
      rcases a4.2 with ⟨j1, j2⟩ | ⟨j1, j2, _, j3⟩
      · refine arrive_pre hC hcs hsub j2 (fun M' i1 i2 => ?_) (hs.upd_own j1 hC.apart _) hsM (fun l hl => ?_)
          fun l hl => un ?_
        · rw [a5 M' i1 i2, Prog.eval, upov M' j1]
        · rw [un, hout l hl]
          rintro rfl; exact hl i j1
        · rintro rfl; exact hl j1
      · refine commit hC hcs hsub (m1 := upd (ov W i M m) (h.loc key) (some v.1)) j3 (by rw [e0, Prog.eval])
          (fun l hl => ?_) ((seenov hsM).upd_shared j1 _) (hs.upd_shared j1 _) hsM fun l _ hl => un ?_
        · unfold upd
          rw [mine l hl]
        · rintro rfl; exact hl ⟨j1, j2⟩
    | erase key k =>
      simp only [Prog.astep, Option.some.injEq, Prod.mk.injEq] at k1
      obtain ⟨rfl, rfl⟩ := k1
      have j1 := a4.2.1
      refine arrive_pre hC hcs hsub a4.2.2 (fun M' i1 i2 => ?_) (hs.upd_own j1 hC.apart _) hsM (fun l hl => ?_)
        fun l hl => un ?_
      · rw [a5 M' i1 i2, Prog.eval, upov M' j1]
      · rw [un, hout l hl]
        rintro rfl; exact hl i j1
      · rintro rfl; exact hl j1
  · obtain ⟨cur', k1, rfl⟩ := Prog.astep_bind a2 hst
    rw [Prog.eval_of_astep k1] at a5 a6
    have key : cur'.Visible h m0 W S O i false ∧ Seen m0 W S m' ∧ ∀ l, ¬ W i l → m' l = m l := by
      cases cur with
      | done r => exact absurd rfl (a2 r)
      | «exists» key k =>
        simp only [Prog.astep, Option.some.injEq, Prod.mk.injEq] at k1
        obtain ⟨rfl, rfl⟩ := k1
        exact ⟨a4.2.2 _ (hs _), hs, fun _ _ => rfl⟩
      | get key k =>
        simp only [Prog.astep, Option.some.injEq, Prod.mk.injEq] at k1
        obtain ⟨rfl, rfl⟩ := k1
        rcases a4.2.2 with ⟨_, j2⟩ | ⟨_, j2⟩ <;> exact ⟨j2 _ (hs _), hs, fun _ _ => rfl⟩
      | set key v k =>
        simp only [Prog.astep, Option.some.injEq, Prod.mk.injEq] at k1
        obtain ⟨rfl, rfl⟩ := k1
        rcases a4.2 with ⟨j1, j2⟩ | ⟨_, _, j1, _⟩
        · refine ⟨j2, hs.upd_own j1 hC.apart _, fun l hl => un ?_⟩
          rintro rfl; exact hl j1
        · simp at j1
      | erase key k =>
        simp only [Prog.astep, Option.some.injEq, Prod.mk.injEq] at k1
        obtain ⟨rfl, rfl⟩ := k1
        refine ⟨a4.2.2, hs.upd_own a4.2.1 hC.apart _, fun l hl => un ?_⟩
        rintro rfl; exact hl a4.2.1
    obtain ⟨j1, j2, j3⟩ := key
    obtain ⟨ext, rest', e1, e2, e3⟩ := arrive_post hC hcs (rs' := rs') hsub j1 a5 a6
    exact ⟨ext, rest', M, e1, e2, e3, j2, hsM, fun l hl => by rw [j3 l (hl i), hout l hl], fun l hl _ => j3 l hl,
      fun _ _ _ => rfl⟩

/-- A store call of one of the threads. -/
theorem Serial.step (hC : Calls h prog m0 W S O css) {qs : List (Prog (List R))} {log : List (Nat × C × R)}
    (hS : Serial h prog m0 W S O css qs m log M) {q q' : Prog (List R)} (hq : qs[i]? = some q)
    (hst : q.astep h m = some (q', m')) :
    ∃ log' M', log <+: log' ∧ Serial h prog m0 W S O css (qs.set i q') m' log' M' := by
  have hil : i < qs.length := (List.getElem?_eq_some_iff.mp hq).1
  have hic : i < css.length := by rw [← hS.len]; exact hil
  have hcs : css[i]? = some css[i] := List.getElem?_eq_getElem hic
  generalize css[i] = cs at hcs
  obtain ⟨rest, h1, h2⟩ := hS.place i cs q hcs hq
  obtain ⟨ext, rest', M', hm⟩ := h2.step hC hcs (fun c hc => by rw [h1]; simp [hc]) hS.seen hS.seenM hS.out hst
  have stable : ∀ j, j ≠ i → ∀ {a b : Mem}, (∀ l, ¬ W i l → ¬ (S l ∧ ∀ j, O j l → j = i) → b l = a l) →
      Stable W S O j a b := by
    intro j hj a b k l x y
    refine (k l (fun w => hj (x i w).symm) fun z => ?_).symm
    exact hj (z.2 j (y z.1))
  refine ⟨log ++ ext.map fun x => (i, x), M', List.prefix_append _ _, hS.valid.append hm.valid, ?_, hm.out, hm.seen,
    hm.seenM, by simpa using hS.len, ?_⟩
  · intro x hx
    rcases List.mem_append.mp hx with hx | hx
    · exact hS.ids x hx
    · obtain ⟨y, _, rfl⟩ := List.mem_map.mp hx
      exact (List.getElem?_eq_some_iff.mp hcs).1
  · intro j ds p e1 e2
    by_cases hj : i = j
    · subst hj
      rw [hcs, Option.some.injEq] at e1
      rw [List.getElem?_set_self hil, Option.some.injEq] at e2
      subst e1 e2
      rw [ofThread_append, ofThread_self]
      refine ⟨rest', ?_, ?_⟩
      · rw [h1, hm.split]; simp
      · rw [List.map_append]; exact hm.place
    · rw [List.getElem?_set_ne hj] at e2
      rw [ofThread_append, ofThread_other hj, List.append_nil]
      obtain ⟨r, k1, k2⟩ := hS.place j ds p e1 e2
      exact ⟨r, k1, k2.frame hC hS.seen hm.seen (stable j (fun e => hj e.symm) hm.files)
        (stable j (fun e => hj e.symm) hm.filesM)⟩

theorem Prog.bind_done {α : Type} (p : Prog α) : (p.bind fun a => .done (.ok a)) = p := by
  induction p with
  | done r => cases r <;> rfl
  | «exists» key k ih => simp only [bind]; congr 1; funext r; exact ih r
  | get key k ih => simp only [bind]; congr 1; funext r; exact ih r
  | set key v k ih => simp only [bind]; congr 1; funext r; exact ih r
  | erase key k ih => simp only [bind]; congr 1; funext r; exact ih r

theorem ofThread_none {β : Type} {i : Nat} {log : List (Nat × β)} (hl : ∀ x ∈ log, x.1 ≠ i) : ofThread i log = [] := by
  rw [ofThread, List.filter_eq_nil_iff.mpr (by simpa using hl)]
  rfl

/-- Before anything happened. -/
theorem Serial.init (hC : Calls h prog m0 W S O css) (hseen : Seen m0 W S m0) :
    ∃ log, Serial h prog m0 W S O css (css.map (seqProg prog)) m0 log m0 := by
  have key : ∀ k, k ≤ css.length → ∃ log : List (Nat × C × R), Valid h prog m0 log m0 ∧ (∀ x ∈ log, x.1 < k) ∧
      ∀ (i : Nat) cs, i < k → css[i]? = some cs → ∃ rest, cs = (ofThread i log).map (·.1) ++ rest ∧
        Place h prog m0 W S O i m0 m0 ((ofThread i log).map (·.2)) rest (seqProg prog cs) := by
    intro k
    induction k with
    | zero => exact fun _ => ⟨[], rfl, by simp, fun i cs hi => by omega⟩
    | succ k ih =>
      intro hk
      obtain ⟨log, h1, h2, h3⟩ := ih (by omega)
      have hcs : css[k]? = some css[k] := List.getElem?_eq_getElem (by omega)
      obtain ⟨ext, rest, k1, k2, k3⟩ := settle (m := m0) (M := m0) hC hcs (rs := []) (rest := css[k]) (fun c hc => hc)
        fun _ _ => rfl
      refine ⟨log ++ ext.map fun x => (k, x), h1.append k2, ?_, ?_⟩
      · intro x hx
        rcases List.mem_append.mp hx with hx | hx
        · have := h2 x hx; omega
        · obtain ⟨y, _, rfl⟩ := List.mem_map.mp hx
          exact Nat.lt_succ_self k
      · intro i cs hi e
        rw [ofThread_append]
        by_cases hik : k = i
        · subst hik
          rw [hcs, Option.some.injEq] at e
          subst e
          rw [ofThread_self, ofThread_none fun x hx => by have := h2 x hx; omega]
          simp only [List.nil_append, Prog.bind_done] at k3 ⊢
          exact ⟨rest, k1, k3⟩
        · rw [ofThread_other hik, List.append_nil]
          exact h3 i cs (by omega) e
  obtain ⟨log, h1, h2, h3⟩ := key css.length (Nat.le_refl _)
  refine ⟨log, h1, h2, fun _ _ => rfl, hseen, hseen, by simp, fun i cs q e1 e2 => ?_⟩
  simp only [List.getElem?_map, e1, Option.map_some, Option.some.injEq] at e2
  subst e2
  exact h3 i cs (List.getElem?_eq_some_iff.mp e1).1 e1

/-- A store call that is made whole. -/
theorem Serial.advance {fs0 : Fs} (hl : Layout fs0 W S) (hC : Calls h prog fs0.content W S O css) {s : Sys (List R)}
    {a a' : ASys (List R)} {log : List (Nat × C × R)} (hsim : Sim h fs0 W S s a)
    (hS : Serial h prog fs0.content W S O css a.progs a.fs.content log M) {t : Nat} (ha : a.advance h t = some a') :
    ∃ log' M', log <+: log' ∧ Serial h prog fs0.content W S O css a'.progs a'.fs.content log' M' := by
  unfold ASys.advance at ha
  cases hq : a.progs[t]? with
  | none => rw [hq] at ha; simp at ha
  | some q =>
    rw [hq] at ha
    simp only [Option.bind_some, Option.map_eq_some_iff] at ha
    obtain ⟨⟨q', fs'⟩, hn, rfl⟩ := ha
    have htl : t < s.pcs.length := by rw [← hsim.len]; exact (List.getElem?_eq_some_iff.mp hq).1
    have hsh := (hsim.thr t _ q (List.getElem?_eq_getElem htl) hq).1
    cases hst : q.astep h a.fs.content with
    | none => cases q <;> simp [Prog.astep] at hst; simp [Prog.call] at hn
    | some x =>
      obtain ⟨q1, m1⟩ := x
      obtain ⟨fs1, k1, rfl, _⟩ := Prog.call_astep hl hsim.achange hsh hst
      rw [k1] at hn
      simp only [Option.some.injEq, Prod.mk.injEq] at hn
      obtain ⟨rfl, rfl⟩ := hn
      exact hS.step hC hq hst

/-- At every moment, the calls in the log were made one after the other. -/
theorem Serial.run {fs0 : Fs} (hl : Layout fs0 W S) (hC : Calls h prog fs0.content W S O css) {s s' : Sys (List R)}
    {a : ASys (List R)} {log : List (Nat × C × R)} (hsim : Sim h fs0 W S s a)
    (hS : Serial h prog fs0.content W S O css a.progs a.fs.content log M) {ts : List Nat} (hr : s.run h ts = some s') :
    ∃ a' log' M', Sim h fs0 W S s' a' ∧ Serial h prog fs0.content W S O css a'.progs a'.fs.content log' M' := by
  induction ts generalizing s a log M with
  | nil =>
    simp only [Sys.run, Option.some.injEq] at hr
    subst hr
    exact ⟨a, log, M, hsim, hS⟩
  | cons t ts ih =>
    simp only [Sys.run, Option.bind_eq_some_iff] at hr
    obtain ⟨s1, h1, h2⟩ := hr
    obtain ⟨b, a1, h3, h4⟩ := hsim.step hl h1
    cases b with
    | false =>
      simp only [Bool.false_eq_true, if_false] at h3
      subst h3
      exact ih h4 hS h2
    | true =>
      simp only [if_true] at h3
      obtain ⟨log', M', _, h5⟩ := hS.advance hl hC hsim h3
      exact ih h4 h5 h2

/-- Threads whose calls have at most one visible access: some order of the calls gives the same results and
the same files. -/
theorem serializable {fs : Fs} (hl : Layout fs W S) (hC : Calls h prog fs.content W S O css) {ts : List Nat}
    {s : Sys (List R)} (hr : (Sys.initial fs (css.map (seqProg prog))).run h ts = some s)
    (hall : ∀ i, i < css.length → (s.result i).isSome) :
    ∃ log : List (Nat × C × R), Valid h prog fs.content log s.fs.content ∧ (∀ x ∈ log, x.1 < css.length) ∧
      ∀ (i : Nat) cs, css[i]? = some cs → (ofThread i log).map (·.1) = cs ∧
        s.result i = some (.ok ((ofThread i log).map (·.2))) := by
  have hseen : Seen fs.content W S fs.content := fun l => ⟨fun _ _ => rfl, fun x => by
    obtain ⟨b, hb⟩ := hl.stored l x
    simp [Fs.content, hb]⟩
  obtain ⟨log0, hS0⟩ := Serial.init hC hseen
  have hsim0 : Sim h fs W S (Sys.initial fs (css.map (seqProg prog))) ⟨fs, css.map (seqProg prog)⟩ := by
    refine Sim.init hl fun i p e => ?_
    simp only [List.getElem?_map, Option.map_eq_some_iff] at e
    obtain ⟨cs, e, rfl⟩ := e
    have hv := hC.visible i cs e
    clear e
    induction cs with
    | nil => trivial
    | cons c cs ih =>
      exact (hv c (by simp)).shares.bind fun r => (ih fun c hc => hv c (by simp [hc])).bind fun _ => trivial
  obtain ⟨a, log, M, hsim, hS⟩ := hS0.run hl hC hsim0 hr
  have hlen : s.pcs.length = css.length := by rw [← hsim.len, hS.len]
  have fin : ∀ (i : Nat) cs, css[i]? = some cs → ∃ r, s.pcs[i]? = some (.prog (.done r)) ∧ a.progs[i]? = some (.done r) := by
    intro i cs e
    have hi := (List.getElem?_eq_some_iff.mp e).1
    have := hall i hi
    have hpc : s.pcs[i]? = some s.pcs[i] := List.getElem?_eq_getElem (by omega)
    have hq : i < a.progs.length := by rw [hS.len]; exact hi
    have hq := List.getElem?_eq_getElem hq
    generalize s.pcs[i] = pc at hpc
    rw [Sys.result, hpc] at this
    split at this
    · rename_i r e2
      rw [Option.some.injEq] at e2
      subst e2
      exact ⟨r, hpc, by rw [hq]; exact congrArg some (hsim.thr i _ _ hpc hq).2⟩
    · simp at this
  have place : ∀ (i : Nat) cs, css[i]? = some cs → cs = (ofThread i log).map (·.1) ∧
      a.progs[i]? = some (.done (.ok ((ofThread i log).map (·.2)))) ∧ ∀ l, W i l → a.fs.content l = M l := by
    intro i cs e
    obtain ⟨r, _, k2⟩ := fin i cs e
    obtain ⟨rest, k3, k4⟩ := hS.place i cs _ e k2
    rcases k4 with ⟨rfl, k4, k5⟩ | ⟨c, rest', cur, _, k4, k5, _⟩ | ⟨rs', r', cur, _, k4, k5, _⟩
    · exact ⟨by simpa using k3, by rw [k2, k4], k5⟩
    · exact absurd k5.symm (Prog.bind_ne_done k4 r)
    · exact absurd k5.symm (Prog.bind_ne_done k4 r)
  have hM : s.fs.content = M := by
    funext l
    rw [hsim.clean l]
    · by_cases x : ∃ i, i < css.length ∧ W i l
      · obtain ⟨i, hi, x⟩ := x
        exact (place i _ (List.getElem?_eq_getElem hi)).2.2 l x
      · exact hS.out l fun i w => x ⟨i, hC.bound i l w, w⟩
    · intro i pc e
      have hi : i < css.length := by rw [← hlen]; exact (List.getElem?_eq_some_iff.mp e).1
      obtain ⟨r, k1, _⟩ := fin i _ (List.getElem?_eq_getElem hi)
      rw [e, Option.some.injEq] at k1
      subst k1
      exact fun x => x
  refine ⟨log, hM ▸ hS.valid, hS.ids, fun i cs e => ?_⟩
  obtain ⟨k1, k2, _⟩ := place i cs e
  obtain ⟨r, k3, k4⟩ := fin i cs e
  rw [k4, Option.some.injEq, Prog.done.injEq] at k2
  subst k2
  exact ⟨k1.symm, by rw [Sys.result, k3]⟩

end

end Zarr.Threads
