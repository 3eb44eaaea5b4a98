import Verif.Lemmas.RegionSys
/-!
# What a call that is interrupted leaves

Programs that change every location at most once. Whatever such a program has done when it is interrupted, every
file is as it was at the beginning or as it will be in the end, or it is being written. -/

namespace Zarr

namespace Wide

section
variable {α β : Type}

/-- The program changes only locations with `A`, and each of them with one call of the store. -/
def Prog.Once (h : Hier) : Prog α → (Loc → Prop) → Prop
  | .done _, _ => True
  | .exists _ k, A => ∀ r, (k r).Once h A
  | .get _ k, A => ∀ r, (k r).Once h A
  | .set key _ k, A => Plain (h.loc key) ∧ A (h.loc key) ∧ ∀ r, (k r).Once h fun l => A l ∧ l ≠ h.loc key
  | .erase key k, A => Plain (h.loc key) ∧ A (h.loc key) ∧ ∀ r, (k r).Once h fun l => A l ∧ l ≠ h.loc key
  | .erasePrefix key k, A => Plain (h.loc key) ∧ (∀ l, h.loc key <+: l → A l) ∧
      ∀ r, (k r).Once h fun l => A l ∧ ¬ h.loc key <+: l
  | .listDir _ k, A => ∀ r, (k r).Once h A

theorem Prog.Once.mono {h : Hier} {P : Prog α} {A B : Loc → Prop} (hp : P.Once h A) (hab : ∀ l, A l → B l) :
    P.Once h B := by
  induction P generalizing A B with
  | done r => trivial
  | «exists» key k ih => exact fun r => ih r (hp r) hab
  | get key k ih => exact fun r => ih r (hp r) hab
  | set key v k ih => exact ⟨hp.1, hab _ hp.2.1, fun r => ih r (hp.2.2 r) fun l hl => ⟨hab l hl.1, hl.2⟩⟩
  | erase key k ih => exact ⟨hp.1, hab _ hp.2.1, fun r => ih r (hp.2.2 r) fun l hl => ⟨hab l hl.1, hl.2⟩⟩
  | erasePrefix key k ih =>
    exact ⟨hp.1, fun l hl => hab _ (hp.2.1 l hl), fun r => ih r (hp.2.2 r) fun l hl => ⟨hab l hl.1, hl.2⟩⟩
  | listDir key k ih => exact fun r => ih r (hp r) hab

/-- The second program changes nothing that the first one changes. -/
theorem Prog.Once.bind {h : Hier} {P : Prog α} {f : α → Prog β} {A B C : Loc → Prop} (hp : P.Once h A)
    (hf : ∀ a, (f a).Once h B) (hac : ∀ l, A l → C l) (hbc : ∀ l, B l → C l) (hab : ∀ l, A l → ¬ B l) :
    (P.bind f).Once h C := by
  induction P generalizing A C with
  | done r =>
    cases r with
    | ok a => exact (hf a).mono hbc
    | err e => trivial
    | panic => trivial
  | «exists» key k ih => exact fun r => ih r (hp r) hac hbc hab
  | get key k ih => exact fun r => ih r (hp r) hac hbc hab
  | set key v k ih =>
    refine ⟨hp.1, hac _ hp.2.1, fun r => ih r (hp.2.2 r) (fun l hl => ⟨hac l hl.1, hl.2⟩) (fun l hl => ⟨hbc l hl, ?_⟩)
      fun l hl => hab l hl.1⟩
    rintro rfl
    exact hab _ hp.2.1 hl
  | erase key k ih =>
    refine ⟨hp.1, hac _ hp.2.1, fun r => ih r (hp.2.2 r) (fun l hl => ⟨hac l hl.1, hl.2⟩) (fun l hl => ⟨hbc l hl, ?_⟩)
      fun l hl => hab l hl.1⟩
    rintro rfl
    exact hab _ hp.2.1 hl
  | erasePrefix key k ih =>
    exact ⟨hp.1, fun l hl => hac _ (hp.2.1 l hl), fun r => ih r (hp.2.2 r) (fun l hl => ⟨hac l hl.1, hl.2⟩)
      (fun l hl => ⟨hbc l hl, fun h' => hab _ (hp.2.1 l h') hl⟩) fun l hl => hab l hl.1⟩
  | listDir key k ih => exact fun r => ih r (hp r) hac hbc hab

theorem Prog.Once.record {h : Hier} {P : Prog α} {f : Outcome α → β} {A : Loc → Prop} (hp : P.Once h A) :
    (P.record f).Once h A := by
  induction P generalizing A with
  | done r => trivial
  | set key v k ih => exact ⟨hp.1, hp.2.1, fun r => ih r (hp.2.2 r)⟩
  | erase key k ih => exact ⟨hp.1, hp.2.1, fun r => ih r (hp.2.2 r)⟩
  | erasePrefix key k ih => exact ⟨hp.1, hp.2.1, fun r => ih r (hp.2.2 r)⟩
  | «exists» key k ih => exact fun r => ih r (hp r)
  | get key k ih => exact fun r => ih r (hp r)
  | listDir key k ih => exact fun r => ih r (hp r)

/-! ## States of such a program -/

/-- The call returns to such a program. -/
def RetOnce (h : Hier) (A : Loc → Prop) (k : Outcome β → Threads.Prog (Prog α)) : Prop :=
  ∀ r, ∃ P : Prog α, k r = .done (.ok P) ∧ P.Once h A

/-- The states of a call of `Model/Threads.lean`; `A` is what may still be changed after the call. -/
def BShape (h : Hier) (A : Loc → Prop) (fs : Fs) : Threads.Pc (Prog α) → Prop
  | .prog p => ∃ P : Prog α, p = .done (.ok P) ∧ P.Once h A
  | .getOpen _ k => RetOnce h A k
  | .getLock _ k => RetOnce h A k
  | .getRead _ _ k => RetOnce h A k
  | .mkdirDown p _ _ k => Plain p ∧ ¬ A p ∧ RetOnce h A k
  | .mkdirDir p _ _ _ k => Plain p ∧ ¬ A p ∧ RetOnce h A k
  | .mkdirUp p _ _ k => Plain p ∧ ¬ A p ∧ RetOnce h A k
  | .setOpen p _ k => Plain p ∧ ¬ A p ∧ RetOnce h A k
  | .setLock l _ k => (∃ b, fs.get l = some (.file b)) ∧ ¬ A l ∧ RetOnce h A k
  | .setTrunc l _ k => (∃ b, fs.get l = some (.file b)) ∧ ¬ A l ∧ RetOnce h A k
  | .setWrite l v n k => fs.get l = some (.file (v.1.take n)) ∧ ¬ A l ∧ RetOnce h A k
  | .eraOpen p k => Plain p ∧ ¬ A p ∧ RetOnce h A k
  | .eraLock p _ k => Plain p ∧ ¬ A p ∧ RetOnce h A k
  | .eraUnlink p _ k => Plain p ∧ ¬ A p ∧ RetOnce h A k
  | .eraFinal _ k => RetOnce h A k

/-- The removal of a tree. -/
def WShape (h : Hier) (A : Loc → Prop) (p : List Str) (items : List Item) (k : Outcome Bool → Prog α) : Prop :=
  (∀ l, p <+: l → ¬ A l) ∧ (∀ it ∈ items, Plain it.path ∧ p <+: it.path) ∧ ∀ r, (k r).Once h A

/-- The states of a program. -/
def Shape (h : Hier) (A : Loc → Prop) (fs : Fs) : Pc α → Prop
  | .prog P => P.Once h A
  | .base t => BShape h A fs t
  | .walk p items k => WShape h A p items k
  | .walkLock p q _ items k => Plain q ∧ p <+: q ∧ WShape h A p items k
  | .walkUnlink p q _ items k => Plain q ∧ p <+: q ∧ WShape h A p items k
  | .listing _ _ _ _ _ k => ∀ r, (k r).Once h A

/-- What the call that runs may change. -/
def Cur : Pc α → Loc → Prop
  | .base (.mkdirDown p _ _ _), l => l = p
  | .base (.mkdirDir p _ _ _ _), l => l = p
  | .base (.mkdirUp p _ _ _), l => l = p
  | .base (.setOpen p _ _), l => l = p
  | .base (.setLock p _ _), l => l = p
  | .base (.setTrunc p _ _), l => l = p
  | .base (.setWrite p _ _ _), l => l = p
  | .base (.eraOpen p _), l => l = p
  | .base (.eraLock p _ _), l => l = p
  | .base (.eraUnlink p _ _), l => l = p
  | .walk p _ _, l => p <+: l
  | .walkLock p _ _ _ _, l => p <+: l
  | .walkUnlink p _ _ _ _, l => p <+: l
  | _, _ => False

/-- The file that is open for writing, and what is written. -/
def Writing : Pc α → Loc → Bytes → Prop
  | .base (.setLock p v _), l, b => l = p ∧ b = v.1
  | .base (.setTrunc p v _), l, b => l = p ∧ b = v.1
  | .base (.setWrite p v _ _), l, b => l = p ∧ b = v.1
  | _, _, _ => False

/-- The tree that is being removed. -/
def Walking : Pc α → Loc → Prop
  | .walk p _ _, l => p <+: l
  | .walkLock p _ _ _ _, l => p <+: l
  | .walkUnlink p _ _ _ _, l => p <+: l
  | _, _ => False

/-- The file has its old content, or it is being written, or it was removed. -/
def St (pc : Pc α) (fs : Fs) (l : Loc) (old : Option Bytes) : Prop :=
  fs.content l = old ∨ (∃ v n, Writing pc l v ∧ fs.content l = some (v.take n)) ∨ (Walking pc l ∧ fs.content l = none)

theorem Writing.cur {pc : Pc α} {l : Loc} {v : Bytes} (hw : Writing pc l v) : Cur pc l := by
  unfold Writing at hw
  split at hw
  · exact hw.1
  · exact hw.1
  · exact hw.1
  · exact hw.elim

theorem Walking.cur {pc : Pc α} {l : Loc} (hw : Walking pc l) : Cur pc l := by
  unfold Walking at hw
  split at hw
  · exact hw
  · exact hw
  · exact hw
  · exact hw.elim

theorem Shape.cur {h : Hier} {A : Loc → Prop} {fs : Fs} {pc : Pc α} (hs : Shape h A fs pc) {l : Loc} (hc : Cur pc l) :
    ¬ A l := by
  unfold Cur at hc
  split at hc
  all_goals first
    | exact hs.2.1 ∘ (hc ▸ id)
    | exact hs.1 _ hc
    | exact hs.2.2.1 _ hc
    | exact hc.elim

/-- After a step; `B` is what may still be changed after the call that runs then. -/
structure Stepped (h : Hier) (A : Loc → Prop) (pc : Pc α) (fs : Fs) (pc1 : Pc α) (fs1 : Fs) (B : Loc → Prop) : Prop where
  shape : Shape h B fs1 pc1
  sub : ∀ l, B l → A l
  start : ∀ l, A l → B l ∨ Cur pc1 l
  cur : ∀ l, Cur pc1 l → Cur pc l ∨ A l
  rest : ∀ l, ¬ Cur pc l → fs1.content l = fs.content l
  write : ∀ l v, Writing pc l v → Writing pc1 l v ∨ (fs1.content l = some v ∧ ¬ Cur pc1 l)
  walk : ∀ l, Walking pc l → (fs.content l = none → fs1.content l = none) ∧ (Walking pc1 l ∨ ¬ Cur pc1 l)
  keep : ∀ l, Cur pc l → Cur pc1 l → ∀ old, St pc fs l old → St pc1 fs1 l old

section
variable {h : Hier} {A : Loc → Prop} {fs : Fs} {pc : Pc α}

/-- The call returns. -/
theorem Stepped.ret {P : Prog α} (hp : P.Once h A) (hw : ∀ l v, Writing pc l v → fs.content l = some v) :
    Stepped h A pc fs (.prog P) fs A where
  shape := hp
  sub _ hl := hl
  start _ hl := .inl hl
  cur _ hl := hl.elim
  rest _ _ := rfl
  write l v hv := .inr ⟨hw l v hv, id⟩
  walk _ _ := ⟨id, .inr id⟩
  keep _ _ hl := hl.elim

/-- A step that does not end a call and changes no file. -/
theorem Stepped.on {pc1 : Pc α} {fs1 : Fs} (hs : Shape h A fs1 pc1) (hc : ∀ l, fs1.content l = fs.content l)
    (h1 : ∀ l, Cur pc1 l ↔ Cur pc l) (h2 : ∀ l v, Writing pc l v → Writing pc1 l v)
    (h3 : ∀ l, Walking pc l → Walking pc1 l) : Stepped h A pc fs pc1 fs1 A where
  shape := hs
  sub _ hl := hl
  start _ hl := .inl hl
  cur l hl := .inl ((h1 l).mp hl)
  rest l _ := hc l
  write l v hv := .inl (h2 l v hv)
  walk l hl := ⟨fun e => by rw [hc l, e], .inl (h3 l hl)⟩
  keep l _ _ old hst := by
    rcases hst with e | ⟨v, n, hw, e⟩ | ⟨hw, e⟩
    · exact .inl (by rw [hc l, e])
    · exact .inr (.inl ⟨v, n, h2 l v hw, by rw [hc l, e]⟩)
    · exact .inr (.inr ⟨h3 l hw, by rw [hc l, e]⟩)

end

theorem mkdir_content {fs fs1 : Fs} {p : List Str} (hm : fs.mkdir p = .ok fs1) (l : Loc) :
    fs1.content l = fs.content l := by
  unfold Fs.mkdir at hm
  split at hm
  · rename_i x _
    split at hm
    · simp at hm
    · rename_i hg
      simp only [Outcome.ok.injEq] at hm
      rw [← hm]
      unfold Fs.content
      rw [Fs.get_put]
      by_cases e : l = x
      · rw [if_pos e, e, hg]
      · rw [if_neg e]
  · simp at hm
  · simp at hm

theorem rmdir_content {fs fs1 : Fs} {p : List Str} (hm : fs.rmdir p = .ok fs1) (l : Loc) :
    fs1.content l = fs.content l := by
  unfold Fs.rmdir at hm
  split at hm
  · rename_i x _
    split at hm
    · rename_i hg
      split at hm
      · simp at hm
      · simp only [Outcome.ok.injEq] at hm
        rw [← hm]
        unfold Fs.content
        rw [Fs.get_del]
        by_cases e : l = x
        · rw [if_pos e, e, hg]
        · rw [if_neg e]
    · simp at hm
    · simp at hm
  · simp at hm
  · simp at hm

theorem put_content (fs : Fs) (x : Loc) (b : Bytes) (l : Loc) :
    (fs.put x (.file b)).content l = if l = x then some b else fs.content l := by
  unfold Fs.content
  rw [Fs.get_put]
  by_cases e : l = x
  · rw [if_pos e, if_pos e]
  · rw [if_neg e, if_neg e]

theorem del_content (fs : Fs) (x l : Loc) : (fs.del x).content l = if l = x then none else fs.content l := by
  unfold Fs.content
  rw [Fs.get_del]
  by_cases e : l = x
  · rw [if_pos e, if_pos e]
  · rw [if_neg e, if_neg e]

section
variable {h : Hier} {A : Loc → Prop} {fs fs1 : Fs}

/-- The call returns. -/
theorem Stepped.back {γ : Type} {k : Outcome γ → Threads.Prog (Prog α)} (hk : RetOnce h A k) (r : Outcome γ) {pc : Pc α}
    (hw : ∀ l v, Writing pc l v → fs.content l = some v) : Stepped h A pc fs (.ofBase (.prog (k r))) fs A := by
  obtain ⟨P, e, hP⟩ := hk r
  rw [e]
  exact .ret hP hw

theorem base_stepped {t t1 : Threads.Pc (Prog α)} (hs : BShape h A fs t)
    (hn : t.next h [] fs = some (t1, fs1)) : Stepped h A (.base t) fs (.ofBase t1) fs1 A := by
  cases t with
  | prog p =>
    obtain ⟨P, rfl, _⟩ := hs
    simp [Threads.Pc.next] at hn
  | getOpen p k =>
    simp only [Threads.Pc.next] at hn
    split at hn <;> simp only [Option.some.injEq, Prod.mk.injEq] at hn <;> obtain ⟨rfl, rfl⟩ := hn
    · split
      · exact .on hs (fun _ => rfl) (fun _ => .rfl) (fun _ _ h => h.elim) fun _ h => h.elim
      · exact .back hs _ fun _ _ h => h.elim
    · exact .back hs _ fun _ _ h => h.elim
    · exact .back hs _ fun _ _ h => h.elim
  | getLock l k =>
    simp only [Threads.Pc.next, List.any_nil, Bool.false_eq_true, if_false, Option.some.injEq, Prod.mk.injEq] at hn
    obtain ⟨rfl, rfl⟩ := hn
    exact .on hs (fun _ => rfl) (fun _ => .rfl) (fun _ _ h => h.elim) fun _ h => h.elim
  | getRead l acc k =>
    simp only [Threads.Pc.next] at hn
    split at hn
    · simp only [Option.some.injEq, Prod.mk.injEq] at hn
      obtain ⟨rfl, rfl⟩ := hn
      exact .back hs _ fun _ _ h => h.elim
    · split at hn <;> simp only [Option.some.injEq, Prod.mk.injEq] at hn <;> obtain ⟨rfl, rfl⟩ := hn
      · exact .on hs (fun _ => rfl) (fun _ => .rfl) (fun _ _ h => h.elim) fun _ h => h.elim
      · exact .back hs _ fun _ _ h => h.elim
  | mkdirDown p n v k =>
    simp only [Threads.Pc.next] at hn
    split at hn
    · simp only [Option.some.injEq, Prod.mk.injEq] at hn
      obtain ⟨rfl, rfl⟩ := hn
      split
      · exact .on hs (fun _ => rfl) (fun _ => .rfl) (fun _ _ h => h.elim) fun _ h => h.elim
      · exact .back hs.2.2 _ fun _ _ h => h.elim
    · split at hn <;> simp only [Option.some.injEq, Prod.mk.injEq] at hn <;> obtain ⟨rfl, rfl⟩ := hn
      · rename_i hm
        exact .on hs (mkdir_content hm) (fun _ => .rfl) (fun _ _ h => h.elim) fun _ h => h.elim
      · split
        · exact .on hs (fun _ => rfl) (fun _ => .rfl) (fun _ _ h => h.elim) fun _ h => h.elim
        · exact .on hs (fun _ => rfl) (fun _ => .rfl) (fun _ _ h => h.elim) fun _ h => h.elim
      · exact .back hs.2.2 _ fun _ _ h => h.elim
  | mkdirDir p n e v k =>
    simp only [Threads.Pc.next, Option.some.injEq, Prod.mk.injEq] at hn
    obtain ⟨rfl, rfl⟩ := hn
    split
    · exact .on hs (fun _ => rfl) (fun _ => .rfl) (fun _ _ h => h.elim) fun _ h => h.elim
    · exact .back hs.2.2 _ fun _ _ h => h.elim
  | mkdirUp p n v k =>
    simp only [Threads.Pc.next] at hn
    split at hn
    · simp only [Option.some.injEq, Prod.mk.injEq] at hn
      obtain ⟨rfl, rfl⟩ := hn
      exact .on hs (fun _ => rfl) (fun _ => .rfl) (fun _ _ h => h.elim) fun _ h => h.elim
    · split at hn <;> simp only [Option.some.injEq, Prod.mk.injEq] at hn <;> obtain ⟨rfl, rfl⟩ := hn
      · rename_i hm
        exact .on hs (mkdir_content hm) (fun _ => .rfl) (fun _ _ h => h.elim) fun _ h => h.elim
      · exact .on hs (fun _ => rfl) (fun _ => .rfl) (fun _ _ h => h.elim) fun _ h => h.elim
      · exact .back hs.2.2 _ fun _ _ h => h.elim
  | setOpen p v k =>
    obtain ⟨hp, hA, hk⟩ := hs
    simp only [Threads.Pc.next] at hn
    split at hn
    · rename_i x f ho
      simp only [Option.some.injEq, Prod.mk.injEq] at hn
      obtain ⟨rfl, rfl⟩ := hn
      unfold Fs.openCreate at ho
      split at ho
      · rename_i y hy
        have hyp := Fs.locate_plain_ok hp hy
        subst hyp
        split at ho
        · rename_i b hg
          simp only [Outcome.ok.injEq, Prod.mk.injEq] at ho
          obtain ⟨rfl, rfl⟩ := ho
          exact .on ⟨⟨b, hg⟩, hA, hk⟩ (fun _ => rfl) (fun _ => .rfl) (fun _ _ h => h.elim) fun _ h => h.elim
        · simp at ho
        · rename_i hg
          simp only [Outcome.ok.injEq, Prod.mk.injEq] at ho
          obtain ⟨rfl, rfl⟩ := ho
          refine ⟨⟨⟨[], by rw [Fs.get_put, if_pos rfl]⟩, hA, hk⟩, fun _ h => h, fun _ h => .inl h, fun _ h => .inl h,
            fun l hl => ?_, fun _ _ h => h.elim, fun _ h => h.elim, fun l hl _ old _ => .inr (.inl ⟨v.1, 0, ⟨hl, rfl⟩, ?_⟩)⟩
          · rw [put_content]; exact if_neg hl
          · rw [put_content]; exact if_pos hl
      · simp at ho
      · simp at ho
    · simp only [Option.some.injEq, Prod.mk.injEq] at hn
      obtain ⟨rfl, rfl⟩ := hn
      exact .back hk _ fun _ _ h => h.elim
    · simp only [Option.some.injEq, Prod.mk.injEq] at hn
      obtain ⟨rfl, rfl⟩ := hn
      exact .back hk _ fun _ _ h => h.elim
  | setLock l v k =>
    simp only [Threads.Pc.next, List.any_nil, Bool.false_eq_true, if_false, Option.some.injEq, Prod.mk.injEq] at hn
    obtain ⟨rfl, rfl⟩ := hn
    exact .on hs (fun _ => rfl) (fun _ => .rfl) (fun _ _ h => h) fun _ h => h.elim
  | setTrunc l v k =>
    obtain ⟨_, hA, hk⟩ := hs
    simp only [Threads.Pc.next, Option.some.injEq, Prod.mk.injEq] at hn
    obtain ⟨rfl, rfl⟩ := hn
    refine ⟨⟨by rw [Fs.get_put, if_pos rfl]; rfl, hA, hk⟩, fun _ h => h, fun _ h => .inl h, fun _ h => .inl h,
      fun l hl => ?_, fun _ _ h => .inl h, fun _ h => h.elim, fun l hl _ old _ => .inr (.inl ⟨v.1, 0, ⟨hl, rfl⟩, ?_⟩)⟩
    · rw [put_content]; exact if_neg hl
    · rw [put_content]; exact if_pos hl
  | setWrite l v n k =>
    obtain ⟨hg, hA, hk⟩ := hs
    simp only [Threads.Pc.next] at hn
    split at hn
    · rename_i b hb
      simp only [Option.some.injEq, Prod.mk.injEq] at hn
      obtain ⟨rfl, rfl⟩ := hn
      have hlt : n < v.1.length := by rw [List.getElem?_eq_some_iff] at hb; exact hb.1
      have e : (Threads.content fs l).take n ++ b :: (Threads.content fs l).drop (n + 1) = v.1.take (n + 1) := by
        unfold Threads.content
        rw [hg]
        simp only
        rw [List.take_take, Nat.min_self, List.drop_eq_nil_of_le (by rw [List.length_take]; omega), List.take_add_one, hb]
        rfl
      rw [e]
      refine ⟨⟨by rw [Fs.get_put, if_pos rfl], hA, hk⟩, fun _ h => h, fun _ h => .inl h, fun _ h => .inl h,
        fun l hl => ?_, fun _ _ h => .inl h, fun _ h => h.elim,
        fun l hl _ old _ => .inr (.inl ⟨v.1, n + 1, ⟨hl, rfl⟩, ?_⟩)⟩
      · rw [put_content]; exact if_neg hl
      · rw [put_content]; exact if_pos hl
    · rename_i hb
      simp only [Option.some.injEq, Prod.mk.injEq] at hn
      obtain ⟨rfl, rfl⟩ := hn
      refine .back hk _ fun x w hw => ?_
      rw [hw.1, hw.2, Fs.content_eq_some, hg, List.take_of_length_le (List.getElem?_eq_none_iff.mp hb)]
  | eraOpen p k =>
    simp only [Threads.Pc.next] at hn
    split at hn <;> simp only [Option.some.injEq, Prod.mk.injEq] at hn <;> obtain ⟨rfl, rfl⟩ := hn
    · split
      · exact .on hs (fun _ => rfl) (fun _ => .rfl) (fun _ _ h => h.elim) fun _ h => h.elim
      · exact .back hs.2.2 _ fun _ _ h => h.elim
    · exact .back hs.2.2 _ fun _ _ h => h.elim
    · exact .back hs.2.2 _ fun _ _ h => h.elim
  | eraLock p l k =>
    simp only [Threads.Pc.next, List.any_nil, Bool.false_eq_true, if_false, Option.some.injEq, Prod.mk.injEq] at hn
    obtain ⟨rfl, rfl⟩ := hn
    exact .on hs (fun _ => rfl) (fun _ => .rfl) (fun _ _ h => h.elim) fun _ h => h.elim
  | eraUnlink p l k =>
    obtain ⟨hp, hA, hk⟩ := hs
    simp only [Threads.Pc.next] at hn
    split at hn
    · rename_i y hy
      have hyp := Fs.locate_plain_ok hp hy
      subst hyp
      split at hn <;> simp only [Option.some.injEq, Prod.mk.injEq] at hn <;> obtain ⟨rfl, rfl⟩ := hn
      · refine ⟨hk, fun _ h => h, fun _ h => .inl h, fun _ h => h.elim, fun l hl => ?_, fun _ _ h => h.elim,
          fun _ h => h.elim, fun _ _ h => h.elim⟩
        rw [del_content]; exact if_neg hl
      · exact .back hk _ fun _ _ h => h.elim
      · exact .back hk _ fun _ _ h => h.elim
    · simp only [Option.some.injEq, Prod.mk.injEq] at hn
      obtain ⟨rfl, rfl⟩ := hn
      exact .back hk _ fun _ _ h => h.elim
    · simp only [Option.some.injEq, Prod.mk.injEq] at hn
      obtain ⟨rfl, rfl⟩ := hn
      exact .back hk _ fun _ _ h => h.elim
  | eraFinal p k =>
    simp only [Threads.Pc.next, Option.some.injEq, Prod.mk.injEq] at hn
    obtain ⟨rfl, rfl⟩ := hn
    exact .back hs _ fun _ _ h => h.elim

/-- The first step of a call of `Model/Threads.lean` that changes nothing. -/
theorem Stepped.read {γ : Type} {k : Outcome γ → Threads.Prog (Prog α)} {P : Prog α} {t1 : Threads.Pc (Prog α)}
    (hk : RetOnce h A k) (ht : (∃ r, t1 = .prog (k r)) ∨ (∀ l, ¬ Cur (Pc.ofBase t1) l) ∧ Shape h A fs (.ofBase t1)) :
    Stepped h A (.prog P) fs (.ofBase t1) fs A := by
  rcases ht with ⟨r, rfl⟩ | ⟨h1, h2⟩
  · exact .back hk r fun _ _ h => h.elim
  · exact .on h2 (fun _ => rfl) (fun l => ⟨fun h => absurd h (h1 l), fun h => h.elim⟩) (fun _ _ h => h.elim)
      fun _ h => h.elim

/-- The first step of a call that changes a file. -/
theorem Stepped.begin {P : Prog α} {x : Loc} {pc1 : Pc α} (hs : Shape h (fun l => A l ∧ l ≠ x) fs pc1)
    (hA : A x) (hc : ∀ l, Cur pc1 l ↔ l = x) : Stepped h A (.prog P) fs pc1 fs fun l => A l ∧ l ≠ x where
  shape := hs
  sub _ hl := hl.1
  start l hl := by
    by_cases e : l = x
    · exact .inr ((hc l).mpr e)
    · exact .inl ⟨hl, e⟩
  cur l hl := .inr ((hc l).mp hl ▸ hA)
  rest _ _ := rfl
  write _ _ h := h.elim
  walk _ h := h.elim
  keep _ h := h.elim

theorem stepped {pc pc1 : Pc α} (hnm : fs.Named) (hwf : fs.WF) (hs : Shape h A fs pc)
    (hn : pc.next h [] fs = some (pc1, fs1)) : ∃ B, Stepped h A pc fs pc1 fs1 B := by
  have hbase : ∀ t, baseNext h [] fs t = some (pc1, fs1) →
      ∃ t1, t.next h [] fs = some (t1, fs1) ∧ pc1 = .ofBase t1 := by
    intro t ht
    unfold baseNext at ht
    rw [Option.map_eq_some_iff] at ht
    obtain ⟨⟨t1, f1⟩, h1, h2⟩ := ht
    simp only [Prod.mk.injEq] at h2
    obtain ⟨rfl, rfl⟩ := h2
    exact ⟨t1, h1, rfl⟩
  have hret : ∀ {γ : Type} {k : Outcome γ → Prog α} {C : Loc → Prop}, (∀ r, (k r).Once h C) →
      RetOnce h C fun r => .done (.ok (k r)) := fun hk r => ⟨_, rfl, hk r⟩
  cases pc with
  | prog P =>
    cases P with
    | done r => simp [Pc.next] at hn
    | «exists» key k =>
      obtain ⟨t1, h1, rfl⟩ := hbase _ hn
      refine ⟨A, ?_⟩
      simp only [Threads.Pc.next] at h1
      split at h1 <;> simp only [Option.some.injEq, Prod.mk.injEq] at h1 <;> obtain ⟨rfl, rfl⟩ := h1
      · exact .read (hret hs) (.inl ⟨_, rfl⟩)
      · exact .read (hret hs) (.inl ⟨_, rfl⟩)
      · exact .read (hret hs) (.inl ⟨_, rfl⟩)
    | get key k =>
      obtain ⟨t1, h1, rfl⟩ := hbase _ hn
      refine ⟨A, ?_⟩
      simp only [Threads.Pc.next] at h1
      split at h1 <;> simp only [Option.some.injEq, Prod.mk.injEq] at h1 <;> obtain ⟨rfl, rfl⟩ := h1
      · split
        · exact .read (hret hs) (.inr ⟨fun _ h => h, hret hs⟩)
        · exact .read (hret hs) (.inl ⟨_, rfl⟩)
      · exact .read (hret hs) (.inl ⟨_, rfl⟩)
      · exact .read (hret hs) (.inl ⟨_, rfl⟩)
    | set key v k =>
      obtain ⟨t1, h1, rfl⟩ := hbase _ hn
      obtain ⟨s1, s2, s3⟩ := hs
      obtain ⟨t, ht, hseg⟩ := getPath_loc s1
      simp only [Threads.Pc.next, ht, Option.some.injEq, Prod.mk.injEq, hseg] at h1
      obtain ⟨rfl, rfl⟩ := h1
      refine ⟨_, .begin (x := h.loc key) ?_ s2 ?_⟩
      · split
        · exact ⟨s1, fun hx => hx.2 rfl, hret s3⟩
        · exact ⟨s1, fun hx => hx.2 rfl, hret s3⟩
      · split
        · exact fun _ => .rfl
        · exact fun _ => .rfl
    | erase key k =>
      obtain ⟨t1, h1, rfl⟩ := hbase _ hn
      obtain ⟨s1, s2, s3⟩ := hs
      obtain ⟨t, ht, hseg⟩ := getPath_loc s1
      simp only [Threads.Pc.next, ht, Option.some.injEq, Prod.mk.injEq, hseg] at h1
      obtain ⟨rfl, rfl⟩ := h1
      by_cases hx : fs.pathExists (h.loc key)
      · rw [if_pos hx]
        exact ⟨_, .begin (x := h.loc key) ⟨s1, fun hx => hx.2 rfl, hret s3⟩ s2 fun _ => .rfl⟩
      · rw [if_neg hx]
        refine ⟨A, ?_⟩
        have hk : ∀ r, (k r).Once h A := fun r => (s3 r).mono fun _ h => h.1
        exact .read (hret hk) (.inr ⟨fun _ h => h, hret hk⟩)
    | erasePrefix key k =>
      obtain ⟨s1, s2, s3⟩ := hs
      obtain ⟨t, ht, hseg⟩ := getPath_loc s1
      simp only [Pc.next, ht, Option.some.injEq, Prod.mk.injEq, hseg] at hn
      obtain ⟨rfl, rfl⟩ := hn
      refine ⟨fun l => A l ∧ ¬ h.loc key <+: l, ⟨fun l hl hx => hx.2 hl, ?_, s3⟩, fun _ h => h.1, fun l hl => ?_,
        fun l hl => .inr (s2 l hl), fun _ _ => rfl, fun _ _ h => h.elim, fun _ h => h.elim, fun _ h => h.elim⟩
      · intro it hit
        split at hit
        · rw [List.mem_singleton] at hit
          rw [hit]
          exact ⟨s1, List.prefix_rfl⟩
        · simp at hit
      · by_cases e : h.loc key <+: l
        · exact .inr e
        · exact .inl ⟨hl, e⟩
    | listDir key k =>
      refine ⟨A, ?_⟩
      have r1 : ∀ r, Stepped h A (.prog (.listDir key k)) fs (.prog (k r)) fs A := fun r => .ret (hs r) fun _ _ h => h.elim
      simp only [Pc.next] at hn
      split at hn
      · split at hn
        · split at hn <;> simp only [Option.some.injEq, Prod.mk.injEq] at hn <;> obtain ⟨rfl, rfl⟩ := hn
          · exact .on hs (fun _ => rfl) (fun _ => .rfl) (fun _ _ h => h.elim) fun _ h => h.elim
          · exact r1 _
          · exact r1 _
        · simp only [Option.some.injEq, Prod.mk.injEq] at hn
          obtain ⟨rfl, rfl⟩ := hn
          exact r1 _
        · simp only [Option.some.injEq, Prod.mk.injEq] at hn
          obtain ⟨rfl, rfl⟩ := hn
          exact r1 _
      · simp only [Option.some.injEq, Prod.mk.injEq] at hn
        obtain ⟨rfl, rfl⟩ := hn
        exact r1 _
      · simp only [Option.some.injEq, Prod.mk.injEq] at hn
        obtain ⟨rfl, rfl⟩ := hn
        exact r1 _
  | base t =>
    obtain ⟨t1, h1, rfl⟩ := hbase _ hn
    exact ⟨A, base_stepped hs h1⟩
  | walk p items k =>
    refine ⟨A, ?_⟩
    obtain ⟨s1, s2, s3⟩ := hs
    have r1 : ∀ r, Stepped h A (.walk p items k) fs (.prog (k r)) fs A := fun r => .ret (s3 r) fun _ _ h => h.elim
    cases items with
    | nil =>
      simp only [Pc.next, Option.some.injEq, Prod.mk.injEq] at hn
      obtain ⟨rfl, rfl⟩ := hn
      exact r1 _
    | cons it items =>
      have hit := s2 it (by simp)
      have htail : ∀ it ∈ items, Plain it.path ∧ p <+: it.path := fun i hi => s2 i (by simp [hi])
      cases it with
      | stat q =>
        simp only [Pc.next] at hn
        split at hn
        · split at hn <;> simp only [Option.some.injEq, Prod.mk.injEq] at hn <;> obtain ⟨rfl, rfl⟩ := hn
          · refine .on ⟨s1, fun i hi => ?_, s3⟩ (fun _ => rfl) (fun _ => .rfl) (fun _ _ h => h.elim) fun _ h => h
            rcases List.mem_cons.mp hi with rfl | hi
            · exact hit
            · exact htail i hi
          · refine .on ⟨s1, fun i hi => ?_, s3⟩ (fun _ => rfl) (fun _ => .rfl) (fun _ _ h => h.elim) fun _ h => h
            rcases List.mem_cons.mp hi with rfl | hi
            · exact hit
            · exact htail i hi
          · exact r1 _
        · simp only [Option.some.injEq, Prod.mk.injEq] at hn
          obtain ⟨rfl, rfl⟩ := hn
          exact r1 _
        · simp only [Option.some.injEq, Prod.mk.injEq] at hn
          obtain ⟨rfl, rfl⟩ := hn
          exact r1 _
      | «open» q =>
        simp only [Pc.next] at hn
        split at hn
        · rename_i y hy
          have hyp := Fs.locate_plain_ok hit.1 hy
          subst hyp
          split at hn <;> simp only [Option.some.injEq, Prod.mk.injEq] at hn <;> obtain ⟨rfl, rfl⟩ := hn
          · refine .on ⟨s1, fun i hi => ?_, s3⟩ (fun _ => rfl) (fun _ => .rfl) (fun _ _ h => h.elim) fun _ h => h
            rcases List.mem_append.mp hi with hi | hi
            · obtain ⟨e, he, rfl⟩ := List.mem_map.mp hi
              have hg := (Fs.mem_children hwf).mp he
              have hpl := hnm _ _ hg
              have hpre : p <+: y ++ [e.1] := hit.2.trans (List.prefix_append _ _)
              split
              · exact ⟨hpl, hpre⟩
              · exact ⟨hpl, hpre⟩
            · rcases List.mem_cons.mp hi with rfl | hi
              · exact hit
              · exact htail i hi
          · exact r1 _
          · exact r1 _
        · simp only [Option.some.injEq, Prod.mk.injEq] at hn
          obtain ⟨rfl, rfl⟩ := hn
          exact r1 _
        · simp only [Option.some.injEq, Prod.mk.injEq] at hn
          obtain ⟨rfl, rfl⟩ := hn
          exact r1 _
      | file q =>
        simp only [Pc.next] at hn
        split at hn <;> simp only [Option.some.injEq, Prod.mk.injEq] at hn <;> obtain ⟨rfl, rfl⟩ := hn
        · split
          · exact .on ⟨hit.1, hit.2, s1, htail, s3⟩ (fun _ => rfl) (fun _ => .rfl) (fun _ _ h => h.elim) fun _ h => h
          · exact r1 _
        · exact r1 _
        · exact r1 _
      | rmdir q =>
        simp only [Pc.next] at hn
        split at hn <;> simp only [Option.some.injEq, Prod.mk.injEq] at hn <;> obtain ⟨rfl, rfl⟩ := hn
        · rename_i hm
          exact .on ⟨s1, htail, s3⟩ (rmdir_content hm) (fun _ => .rfl) (fun _ _ h => h.elim) fun _ h => h
        · exact r1 _
        · exact r1 _
  | walkLock p q l items k =>
    simp only [Pc.next, List.filterMap_nil, List.any_nil, Bool.false_eq_true, if_false, Option.some.injEq,
      Prod.mk.injEq] at hn
    obtain ⟨rfl, rfl⟩ := hn
    exact ⟨A, .on hs (fun _ => rfl) (fun _ => .rfl) (fun _ _ h => h.elim) fun _ h => h⟩
  | walkUnlink p q l items k =>
    refine ⟨A, ?_⟩
    obtain ⟨s4, s5, hw⟩ := hs
    have r1 : ∀ r, Stepped h A (.walkUnlink p q l items k) fs (.prog (k r)) fs A :=
      fun r => .ret (hw.2.2 r) fun _ _ h => h.elim
    simp only [Pc.next] at hn
    split at hn
    · rename_i y hy
      have hyp := Fs.locate_plain_ok s4 hy
      subst hyp
      split at hn <;> simp only [Option.some.injEq, Prod.mk.injEq] at hn <;> obtain ⟨rfl, rfl⟩ := hn
      · refine ⟨hw, fun _ h => h, fun _ h => .inl h, fun _ h => .inl h, fun l hl => ?_, fun _ _ h => h.elim,
          fun l hl => ⟨fun e => ?_, .inl hl⟩, fun l hl _ old hst => ?_⟩
        · rw [del_content, if_neg (by rintro rfl; exact hl s5)]
        · rw [del_content, e]; split <;> rfl
        · by_cases e : l = y
          · exact .inr (.inr ⟨hl, by rw [del_content, if_pos e]⟩)
          · have hc : (fs.del y).content l = fs.content l := by rw [del_content, if_neg e]
            rcases hst with e | ⟨v, n, hw, _⟩ | ⟨hw, e⟩
            · exact .inl (by rw [hc, e])
            · exact hw.elim
            · exact .inr (.inr ⟨hl, by rw [hc, e]⟩)
      · exact r1 _
      · exact r1 _
    · simp only [Option.some.injEq, Prod.mk.injEq] at hn
      obtain ⟨rfl, rfl⟩ := hn
      exact r1 _
    · simp only [Option.some.injEq, Prod.mk.injEq] at hn
      obtain ⟨rfl, rfl⟩ := hn
      exact r1 _
  | listing pre p names keys prefixes k =>
    refine ⟨A, ?_⟩
    cases names with
    | nil =>
      simp only [Pc.next, Option.some.injEq, Prod.mk.injEq] at hn
      obtain ⟨rfl, rfl⟩ := hn
      exact .ret (hs _) fun _ _ h => h.elim
    | cons n ns =>
      simp only [Pc.next] at hn
      split at hn <;> simp only [Option.some.injEq, Prod.mk.injEq] at hn <;> obtain ⟨rfl, rfl⟩ := hn
      · exact .on hs (fun _ => rfl) (fun _ => .rfl) (fun _ _ h => h.elim) fun _ h => h.elim
      · exact .on hs (fun _ => rfl) (fun _ => .rfl) (fun _ _ h => h.elim) fun _ h => h.elim
      · exact .on hs (fun _ => rfl) (fun _ => .rfl) (fun _ _ h => h.elim) fun _ h => h.elim

end

end

end Wide

end Zarr
