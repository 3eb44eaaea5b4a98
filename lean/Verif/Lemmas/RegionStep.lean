import Verif.Lemmas.Region
/-!
# Steps of a thread in two filesystems

The relation between a thread that runs among others and the same thread alone in a filesystem in which the
directories above its roots exist. The steps correspond, except that the former may have to make
directories above its roots (`Dig`). -/

namespace Zarr

namespace Threads

/-- Locks only delay. -/
theorem next_nil {α : Type} {h : Hier} {pcs : List (Pc α)} {fs : Fs} {pc : Pc α} {r : Pc α × Fs}
    (hn : pc.next h pcs fs = some r) : pc.next h [] fs = some r := by
  cases pc with
  | getLock l k =>
    simp only [Pc.next] at hn ⊢
    split at hn
    · simp at hn
    · simpa using hn
  | setLock l v k =>
    simp only [Pc.next] at hn ⊢
    split at hn
    · simp at hn
    · simpa using hn
  | eraLock p l k =>
    simp only [Pc.next] at hn ⊢
    split at hn
    · simp at hn
    · simpa using hn
  | prog p => cases p <;> exact hn
  | _ => exact hn

end Threads

namespace Wide

theorem next_nil {α : Type} {h : Hier} {pcs : List (Pc α)} {fs : Fs} {pc : Pc α} {r : Pc α × Fs}
    (hn : pc.next h pcs fs = some r) : pc.next h [] fs = some r := by
  have hb : ∀ t, baseNext h pcs fs t = some r → baseNext h [] fs t = some r := by
    intro t ht
    unfold baseNext at ht ⊢
    rw [Option.map_eq_some_iff] at ht
    obtain ⟨a, ha, he⟩ := ht
    have := Threads.next_nil ha
    simp only [List.filterMap_nil]
    rw [this]; simpa using he
  cases pc with
  | prog p =>
    cases p with
    | done _ => exact hn
    | «exists» key k => exact hb _ hn
    | get key k => exact hb _ hn
    | set key v k => exact hb _ hn
    | erase key k => exact hb _ hn
    | erasePrefix key k => exact hn
    | listDir key k => exact hn
  | base t => exact hb _ hn
  | walk p items k => cases items with
    | nil => exact hn
    | cons it r => cases it <;> exact hn
  | walkLock p q l items k =>
    simp only [Pc.next] at hn ⊢
    split at hn
    · simp at hn
    · simpa using hn
  | walkUnlink p q l items k => exact hn
  | listing pre p names keys prefixes k => cases names <;> exact hn

section
variable {α : Type} (h : Hier) (roots wroots : List Loc)

/-- The call returns to a program that stays below the roots. -/
def Ret {β : Type} (k : Outcome β → Threads.Prog (Prog α)) : Prop :=
  ∀ r, ∃ P : Prog α, k r = .done (.ok P) ∧ P.Uses h (Above roots) (Under roots) (Under wroots)

/-- States of a call of a thread that stays below the roots. -/
def BOk (fs : Fs) : Threads.Pc (Prog α) → Prop
  | .prog p => ∃ P : Prog α, p = .done (.ok P) ∧ P.Uses h (Above roots) (Under roots) (Under wroots)
  | .getOpen p k => Plain p ∧ Under roots p ∧ fs.get p ≠ none ∧ Ret h roots wroots k
  | .getLock l k => Under roots l ∧ Ret h roots wroots k
  | .getRead l _ k => Under roots l ∧ Ret h roots wroots k
  | .mkdirDown p n _ k => Plain p ∧ Under wroots p ∧ n < p.length ∧ Under roots (p.take n) ∧ Ret h roots wroots k
  | .mkdirDir p n _ _ k => Plain p ∧ Under wroots p ∧ n < p.length ∧ Under roots (p.take n) ∧ Ret h roots wroots k
  | .mkdirUp p n _ k => Plain p ∧ Under wroots p ∧ 1 ≤ n ∧ n ≤ p.length ∧ Under roots (p.take (n - 1)) ∧
      Ret h roots wroots k
  | .setOpen p _ k => Plain p ∧ Under wroots p ∧ Near roots fs p ∧ Ret h roots wroots k
  | .setLock l _ k => Plain l ∧ Under wroots l ∧ (∃ b, fs.get l = some (.file b)) ∧ Ret h roots wroots k
  | .setTrunc l _ k => Plain l ∧ Under wroots l ∧ (∃ b, fs.get l = some (.file b)) ∧ Ret h roots wroots k
  | .setWrite l _ _ k => Plain l ∧ Under wroots l ∧ (∃ b, fs.get l = some (.file b)) ∧ Ret h roots wroots k
  | .eraOpen p k => Plain p ∧ Under wroots p ∧ fs.get p ≠ none ∧ Ret h roots wroots k
  | .eraLock p l k => l = p ∧ Plain p ∧ Under wroots p ∧ fs.get p ≠ none ∧ Ret h roots wroots k
  | .eraUnlink p l k => l = p ∧ Plain p ∧ Under wroots p ∧ fs.get p ≠ none ∧ Ret h roots wroots k
  | .eraFinal p k => Plain p ∧ Under wroots p ∧ Ret h roots wroots k

/-- The path of an item. -/
def Item.path : Item → List Str
  | .stat q => q
  | .open q => q
  | .file q => q
  | .rmdir q => q

/-- The removal of the tree at `p`. -/
def WOk (fs : Fs) (p : List Str) (items : List Item) (k : Outcome Bool → Prog α) : Prop :=
  Plain p ∧ Under wroots p ∧ (∀ it ∈ items, Plain it.path ∧ p <+: it.path) ∧
    ∀ r, (k r).Uses h (Above roots) (Under roots) (Under wroots)

/-- States of a thread that stays below the roots. -/
def Ok (fs : Fs) : Pc α → Prop
  | .prog P => P.Uses h (Above roots) (Under roots) (Under wroots)
  | .base t => BOk h roots wroots fs t
  | .walk p items k => WOk h roots wroots fs p items k ∧ (items ≠ [] → Near roots fs p)
  | .walkLock p q l items k => l = q ∧ Plain q ∧ p <+: q ∧ Near roots fs p ∧ WOk h roots wroots fs p items k
  | .walkUnlink p q l items k => l = q ∧ Plain q ∧ p <+: q ∧ Near roots fs p ∧ WOk h roots wroots fs p items k
  | .listing _ p names _ _ k => Plain p ∧ Under roots p ∧ (∀ n ∈ names, Plain (p ++ [n])) ∧
      ∀ r, (k r).Uses h (Above roots) (Under roots) (Under wroots)

end

section
variable {α : Type} {h : Hier} {roots wroots : List Loc} {fs fs' fs1 : Fs}

theorem ok_ofBase {t : Threads.Pc (Prog α)} (ht : BOk h roots wroots fs t) : Ok h roots wroots fs (Pc.ofBase t) := by
  unfold Pc.ofBase
  split
  · obtain ⟨P, hP, hu⟩ := ht
    simp only [Threads.Prog.done.injEq, Outcome.ok.injEq] at hP
    rw [hP]; exact hu
  · exact ht

/-- A change elsewhere. -/
theorem Near.other {p : Loc} (ha : Apart wroots roots) (he : Eff wroots fs fs1) (hu : Under roots p)
    (hn : Near roots fs p) : Near roots fs1 p := by
  by_cases hud : Under roots p.dropLast
  · exact .inl hud
  · have hd := hn.resolve_left hud
    rcases he.get_above ha (.of_prefix hu (List.dropLast_prefix p) hud) with e | ⟨e, _⟩
    · exact .inr (e ▸ hd)
    · rw [e] at hd; simp at hd

theorem Eff.get_eq (ha : Apart wroots roots) (he : Eff wroots fs fs1) {l : Loc} (hl : Under roots l) :
    fs1.get l = fs.get l := by rw [get_part hl, get_part hl, he.part_eq ha]

theorem BOk.other {W : List Loc} (hsub : ∀ r ∈ wroots, r ∈ roots) {t : Threads.Pc (Prog α)} (ha : Apart W roots)
    (he : Eff W fs fs1) (ht : BOk h roots wroots fs t) : BOk h roots wroots fs1 t := by
  cases t with
  | getOpen p k => exact ⟨ht.1, ht.2.1, by rw [he.get_eq ha ht.2.1]; exact ht.2.2.1, ht.2.2.2⟩
  | setOpen p v k => exact ⟨ht.1, ht.2.1, ht.2.2.1.other ha he (ht.2.1.mono hsub), ht.2.2.2⟩
  | setLock l v k => exact ⟨ht.1, ht.2.1, by rw [he.get_eq ha (ht.2.1.mono hsub)]; exact ht.2.2.1, ht.2.2.2⟩
  | setTrunc l v k => exact ⟨ht.1, ht.2.1, by rw [he.get_eq ha (ht.2.1.mono hsub)]; exact ht.2.2.1, ht.2.2.2⟩
  | setWrite l v n k => exact ⟨ht.1, ht.2.1, by rw [he.get_eq ha (ht.2.1.mono hsub)]; exact ht.2.2.1, ht.2.2.2⟩
  | eraOpen p k => exact ⟨ht.1, ht.2.1, by rw [he.get_eq ha (ht.2.1.mono hsub)]; exact ht.2.2.1, ht.2.2.2⟩
  | eraLock p l k =>
    exact ⟨ht.1, ht.2.1, ht.2.2.1, by rw [he.get_eq ha (ht.2.2.1.mono hsub)]; exact ht.2.2.2.1, ht.2.2.2.2⟩
  | eraUnlink p l k =>
    exact ⟨ht.1, ht.2.1, ht.2.2.1, by rw [he.get_eq ha (ht.2.2.1.mono hsub)]; exact ht.2.2.2.1, ht.2.2.2.2⟩
  | _ => exact ht

theorem Ok.other {W : List Loc} (hsub : ∀ r ∈ wroots, r ∈ roots) {pc : Pc α} (ha : Apart W roots)
    (he : Eff W fs fs1) (ht : Ok h roots wroots fs pc) : Ok h roots wroots fs1 pc := by
  cases pc with
  | prog P => exact ht
  | base t => exact BOk.other hsub ha he ht
  | walk p items k => exact ⟨ht.1, fun hne => (ht.2 hne).other ha he (ht.1.2.1.mono hsub)⟩
  | walkLock p q l items k =>
    exact ⟨ht.1, ht.2.1, ht.2.2.1, ht.2.2.2.1.other ha he (ht.2.2.2.2.2.1.mono hsub), ht.2.2.2.2⟩
  | walkUnlink p q l items k =>
    exact ⟨ht.1, ht.2.1, ht.2.2.1, ht.2.2.2.1.other ha he (ht.2.2.2.2.2.1.mono hsub), ht.2.2.2.2⟩
  | listing pre p names keys prefixes k => exact ht

/-! ## Steps that correspond -/

/-- After a step in both. -/
structure Same (h : Hier) (roots wroots : List Loc) (fs fs1 : Fs) (t t1 : Threads.Pc (Prog α)) (fs' : Fs) : Prop where
  next : ∃ fs1', t.next h [] fs' = some (t1, fs1') ∧ Twin roots fs1 fs1'
  eff : Eff wroots fs fs1
  ok : BOk h roots wroots fs1 t1

theorem ne_nil_of_under (hr : ∀ r ∈ roots, r ≠ []) {p : Loc} (hp : Under roots p) : p ≠ [] := by
  rintro rfl
  obtain ⟨r, h1, h2⟩ := hp
  exact hr r h1 (List.prefix_nil.mp h2)

theorem content_twin (T : Twin roots fs fs') {l : Loc} (hl : Under roots l) :
    Threads.content fs l = Threads.content fs' l := by
  unfold Threads.content; rw [T.get hl]

/-- `prog (k r)` is fine. -/
theorem Same.ret (T : Twin roots fs fs') {β : Type} {k : Outcome β → Threads.Prog (Prog α)} (hk : Ret h roots wroots k)
    {r : Outcome β} {t : Threads.Pc (Prog α)} (ht : t.next h [] fs' = some (.prog (k r), fs')) :
    Same h roots wroots fs fs t (.prog (k r)) fs' := ⟨⟨fs', ht, T⟩, .same, hk r⟩

variable (hr : ∀ r ∈ roots, r ≠ []) (hsub : ∀ r ∈ wroots, r ∈ roots)
include hr hsub

/-- The `mkdir` steps. -/
theorem same_mkdir (T : Twin roots fs fs') {p : List Str} {n : Nat} {v : Bytes × Outcome Unit}
    {k : Outcome Unit → Threads.Prog (Prog α)} (hp : Plain p) (hw : Under wroots p) (hn1 : 1 ≤ n) (hn : n < p.length)
    (hu : Under roots (p.take n)) (hnear : Near roots fs (p.take n)) (hk : Ret h roots wroots k) :
    (fs.mkdir (p.take n) = .ok (fs.put (p.take n) .dir) ∧ fs'.mkdir (p.take n) = .ok (fs'.put (p.take n) .dir) ∧
      Twin roots (fs.put (p.take n) .dir) (fs'.put (p.take n) .dir) ∧
      Eff wroots fs (fs.put (p.take n) .dir) ∧
      BOk h roots wroots (fs.put (p.take n) .dir) (.mkdirUp p (n + 1) v k)) ∨
    ∃ e, fs.mkdir (p.take n) = .err e ∧ fs'.mkdir (p.take n) = .err e ∧
      (e = .notFound → fs.get (p.take n).dropLast ≠ some .dir) := by
  have hpt : Plain (p.take n) := hp.of_prefix (List.take_prefix _ _)
  rcases T.mkdir hpt (ne_nil_of_under hr hu) hu hnear with ⟨h1, h2, h3, h4, h5⟩ | ⟨e, h1, h2, h3⟩
  · refine .inl ⟨h3, h4, h5, ?_, hp, hw, by omega, by omega, hu, hk⟩
    obtain ⟨w, hw1, hw2⟩ := hw
    rcases List.prefix_or_prefix_of_prefix hw2 (List.take_prefix n p) with h6 | h6
    · exact .write _ _ ⟨w, hw1, h6⟩
    · exact .mkdir _ h2 ⟨w, hw1, h6⟩
  · exact .inr ⟨e, h1, h2, h3⟩

theorem same_base (T : Twin roots fs fs') {t t1 : Threads.Pc (Prog α)} (ok : BOk h roots wroots fs t)
    (hd : ∀ p n v k, t = .mkdirDown p n v k → Near roots fs (p.take n))
    (hn : t.next h [] fs = some (t1, fs1)) : Same h roots wroots fs fs1 t t1 fs' := by
  cases t with
  | prog p =>
    obtain ⟨P, rfl, _⟩ := ok
    simp [Threads.Pc.next] at hn
  | getOpen p k =>
    obtain ⟨o1, o2, o3, o4⟩ := ok
    have hne := ne_nil_of_under hr o2
    have hnear := near_of_get (roots := roots) T.wf hne o3
    have hl := T.locate_eq o1 hne o2 hnear
    obtain ⟨nd, hnd⟩ := Option.ne_none_iff_exists'.mp o3
    have hloc := Fs.locate_of_get T.wf o1 hnd
    have hnd' := T.get o2 ▸ hnd
    simp only [Threads.Pc.next, hloc, hnd, Option.isSome_some, if_true, Option.some.injEq, Prod.mk.injEq] at hn
    obtain ⟨rfl, rfl⟩ := hn
    exact ⟨⟨fs', by simp [Threads.Pc.next, ← hl, hloc, hnd'], T⟩, .same, o2, o4⟩
  | getLock l k =>
    simp only [Threads.Pc.next, List.any_nil, Bool.false_eq_true, if_false, Option.some.injEq, Prod.mk.injEq] at hn
    obtain ⟨rfl, rfl⟩ := hn
    exact ⟨⟨fs', by simp [Threads.Pc.next], T⟩, .same, ok⟩
  | getRead l acc k =>
    obtain ⟨o1, o2⟩ := ok
    have hg := T.get o1
    have hc := content_twin T o1
    have hx : (Threads.Pc.getRead l acc k).next h [] fs' =
        ((Threads.Pc.getRead l acc k).next h [] fs).map fun r => (r.1, fs') := by
      simp only [Threads.Pc.next, ← hg, ← hc]
      split
      · rfl
      · split <;> rfl
    have hfs : fs1 = fs := by
      simp only [Threads.Pc.next] at hn
      split at hn
      · simp at hn; exact hn.2.symm
      · split at hn <;> (simp at hn; exact hn.2.symm)
    have hok : BOk h roots wroots fs t1 := by
      simp only [Threads.Pc.next] at hn
      split at hn
      · simp at hn; rw [← hn.1]; exact o2 _
      · split at hn
        · simp at hn; rw [← hn.1]; exact ⟨o1, o2⟩
        · simp at hn; rw [← hn.1]; exact o2 _
    subst hfs
    exact ⟨⟨fs', by rw [hx, hn]; rfl, T⟩, .same, hok⟩
  | mkdirDown p n v k =>
    obtain ⟨o1, o2, o3, o4, o5⟩ := ok
    have hn0 : n ≠ 0 := by
      rintro rfl
      exact ne_nil_of_under hr o4 (by simp)
    have hnear := hd p n v k rfl
    simp only [Threads.Pc.next, if_neg hn0] at hn
    rcases same_mkdir hr hsub (v := v) T o1 o2 (by omega) o3 o4 hnear o5 with ⟨h1, h2, h3, h4, h5⟩ | ⟨e, h1, h2, h3⟩
    · rw [h1] at hn
      simp only [Option.some.injEq, Prod.mk.injEq] at hn
      obtain ⟨rfl, rfl⟩ := hn
      exact ⟨⟨_, by simp only [Threads.Pc.next, if_neg hn0, h2], h3⟩, h4, h5⟩
    · rw [h1] at hn
      simp only [Option.some.injEq, Prod.mk.injEq] at hn
      obtain ⟨rfl, rfl⟩ := hn
      refine ⟨⟨fs', by simp only [Threads.Pc.next, if_neg hn0, h2], T⟩, .same, ?_⟩
      by_cases hnf : e = .notFound
      · rw [if_pos hnf]
        have hu := hnear.resolve_right (h3 hnf)
        rw [List.dropLast_take (by omega)] at hu
        exact ⟨o1, o2, by omega, hu, o5⟩
      · rw [if_neg hnf]
        exact ⟨o1, o2, o3, o4, o5⟩
  | mkdirDir p n e v k =>
    obtain ⟨o1, o2, o3, o4, o5⟩ := ok
    have hi := T.isDir (o1.of_prefix (List.take_prefix n p)) o4
    simp only [Threads.Pc.next, Option.some.injEq, Prod.mk.injEq] at hn
    obtain ⟨rfl, rfl⟩ := hn
    refine ⟨⟨fs', by simp only [Threads.Pc.next, hi], T⟩, .same, ?_⟩
    by_cases hdir : fs.isDir (p.take n)
    · rw [if_pos hdir]
      exact ⟨o1, o2, by omega, by omega, o4, o5⟩
    · rw [if_neg hdir]
      exact o5 _
  | mkdirUp p n v k =>
    obtain ⟨o1, o2, o3, o4, o5, o6⟩ := ok
    by_cases hle : p.length ≤ n
    · simp only [Threads.Pc.next, if_pos hle, Option.some.injEq, Prod.mk.injEq] at hn
      obtain ⟨rfl, rfl⟩ := hn
      have hnl : n = p.length := by omega
      refine ⟨⟨fs', by simp only [Threads.Pc.next, if_pos hle], T⟩, .same, o1, o2, .inl ?_, o6⟩
      rw [List.dropLast_eq_take, ← hnl]; exact o5
    · simp only [Threads.Pc.next, if_neg hle] at hn
      have hu : Under roots (p.take n) := o5.below (by
        rw [show p.take (n - 1) = (p.take n).take (n - 1) by rw [List.take_take]; congr 1; omega]
        exact List.take_prefix _ _)
      have hnear : Near roots fs (p.take n) := .inl (by rw [List.dropLast_take (by omega)]; exact o5)
      rcases same_mkdir hr hsub (v := v) T o1 o2 o3 (by omega) hu hnear o6 with ⟨h1, h2, h3, h4, h5⟩ | ⟨e, h1, h2, h3⟩
      · rw [h1] at hn
        simp only [Option.some.injEq, Prod.mk.injEq] at hn
        obtain ⟨rfl, rfl⟩ := hn
        exact ⟨⟨_, by simp only [Threads.Pc.next, if_neg hle, h2], h3⟩, h4, h5⟩
      · rw [h1] at hn
        simp only [Option.some.injEq, Prod.mk.injEq] at hn
        obtain ⟨rfl, rfl⟩ := hn
        exact ⟨⟨fs', by simp only [Threads.Pc.next, if_neg hle, h2], T⟩, .same, o1, o2, by omega, hu, o6⟩
  | setOpen p v k =>
    obtain ⟨o1, o2, o3, o4⟩ := ok
    have hu := o2.mono hsub
    have hne := ne_nil_of_under hr hu
    simp only [Threads.Pc.next] at hn
    rcases T.openCreate o1 hne hu o3 with ⟨b, h0, h1, h2⟩ | ⟨h1, h2, h3⟩ | ⟨e, h1, h2⟩
    · rw [h1] at hn
      simp only [Option.some.injEq, Prod.mk.injEq] at hn
      obtain ⟨rfl, rfl⟩ := hn
      exact ⟨⟨fs', by simp only [Threads.Pc.next, h2], T⟩, .same, o1, o2, ⟨b, h0⟩, o4⟩
    · rw [h1] at hn
      simp only [Option.some.injEq, Prod.mk.injEq] at hn
      obtain ⟨rfl, rfl⟩ := hn
      exact ⟨⟨_, by simp only [Threads.Pc.next, h2], h3⟩, .write _ _ o2, o1, o2, ⟨[], by rw [Fs.get_put]; simp⟩, o4⟩
    · rw [h1] at hn
      simp only [Option.some.injEq, Prod.mk.injEq] at hn
      obtain ⟨rfl, rfl⟩ := hn
      exact .ret T o4 (by simp only [Threads.Pc.next, h2])
  | setLock l v k =>
    simp only [Threads.Pc.next, List.any_nil, Bool.false_eq_true, if_false, Option.some.injEq, Prod.mk.injEq] at hn
    obtain ⟨rfl, rfl⟩ := hn
    exact ⟨⟨fs', by simp [Threads.Pc.next], T⟩, .same, ok⟩
  | setTrunc l v k =>
    obtain ⟨o1, o2, ⟨b, o3⟩, o4⟩ := ok
    have hu := o2.mono hsub
    simp only [Threads.Pc.next, Option.some.injEq, Prod.mk.injEq] at hn
    obtain ⟨rfl, rfl⟩ := hn
    refine ⟨⟨_, by simp only [Threads.Pc.next], T.put_both hu o1 (T.wf.put_file_over o3)
      (T.wf'.put_file_over (T.get hu ▸ o3))⟩, .write _ _ o2, o1, o2, ⟨[], by rw [Fs.get_put]; simp⟩, o4⟩
  | setWrite l v n k =>
    obtain ⟨o1, o2, ⟨b, o3⟩, o4⟩ := ok
    have hu := o2.mono hsub
    have hc := content_twin T hu
    simp only [Threads.Pc.next] at hn
    split at hn
    · rename_i c hvn
      simp only [Option.some.injEq, Prod.mk.injEq] at hn
      obtain ⟨rfl, rfl⟩ := hn
      refine ⟨⟨_, by simp only [Threads.Pc.next, hvn, ← hc], T.put_both hu o1 (T.wf.put_file_over o3)
        (T.wf'.put_file_over (T.get hu ▸ o3))⟩, .write _ _ o2, o1, o2, ⟨_, by rw [Fs.get_put, if_pos rfl]⟩, o4⟩
    · rename_i hvn
      simp only [Option.some.injEq, Prod.mk.injEq] at hn
      obtain ⟨rfl, rfl⟩ := hn
      exact .ret T o4 (by simp only [Threads.Pc.next, hvn])
  | eraOpen p k =>
    obtain ⟨o1, o2, o3, o4⟩ := ok
    have hu := o2.mono hsub
    have hne := ne_nil_of_under hr hu
    have hl := T.locate_eq o1 hne hu (near_of_get T.wf hne o3)
    obtain ⟨nd, hnd⟩ := Option.ne_none_iff_exists'.mp o3
    have hloc := Fs.locate_of_get T.wf o1 hnd
    have hnd' := T.get hu ▸ hnd
    simp only [Threads.Pc.next, hloc, hnd, Option.isSome_some, if_true, Option.some.injEq, Prod.mk.injEq] at hn
    obtain ⟨rfl, rfl⟩ := hn
    exact ⟨⟨fs', by simp [Threads.Pc.next, ← hl, hloc, hnd'], T⟩, .same, rfl, o1, o2, o3, o4⟩
  | eraLock p l k =>
    simp only [Threads.Pc.next, List.any_nil, Bool.false_eq_true, if_false, Option.some.injEq, Prod.mk.injEq] at hn
    obtain ⟨rfl, rfl⟩ := hn
    exact ⟨⟨fs', by simp [Threads.Pc.next], T⟩, .same, ok⟩
  | eraUnlink p l k =>
    obtain ⟨o0, o1, o2, o3, o4⟩ := ok
    have hu := o2.mono hsub
    have hne := ne_nil_of_under hr hu
    have hl := T.locate_eq o1 hne hu (near_of_get T.wf hne o3)
    obtain ⟨nd, hnd⟩ := Option.ne_none_iff_exists'.mp o3
    have hloc := Fs.locate_of_get T.wf o1 hnd
    have hnd' := T.get hu ▸ hnd
    cases nd with
    | file b =>
      simp only [Threads.Pc.next, hloc, hnd, Option.some.injEq, Prod.mk.injEq] at hn
      obtain ⟨rfl, rfl⟩ := hn
      exact ⟨⟨_, by simp only [Threads.Pc.next, ← hl, hloc, hnd'], T.del_both hu (T.wf.del_file hnd)
        (T.wf'.del_file hnd')⟩, .del _ o2, o1, o2, o4⟩
    | dir =>
      simp only [Threads.Pc.next, hloc, hnd, Option.some.injEq, Prod.mk.injEq] at hn
      obtain ⟨rfl, rfl⟩ := hn
      exact .ret T o4 (by simp only [Threads.Pc.next, ← hl, hloc, hnd'])
  | eraFinal p k =>
    obtain ⟨o1, o2, o4⟩ := ok
    have hpe := T.pathExists o1 (o2.mono hsub)
    simp only [Threads.Pc.next, Option.some.injEq, Prod.mk.injEq] at hn
    obtain ⟨rfl, rfl⟩ := hn
    exact .ret T o4 (by simp only [Threads.Pc.next, hpe])

end

end Wide

end Zarr
