import Verif.Lemmas.Faults
/-!
# What failing system calls cannot do
-/

namespace Zarr.Threads

variable {α : Type} {h : Hier} {R W : Loc → Prop}

/-- Only files at `W` and directories above them differ, and no directory is gone. -/
structure Only (W : Loc → Prop) (fs fs' : Fs) : Prop where
  wf : fs'.WF
  dir : ∀ l, fs.get l = some .dir → fs'.get l = some .dir
  content : ∀ l, ¬ W l → fs'.content l = fs.content l
  near : ∀ l, fs'.get l ≠ fs.get l → ∃ w, W w ∧ l <+: w

theorem Only.refl {fs : Fs} (hwf : fs.WF) : Only W fs fs := ⟨hwf, fun _ h => h, fun _ _ => rfl, fun _ h => absurd rfl h⟩

theorem Only.trans {fs fs' fs'' : Fs} (h1 : Only W fs fs') (h2 : Only W fs' fs'') : Only W fs fs'' where
  wf := h2.wf
  dir l hl := h2.dir l (h1.dir l hl)
  content l hl := (h2.content l hl).trans (h1.content l hl)
  near l hl := by
    by_cases e : fs'.get l = fs.get l
    · exact h2.near l (by rw [e]; exact hl)
    · exact h1.near l e

/-- A new directory above a file at `W`. -/
theorem Only.mkdir {fs fs' : Fs} {p : Loc} {n : Nat} (hwf : fs.WF) (hp : Plain p) (hw : W p) (h0 : n ≠ 0)
    (hn : n < p.length) (hk : fs.mkdir (p.take n) = .ok fs') : Only W fs fs' := by
  obtain ⟨_, w1, m2⟩ := mkdir_made hp h0 hn (.refl p hwf) hk
  refine ⟨w1, fun l hl => ?_, fun l _ => ?_, fun l hl => ?_⟩
  · rcases m2 l with e | ⟨_, _, e, _⟩
    · rw [e]; exact hl
    · rw [e] at hl; cases hl
  · rcases m2 l with e | ⟨_, _, e, e'⟩
    · exact Fs.content_congr e
    · simp [Fs.content, e, e']
  · rcases m2 l with e | ⟨e, _⟩
    · exact absurd e hl
    · exact ⟨p, hw, e⟩

/-- A file at `W` that is written. -/
theorem Only.put {fs : Fs} {p : Loc} {b b' : Bytes} (hwf : fs.WF) (hw : W p) (hg : fs.get p = some (.file b)) :
    Only W fs (fs.put p (.file b')) ∧ (fs.put p (.file b')).get p = some (.file b') := by
  have hg' : (fs.put p (.file b')).get p = some (.file b') := by rw [Fs.get_put, if_pos rfl]
  refine ⟨⟨?_, fun l hl => ?_, fun l hl => ?_, fun l hl => ?_⟩, hg'⟩
  · rcases List.eq_nil_or_concat p with e | ⟨q, s, e⟩
    · subst e; rw [hwf.root] at hg; simp at hg
    · have e : p = q ++ [s] := by simpa using e
      rw [e] at hg ⊢
      exact hwf.put_file (hwf.parent _ _ _ hg) (by rw [hg]; simp)
  · have : l ≠ p := by rintro rfl; rw [hg] at hl; simp at hl
    rw [Fs.get_put, if_neg this]; exact hl
  · have : l ≠ p := by rintro rfl; exact hl hw
    exact Fs.content_congr (by rw [Fs.get_put, if_neg this])
  · by_cases e : l = p
    · exact ⟨p, hw, by rw [e]; exact List.prefix_refl _⟩
    · rw [Fs.get_put, if_neg e] at hl; exact absurd rfl hl

/-- A file at `W` that is removed. -/
theorem Only.del {fs : Fs} {p : Loc} {b : Bytes} (hwf : fs.WF) (hw : W p) (hg : fs.get p = some (.file b)) :
    Only W fs (fs.del p) := by
  refine ⟨hwf.del_file hg, fun l hl => ?_, fun l hl => ?_, fun l hl => ?_⟩
  · have : l ≠ p := by rintro rfl; rw [hg] at hl; simp at hl
    rw [Fs.get_del, if_neg this]; exact hl
  · have : l ≠ p := by rintro rfl; exact hl hw
    exact Fs.content_congr (by rw [Fs.get_del, if_neg this])
  · by_cases e : l = p
    · exact ⟨p, hw, by rw [e]; exact List.prefix_refl _⟩
    · rw [Fs.get_del, if_neg e] at hl; exact absurd rfl hl

/-- A file at `W` that is opened, and made if there is none. -/
theorem Only.create {fs fs' : Fs} {p l : Loc} (hwf : fs.WF) (hp : Plain p) (hw : W p)
    (ho : Fs.openCreate p fs = .ok (l, fs')) : l = p ∧ Only W fs fs' ∧ ∃ b, fs'.get p = some (.file b) := by
  obtain ⟨rfl, b, _, o2, o3, o4, o5⟩ := openCreate_opened hp (.refl p hwf) ho
  obtain ⟨_, _, ho3⟩ := openCreate_ok ho
  refine ⟨rfl, ⟨o2, fun x hx => ?_, fun x hx => ?_, fun x hx => ?_⟩, b, o3⟩
  · have : x ≠ l := by rintro rfl; exact o4.2 hx
    rw [ho3 x this]; exact hx
  · have : x ≠ l := by rintro rfl; exact hx hw
    exact Fs.content_congr (ho3 x this)
  · by_cases e : x = l
    · exact ⟨l, hw, by rw [e]; exact List.prefix_refl _⟩
    · exact absurd (ho3 x e) hx

/-- The invariant of a call that uses `R` and `W`, whatever fails. -/
def HInv (h : Hier) (R W : Loc → Prop) (fs : Fs) : Pc α → Prop
  | .prog p => fs.WF ∧ p.Uses h R W
  | .getOpen _ k | .getLock _ k | .getRead _ _ k => fs.WF ∧ ∀ r, (k r).Uses h R W
  | .mkdirDown p n _ k | .mkdirDir p n _ _ k => fs.WF ∧ n < p.length ∧ Plain p ∧ W p ∧ ∀ r, (k r).Uses h R W
  | .mkdirUp p n _ k => fs.WF ∧ n ≠ 0 ∧ Plain p ∧ W p ∧ ∀ r, (k r).Uses h R W
  | .setOpen p _ k => fs.WF ∧ Plain p ∧ W p ∧ ∀ r, (k r).Uses h R W
  | .setLock p _ k | .setTrunc p _ k | .setWrite p _ _ k =>
    fs.WF ∧ W p ∧ (∃ b, fs.get p = some (.file b)) ∧ ∀ r, (k r).Uses h R W
  | .eraOpen p k | .eraLock p _ k | .eraUnlink p _ k | .eraFinal p k =>
    fs.WF ∧ Plain p ∧ W p ∧ ∀ r, (k r).Uses h R W

section
variable {fs fs' : Fs} {pc pc' : Pc α}

theorem HInv.failed {f : Fault} (hi : HInv h R W fs pc) (hf : pc.failed h f = some pc') : HInv h R W fs pc' := by
  cases pc with
  | prog p =>
    obtain ⟨a1, a2⟩ := hi
    cases p with
    | done r => simp [Pc.failed] at hf
    | «exists» key k =>
      obtain ⟨t, ht, hs⟩ := getPath_loc a2.1
      simp only [Pc.failed, ht, Option.some.injEq] at hf
      subst hf
      exact ⟨a1, a2.2.2 _⟩
    | get key k =>
      obtain ⟨t, ht, hs⟩ := getPath_loc a2.1
      simp only [Pc.failed, ht, Option.some.injEq] at hf
      subst hf
      exact ⟨a1, a2.2.2 _⟩
    | set key v k =>
      obtain ⟨t, ht, hs⟩ := getPath_loc a2.1
      simp only [Pc.failed, ht, hs] at hf
      split at hf
      · cases hf
      · rename_i hne
        simp only [Option.some.injEq] at hf
        subst hf
        have : (h.loc key).length ≠ 0 := fun e => hne (by rw [List.length_eq_zero_iff.mp e]; rfl)
        exact ⟨a1, by omega, a2.1, a2.2.1, a2.2.2⟩
    | erase key k =>
      obtain ⟨t, ht, hs⟩ := getPath_loc a2.1
      simp only [Pc.failed, ht, hs, Option.some.injEq] at hf
      subst hf
      exact ⟨a1, a2.1, a2.2.1, a2.2.2⟩
  | getOpen l k => simp only [Pc.failed, Option.some.injEq] at hf; subst hf; exact ⟨hi.1, hi.2 _⟩
  | getLock l k => simp only [Pc.failed, Option.some.injEq] at hf; subst hf; exact ⟨hi.1, hi.2 _⟩
  | getRead l acc k => simp only [Pc.failed, Option.some.injEq] at hf; subst hf; exact ⟨hi.1, hi.2 _⟩
  | mkdirDown p n v k =>
    obtain ⟨a1, a2, a3, a4, a5⟩ := hi
    simp only [Pc.failed] at hf
    split at hf
    · simp only [Option.some.injEq] at hf; subst hf; exact ⟨a1, a5 _⟩
    · simp only [Option.some.injEq] at hf
      subst hf
      split
      · exact ⟨a1, by omega, a3, a4, a5⟩
      · exact ⟨a1, a2, a3, a4, a5⟩
  | mkdirDir p n e v k =>
    obtain ⟨a1, a2, a3, a4, a5⟩ := hi
    simp only [Pc.failed, Option.some.injEq] at hf; subst hf; exact ⟨a1, a5 _⟩
  | mkdirUp p n v k =>
    obtain ⟨a1, a2, a3, a4, a5⟩ := hi
    simp only [Pc.failed] at hf
    split at hf
    · cases hf
    · simp only [Option.some.injEq] at hf; subst hf; exact ⟨a1, by omega, a3, a4, a5⟩
  | setOpen p v k =>
    obtain ⟨a1, a3, a4, a5⟩ := hi
    simp only [Pc.failed, Option.some.injEq] at hf; subst hf; exact ⟨a1, a5 _⟩
  | setLock p v k =>
    obtain ⟨a1, a3, a4, a5⟩ := hi
    simp only [Pc.failed, Option.some.injEq] at hf; subst hf; exact ⟨a1, a5 _⟩
  | setTrunc p v k =>
    obtain ⟨a1, a3, a4, a5⟩ := hi
    simp only [Pc.failed, Option.some.injEq] at hf; subst hf; exact ⟨a1, a5 _⟩
  | setWrite p v n k =>
    obtain ⟨a1, a3, a4, a5⟩ := hi
    simp only [Pc.failed] at hf
    split at hf
    · simp only [Option.some.injEq] at hf; subst hf; exact ⟨a1, a5 _⟩
    · cases hf
  | eraOpen p k => simp only [Pc.failed, Option.some.injEq] at hf; subst hf; exact ⟨hi.1, hi.2.2.2 _⟩
  | eraLock p l k => simp only [Pc.failed, Option.some.injEq] at hf; subst hf; exact ⟨hi.1, hi.2.2.2 _⟩
  | eraUnlink p l k => simp only [Pc.failed, Option.some.injEq] at hf; subst hf; exact ⟨hi.1, hi.2.2.2 _⟩
  | eraFinal p k => simp only [Pc.failed, Option.some.injEq] at hf; subst hf; exact ⟨hi.1, hi.2.2.2 _⟩

theorem HInv.next (hi : HInv h R W fs pc) (hn : pc.next h [] fs = some (pc', fs')) :
    HInv h R W fs' pc' ∧ Only W fs fs' := by
  cases pc with
  | prog p =>
    obtain ⟨a1, a2⟩ := hi
    cases p with
    | done r => simp [Pc.next] at hn
    | «exists» key k =>
      obtain ⟨t, ht, hs⟩ := getPath_loc a2.1
      simp only [Pc.next, ht, hs, Option.some.injEq, Prod.mk.injEq] at hn
      obtain ⟨rfl, rfl⟩ := hn
      exact ⟨⟨a1, a2.2.2 _⟩, .refl a1⟩
    | get key k =>
      obtain ⟨t, ht, hs⟩ := getPath_loc a2.1
      simp only [Pc.next, ht, hs, Option.some.injEq, Prod.mk.injEq] at hn
      obtain ⟨rfl, rfl⟩ := hn
      refine ⟨?_, .refl a1⟩
      split
      · exact ⟨a1, a2.2.2⟩
      · exact ⟨a1, a2.2.2 _⟩
    | set key v k =>
      obtain ⟨t, ht, hs⟩ := getPath_loc a2.1
      simp only [Pc.next, ht, hs, Option.some.injEq, Prod.mk.injEq] at hn
      obtain ⟨rfl, rfl⟩ := hn
      refine ⟨?_, .refl a1⟩
      split
      · exact ⟨a1, a2.1, a2.2.1, a2.2.2⟩
      · rename_i hne
        have : (h.loc key).length ≠ 0 := fun e => hne (.inl (by rw [List.length_eq_zero_iff.mp e]; rfl))
        exact ⟨a1, by omega, a2.1, a2.2.1, a2.2.2⟩
    | erase key k =>
      obtain ⟨t, ht, hs⟩ := getPath_loc a2.1
      simp only [Pc.next, ht, hs, Option.some.injEq, Prod.mk.injEq] at hn
      obtain ⟨rfl, rfl⟩ := hn
      refine ⟨?_, .refl a1⟩
      split
      · exact ⟨a1, a2.1, a2.2.1, a2.2.2⟩
      · exact ⟨a1, a2.1, a2.2.1, a2.2.2⟩
  | getOpen l k =>
    obtain ⟨a1, a2⟩ := hi
    simp only [Pc.next] at hn
    split at hn
    all_goals
      simp only [Option.some.injEq, Prod.mk.injEq] at hn
      obtain ⟨rfl, rfl⟩ := hn
    · refine ⟨?_, .refl a1⟩
      split
      · exact ⟨a1, a2⟩
      · exact ⟨a1, a2 _⟩
    · exact ⟨⟨a1, a2 _⟩, .refl a1⟩
    · exact ⟨⟨a1, a2 _⟩, .refl a1⟩
  | getLock l k =>
    obtain ⟨a1, a2⟩ := hi
    simp only [Pc.next, List.any_nil, Bool.false_eq_true, if_false, Option.some.injEq, Prod.mk.injEq] at hn
    obtain ⟨rfl, rfl⟩ := hn
    exact ⟨⟨a1, a2⟩, .refl a1⟩
  | getRead l acc k =>
    obtain ⟨a1, a2⟩ := hi
    simp only [Pc.next] at hn
    split at hn
    · simp only [Option.some.injEq, Prod.mk.injEq] at hn
      obtain ⟨rfl, rfl⟩ := hn
      exact ⟨⟨a1, a2 _⟩, .refl a1⟩
    · split at hn
      all_goals
        simp only [Option.some.injEq, Prod.mk.injEq] at hn
        obtain ⟨rfl, rfl⟩ := hn
      · exact ⟨⟨a1, a2⟩, .refl a1⟩
      · exact ⟨⟨a1, a2 _⟩, .refl a1⟩
  | mkdirDown p n v k =>
    obtain ⟨a1, a2, a3, a4, a5⟩ := hi
    simp only [Pc.next] at hn
    by_cases h0 : n = 0
    · rw [if_pos h0] at hn
      simp only [Option.some.injEq, Prod.mk.injEq] at hn
      obtain ⟨rfl, rfl⟩ := hn
      refine ⟨?_, .refl a1⟩
      split
      · exact ⟨a1, by omega, a3, a4, a5⟩
      · exact ⟨a1, a5 _⟩
    · rw [if_neg h0] at hn
      cases hk : fs.mkdir (p.take n) with
      | ok f1 =>
        rw [hk] at hn
        simp only [Option.some.injEq, Prod.mk.injEq] at hn
        obtain ⟨rfl, rfl⟩ := hn
        have := Only.mkdir (W := W) a1 a3 a4 h0 a2 hk
        exact ⟨⟨this.wf, by omega, a3, a4, a5⟩, this⟩
      | err e =>
        rw [hk] at hn
        simp only [Option.some.injEq, Prod.mk.injEq] at hn
        obtain ⟨rfl, rfl⟩ := hn
        refine ⟨?_, .refl a1⟩
        split
        · exact ⟨a1, by omega, a3, a4, a5⟩
        · exact ⟨a1, a2, a3, a4, a5⟩
      | panic => exact absurd hk (mkdir_ne_panic _ _)
  | mkdirDir p n e v k =>
    obtain ⟨a1, a2, a3, a4, a5⟩ := hi
    simp only [Pc.next, Option.some.injEq, Prod.mk.injEq] at hn
    obtain ⟨rfl, rfl⟩ := hn
    refine ⟨?_, .refl a1⟩
    split
    · exact ⟨a1, by omega, a3, a4, a5⟩
    · exact ⟨a1, a5 _⟩
  | mkdirUp p n v k =>
    obtain ⟨a1, a2, a3, a4, a5⟩ := hi
    simp only [Pc.next] at hn
    by_cases hl : p.length ≤ n
    · rw [if_pos hl] at hn
      simp only [Option.some.injEq, Prod.mk.injEq] at hn
      obtain ⟨rfl, rfl⟩ := hn
      exact ⟨⟨a1, a3, a4, a5⟩, .refl a1⟩
    · rw [if_neg hl] at hn
      cases hk : fs.mkdir (p.take n) with
      | ok f1 =>
        rw [hk] at hn
        simp only [Option.some.injEq, Prod.mk.injEq] at hn
        obtain ⟨rfl, rfl⟩ := hn
        have := Only.mkdir (W := W) a1 a3 a4 a2 (by omega) hk
        exact ⟨⟨this.wf, by omega, a3, a4, a5⟩, this⟩
      | err e =>
        rw [hk] at hn
        simp only [Option.some.injEq, Prod.mk.injEq] at hn
        obtain ⟨rfl, rfl⟩ := hn
        exact ⟨⟨a1, by omega, a3, a4, a5⟩, .refl a1⟩
      | panic => exact absurd hk (mkdir_ne_panic _ _)
  | setOpen p v k =>
    obtain ⟨a1, a3, a4, a5⟩ := hi
    simp only [Pc.next] at hn
    cases ho : Fs.openCreate p fs with
    | ok r =>
      obtain ⟨l, f1⟩ := r
      rw [ho] at hn
      simp only [Option.some.injEq, Prod.mk.injEq] at hn
      obtain ⟨rfl, rfl⟩ := hn
      obtain ⟨rfl, hon, hb⟩ := Only.create (W := W) a1 a3 a4 ho
      exact ⟨⟨hon.wf, a4, hb, a5⟩, hon⟩
    | err e =>
      rw [ho] at hn
      simp only [Option.some.injEq, Prod.mk.injEq] at hn
      obtain ⟨rfl, rfl⟩ := hn
      exact ⟨⟨a1, a5 _⟩, .refl a1⟩
    | panic => exact absurd ho (openCreate_ne_panic _ _)
  | setLock p v k =>
    obtain ⟨a1, a3, a4, a5⟩ := hi
    simp only [Pc.next, List.any_nil, Bool.false_eq_true, if_false, Option.some.injEq, Prod.mk.injEq] at hn
    obtain ⟨rfl, rfl⟩ := hn
    exact ⟨⟨a1, a3, a4, a5⟩, .refl a1⟩
  | setTrunc p v k =>
    obtain ⟨a1, a3, ⟨b, a4⟩, a5⟩ := hi
    simp only [Pc.next, Option.some.injEq, Prod.mk.injEq] at hn
    obtain ⟨rfl, rfl⟩ := hn
    have := Only.put (W := W) (b' := []) a1 a3 a4
    exact ⟨⟨this.1.wf, a3, ⟨_, this.2⟩, a5⟩, this.1⟩
  | setWrite p v n k =>
    obtain ⟨a1, a3, ⟨b, a4⟩, a5⟩ := hi
    simp only [Pc.next] at hn
    split at hn
    all_goals
      simp only [Option.some.injEq, Prod.mk.injEq] at hn
      obtain ⟨rfl, rfl⟩ := hn
    · have := fun b' => Only.put (W := W) (b' := b') a1 a3 a4
      exact ⟨⟨(this _).1.wf, a3, ⟨_, (this _).2⟩, a5⟩, (this _).1⟩
    · exact ⟨⟨a1, a5 _⟩, .refl a1⟩
  | eraOpen p k =>
    obtain ⟨a1, a3, a4, a5⟩ := hi
    simp only [Pc.next] at hn
    split at hn
    all_goals
      simp only [Option.some.injEq, Prod.mk.injEq] at hn
      obtain ⟨rfl, rfl⟩ := hn
    · refine ⟨?_, .refl a1⟩
      split
      · exact ⟨a1, a3, a4, a5⟩
      · exact ⟨a1, a5 _⟩
    · exact ⟨⟨a1, a5 _⟩, .refl a1⟩
    · exact ⟨⟨a1, a5 _⟩, .refl a1⟩
  | eraLock p l k =>
    obtain ⟨a1, a3, a4, a5⟩ := hi
    simp only [Pc.next, List.any_nil, Bool.false_eq_true, if_false, Option.some.injEq, Prod.mk.injEq] at hn
    obtain ⟨rfl, rfl⟩ := hn
    exact ⟨⟨a1, a3, a4, a5⟩, .refl a1⟩
  | eraUnlink p l k =>
    obtain ⟨a1, a3, a4, a5⟩ := hi
    simp only [Pc.next] at hn
    split at hn
    · rename_i l' hl
      have := Fs.locate_plain_ok a3 hl
      subst this
      split at hn
      all_goals
        simp only [Option.some.injEq, Prod.mk.injEq] at hn
        obtain ⟨rfl, rfl⟩ := hn
      · rename_i b hg
        have := Only.del (W := W) a1 a4 hg
        exact ⟨⟨this.wf, a3, a4, a5⟩, this⟩
      · exact ⟨⟨a1, a5 _⟩, .refl a1⟩
      · exact ⟨⟨a1, a5 _⟩, .refl a1⟩
    all_goals
      simp only [Option.some.injEq, Prod.mk.injEq] at hn
      obtain ⟨rfl, rfl⟩ := hn
      exact ⟨⟨a1, a5 _⟩, .refl a1⟩
  | eraFinal p k =>
    obtain ⟨a1, a3, a4, a5⟩ := hi
    simp only [Pc.next, Option.some.injEq, Prod.mk.injEq] at hn
    obtain ⟨rfl, rfl⟩ := hn
    exact ⟨⟨a1, a5 _⟩, .refl a1⟩

theorem HInv.wf (hi : HInv h R W fs pc) : fs.WF := by
  cases pc <;> exact hi.1

theorem HInv.step {f : Option Fault} (hi : HInv h R W fs pc) (hs : pc.stepFaulty h fs f = some (pc', fs')) :
    HInv h R W fs' pc' ∧ Only W fs fs' := by
  cases f with
  | none => exact hi.next hs
  | some x =>
    simp only [Pc.stepFaulty] at hs
    cases hf : pc.failed h x with
    | none => rw [hf] at hs; exact hi.next hs
    | some pc1 =>
      rw [hf] at hs
      simp only [Option.some.injEq, Prod.mk.injEq] at hs
      obtain ⟨rfl, rfl⟩ := hs
      exact ⟨hi.failed hf, .refl hi.wf⟩

theorem HInv.run {s : List (Option Fault)} (hi : HInv h R W fs pc) (hs : pc.runFaulty h fs s = some (pc', fs')) :
    HInv h R W fs' pc' ∧ Only W fs fs' := by
  induction s generalizing pc fs with
  | nil =>
    simp only [Pc.runFaulty, Option.some.injEq, Prod.mk.injEq] at hs
    obtain ⟨rfl, rfl⟩ := hs
    exact ⟨hi, .refl hi.wf⟩
  | cons f s ih =>
    simp only [Pc.runFaulty] at hs
    cases hf : pc.stepFaulty h fs f with
    | none => rw [hf] at hs; simp at hs
    | some r =>
      obtain ⟨pc1, fs1⟩ := r
      rw [hf] at hs
      obtain ⟨h1, h2⟩ := hi.step hf
      obtain ⟨h3, h4⟩ := ih h1 hs
      exact ⟨h3, h2.trans h4⟩

end

end Zarr.Threads
