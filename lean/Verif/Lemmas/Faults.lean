import Verif.Model.Faults
import Verif.Lemmas.Interfere
/-!
# Calls whose system calls fail
-/

namespace Zarr.Threads

variable {α : Type} {h : Hier}

/-- The same tree. -/
def Same (fs fs' : Fs) : Prop := fs.WF ∧ fs'.WF ∧ ∀ l, fs.get l = fs'.get l

theorem Same.refl {fs : Fs} (hwf : fs.WF) : Same fs fs := ⟨hwf, hwf, fun _ => rfl⟩
theorem Same.symm {fs fs' : Fs} (hs : Same fs fs') : Same fs' fs := ⟨hs.2.1, hs.1, fun l => (hs.2.2 l).symm⟩
theorem Same.trans {fs fs' fs'' : Fs} (h1 : Same fs fs') (h2 : Same fs' fs'') : Same fs fs'' :=
  ⟨h1.1, h2.2.1, fun l => (h1.2.2 l).trans (h2.2.2 l)⟩

namespace Prog

/-- No key of the program leads outside. -/
def Keys (h : Hier) : Prog α → Prop
  | .done _ => True
  | .exists key k => Plain (h.loc key) ∧ ∀ r, (k r).Keys h
  | .get key k => Plain (h.loc key) ∧ ∀ r, (k r).Keys h
  | .set key _ k => Plain (h.loc key) ∧ ∀ r, (k r).Keys h
  | .erase key k => Plain (h.loc key) ∧ ∀ r, (k r).Keys h

/-- An error of a store call ends the program with that error (`?`). -/
def Strict : Prog α → Prop
  | .done _ => True
  | .exists _ k => (∀ e, k (.err e) = .done (.err e)) ∧ ∀ r, (k r).Strict
  | .get _ k => (∀ e, k (.err e) = .done (.err e)) ∧ ∀ r, (k r).Strict
  | .set _ _ k => (∀ e, k (.err e) = .done (.err e)) ∧ ∀ r, (k r).Strict
  | .erase _ k => (∀ e, k (.err e) = .done (.err e)) ∧ ∀ r, (k r).Strict

theorem Keys.of_uses {R W : Loc → Prop} {p : Prog α} (hp : p.Uses h R W) : p.Keys h := by
  induction p with
  | done r => trivial
  | «exists» key k ih => exact ⟨hp.1, fun r => ih r (hp.2.2 r)⟩
  | get key k ih => exact ⟨hp.1, fun r => ih r (hp.2.2 r)⟩
  | set key v k ih => exact ⟨hp.1, fun r => ih r (hp.2.2 r)⟩
  | erase key k ih => exact ⟨hp.1, fun r => ih r (hp.2.2 r)⟩

theorem Strict.bind {β : Type} {p : Prog α} {f : α → Prog β} (hp : p.Strict) (hf : ∀ a, (f a).Strict) :
    (p >>= f).Strict := by
  rw [bind_def]
  induction p with
  | done r => cases r with
    | ok a => exact hf a
    | err e => trivial
    | panic => trivial
  | «exists» key k ih => exact ⟨fun e => by show (k (.err e)).bind f = _; rw [hp.1 e]; rfl, fun r => ih r (hp.2 r)⟩
  | get key k ih => exact ⟨fun e => by show (k (.err e)).bind f = _; rw [hp.1 e]; rfl, fun r => ih r (hp.2 r)⟩
  | set key v k ih => exact ⟨fun e => by show (k (.err e)).bind f = _; rw [hp.1 e]; rfl, fun r => ih r (hp.2 r)⟩
  | erase key k ih => exact ⟨fun e => by show (k (.err e)).bind f = _; rw [hp.1 e]; rfl, fun r => ih r (hp.2 r)⟩

theorem Strict.ite {b : Prop} [Decidable b] {p q : Prog α} (hp : p.Strict) (hq : q.Strict) :
    (if b then p else q).Strict := by
  split
  · exact hp
  · exact hq

end Prog

theorem same_set {key : Str} {v : Bytes × Outcome Unit} {fs fs' : Fs} (hs : Same fs fs')
    (hp : Plain (h.loc key)) (hw : Writable fs (h.loc key)) :
    (storeSet h key v fs).1 = v.2 ∧ (storeSet h key v fs').1 = v.2 ∧
      Same (storeSet h key v fs).2 (storeSet h key v fs').2 := by
  obtain ⟨f1, e1, w1, g1⟩ := (storeSet_spec v hs.1 hp).1 hw
  obtain ⟨f2, e2, w2, g2⟩ := (storeSet_spec v hs.2.1 hp).1
    ⟨fun l a b c => by rw [← hs.2.2]; exact hw.1 l a b c, by rw [← hs.2.2]; exact hw.2⟩
  rw [e1, e2]
  refine ⟨rfl, rfl, w1, w2, fun l => ?_⟩
  rw [g1, g2]
  simp only [setSpec, hs.2.2]

/-- A program does the same in the same tree. -/
theorem run_same {p : Prog α} (hp : p.Keys h) {fs fs' : Fs} (hs : Same fs fs') {r : α} {fs1 : Fs}
    (hst : p.Strict) (hr : p.run h fs = (.ok r, fs1)) : ∃ fs2, p.run h fs' = (.ok r, fs2) ∧ Same fs1 fs2 := by
  induction p generalizing fs fs' with
  | done x =>
    simp only [Prog.run] at hr ⊢
    rw [M.lift_apply] at hr ⊢
    refine ⟨fs', ?_, ?_⟩
    · rw [show x = .ok r from congrArg Prod.fst hr]
    · rw [← (show fs = fs1 from congrArg Prod.snd hr)]; exact hs
  | «exists» key k ih =>
    simp only [Prog.run] at hr ⊢
    rw [storeExists_eq hs.1 hp.1] at hr
    rw [storeExists_eq hs.2.1 hp.1, ← Fs.content_congr (hs.2.2 (h.loc key))]
    exact ih _ (hp.2 _) hs (hst.2 _) hr
  | get key k ih =>
    simp only [Prog.run] at hr ⊢
    rw [storeGet_eq hs.1 hp.1] at hr
    rw [storeGet_eq hs.2.1 hp.1, ← Fs.content_congr (hs.2.2 (h.loc key))]
    exact ih _ (hp.2 _) hs (hst.2 _) hr
  | set key v k ih =>
    simp only [Prog.run] at hr ⊢
    by_cases hw : Writable fs (h.loc key)
    · obtain ⟨e1, e2, e3⟩ := same_set (v := v) hs hp.1 hw
      rw [e1] at hr
      rw [e2]
      exact ih _ (hp.2 _) e3 (hst.2 _) hr
    · obtain ⟨e, he⟩ := (storeSet_spec v hs.1 hp.1).2 hw
      rw [he, hst.1] at hr
      simp [Prog.run, M.lift_apply] at hr
  | erase key k ih =>
    simp only [Prog.run] at hr ⊢
    rw [storeErase_spec hs.1 hp.1] at hr
    rw [storeErase_spec hs.2.1 hp.1, ← hs.2.2]
    cases hg : fs.get (h.loc key) with
    | none => rw [hg] at hr; exact ih _ (hp.2 _) hs (hst.2 _) hr
    | some nd =>
      rw [hg] at hr
      cases nd with
      | dir => exact ih _ (hp.2 _) hs (hst.2 _) hr
      | file b =>
        refine ih _ (hp.2 _) ⟨hs.1.del_file hg, hs.2.1.del_file (by rw [← hs.2.2]; exact hg), fun l => ?_⟩
          (hst.2 _) hr
        rw [Fs.get_del, Fs.get_del, hs.2.2]

/-! ## Failures that are noticed -/

/-- The failure is not one that the code takes for an answer: `exists` and `is_file` of `exists`, `get` and
`erase`, and writes on drop. -/
def Noticed {α : Type} (f : Fault) : Pc α → Prop
  | .prog (.exists _ _) | .prog (.get _ _) | .prog (.erase _ _) => False
  | .setWrite _ _ _ _ => f.onDrop = false
  | _ => True

/-- All failures of the schedule are noticed. -/
def AllNoticed {α : Type} (h : Hier) (pc : Pc α) (fs : Fs) : List (Option Fault) → Prop
  | [] => True
  | f :: s => (∀ x, f = some x → Noticed x pc) ∧
    ∀ r, pc.stepFaulty h fs f = some r → AllNoticed h r.1 r.2 s

/-- The result that the rest of a program has without failures is as the result `T` of the whole. -/
def Good (h : Hier) (T : Outcome α × Fs) (p : Prog α) (fs : Fs) : Prop :=
  ∀ r fs1, p.run h fs = (.ok r, fs1) → ∃ fs2, T = (.ok r, fs2) ∧ Same fs2 fs1

theorem Good.same {T : Outcome α × Fs} {p : Prog α} {fs fs' : Fs} (hg : Good h T p fs) (hk : p.Keys h)
    (hst : p.Strict) (hs : Same fs fs') : Good h T p fs' := by
  intro r fs1 hr
  obtain ⟨fs2, h1, h2⟩ := run_same hk hs.symm hst hr
  obtain ⟨fs3, h3, h4⟩ := hg r fs2 h1
  exact ⟨fs3, h3, h4.trans h2.symm⟩

theorem Good.err (T : Outcome α × Fs) (e : ErrKind) (fs : Fs) : Good h T (.done (.err e)) fs := by
  intro r fs1 hr
  simp [Prog.run, M.lift_apply] at hr

theorem Good.panic (T : Outcome α × Fs) (fs : Fs) : Good h T (.done .panic) fs := by
  intro r fs1 hr
  simp [Prog.run, M.lift_apply] at hr

/-- Continuations of programs. -/
def Cont {β : Type} (h : Hier) (k : Outcome β → Prog α) : Prop :=
  (∀ e, k (.err e) = .done (.err e)) ∧ (∀ r, (k r).Strict) ∧ ∀ r, (k r).Keys h

/-- Directories on the way to `p` may have been made. -/
def Made (p : Loc) (fs0 fs : Fs) : Prop :=
  fs0.WF ∧ fs.WF ∧ ∀ l, fs.get l = fs0.get l ∨ (l <+: p ∧ l ≠ p ∧ fs0.get l = none ∧ fs.get l = some .dir)

/-- The tree after a `set`. -/
def SetTo (fs0 : Fs) (p : Loc) (b : Bytes) (fs : Fs) : Prop := fs.WF ∧ ∀ l, fs.get l = setSpec fs0 p b l

/-- The rest after a `set` is good. -/
def GoodSet (h : Hier) (T : Outcome α × Fs) (fs0 : Fs) (p : Loc) (v : Bytes × Outcome Unit)
    (k : Outcome Unit → Prog α) : Prop :=
  Plain p ∧ Cont h k ∧ (Writable fs0 p → ∀ fs, SetTo fs0 p v.1 fs → Good h T (k v.2) fs)

/-- The file is being written: it exists, and its directories do. -/
def Opened (p : Loc) (fs0 fs : Fs) (b : Bytes) : Prop :=
  fs0.WF ∧ fs.WF ∧ fs.get p = some (.file b) ∧ Writable fs0 p ∧
    ∀ l, l ≠ p → fs.get l = setSpec fs0 p [] l

/-- The invariant. -/
def FInv (h : Hier) (T : Outcome α × Fs) (fs : Fs) : Pc α → Prop
  | .prog p => fs.WF ∧ p.Keys h ∧ p.Strict ∧ Good h T p fs
  | .getOpen p k => fs.WF ∧ Plain p ∧ Cont h k ∧ ∃ b, fs.content p = some b ∧ Good h T (k (.ok (some b))) fs
  | .getLock p k => fs.WF ∧ Plain p ∧ Cont h k ∧ ∃ b, fs.content p = some b ∧ Good h T (k (.ok (some b))) fs
  | .getRead p acc k => fs.WF ∧ Plain p ∧ Cont h k ∧
      ∃ b, fs.content p = some b ∧ acc <+: b ∧ Good h T (k (.ok (some b))) fs
  | .mkdirDown p n v k => n < p.length ∧ ∃ fs0, Made p fs0 fs ∧ GoodSet h T fs0 p v k
  | .mkdirDir p n _ v k => n < p.length ∧ ∃ fs0, Made p fs0 fs ∧ GoodSet h T fs0 p v k
  | .mkdirUp p n v k => n ≠ 0 ∧ ∃ fs0, Made p fs0 fs ∧ GoodSet h T fs0 p v k
  | .setOpen p v k => ∃ fs0, Made p fs0 fs ∧ GoodSet h T fs0 p v k
  | .setLock p v k => ∃ fs0 b, Opened p fs0 fs b ∧ GoodSet h T fs0 p v k
  | .setTrunc p v k => ∃ fs0 b, Opened p fs0 fs b ∧ GoodSet h T fs0 p v k
  | .setWrite p v n k => ∃ fs0, Opened p fs0 fs (v.1.take n) ∧ n ≤ v.1.length ∧ GoodSet h T fs0 p v k
  | .eraOpen p k => fs.WF ∧ Plain p ∧ Cont h k ∧ (fs.get p).isSome ∧
      ((fs.content p).isSome → ∀ fs', Same (fs.del p) fs' → Good h T (k (.ok true)) fs')
  | .eraLock p l k => fs.WF ∧ Plain p ∧ l = p ∧ Cont h k ∧ (fs.get p).isSome ∧
      ((fs.content p).isSome → ∀ fs', Same (fs.del p) fs' → Good h T (k (.ok true)) fs')
  | .eraUnlink p l k => fs.WF ∧ Plain p ∧ l = p ∧ Cont h k ∧ (fs.get p).isSome ∧
      ((fs.content p).isSome → ∀ fs', Same (fs.del p) fs' → Good h T (k (.ok true)) fs')
  | .eraFinal p k => fs.WF ∧ Plain p ∧ Cont h k ∧ fs.get p = none ∧ Good h T (k (.ok true)) fs

section
variable {T : Outcome α × Fs} {fs fs' : Fs} {pc pc' : Pc α}

theorem Cont.err {β : Type} {k : Outcome β → Prog α} (hk : Cont h k) (hwf : fs.WF) (e : ErrKind) :
    FInv h T fs (.prog (k (.err e))) :=
  ⟨hwf, hk.2.2 _, hk.2.1 _, by rw [hk.1 e]; exact Good.err T e fs⟩

theorem Cont.prog {β : Type} {k : Outcome β → Prog α} (hk : Cont h k) (hwf : fs.WF) {r : Outcome β}
    (hg : Good h T (k r) fs) : FInv h T fs (.prog (k r)) :=
  ⟨hwf, hk.2.2 _, hk.2.1 _, hg⟩

theorem Made.refl (p : Loc) (hwf : fs.WF) : Made p fs fs := ⟨hwf, hwf, fun _ => .inl rfl⟩

/-- A failed step keeps the invariant, if it is noticed. -/
theorem FInv.failed {f : Fault} (hi : FInv h T fs pc) (hn : Noticed f pc) (hf : pc.failed h f = some pc') :
    FInv h T fs pc' := by
  cases pc with
  | prog p =>
    cases p with
    | done r => simp [Pc.failed] at hf
    | «exists» key k => exact absurd hn id
    | get key k => exact absurd hn id
    | erase key k => exact absurd hn id
    | set key v k =>
      obtain ⟨a1, ⟨b1, b2⟩, ⟨c1, c2⟩, a4⟩ := hi
      obtain ⟨t, ht, hs⟩ := getPath_loc b1
      simp only [Pc.failed, ht] at hf
      split at hf
      · simp at hf
      · rename_i hne
        simp only [Option.some.injEq] at hf
        subst hf
        rw [hs] at hne ⊢
        have hne : h.loc key ≠ [] := by simpa using hne
        have hlen := List.length_pos_iff.mpr hne
        refine ⟨by omega, fs, .refl _ a1, b1, ⟨c1, c2, b2⟩, fun hw fs1 h1 => ?_⟩
        obtain ⟨f1, e1, w1, g1⟩ := (storeSet_spec v a1 b1).1 hw
        have : Good h T (k v.2) f1 := by
          intro r fs2 hr
          refine a4 r fs2 ?_
          simp only [Prog.run, e1]
          exact hr
        exact this.same (b2 _) (c2 _) ⟨w1, h1.1, fun l => by rw [g1, h1.2]⟩
  | getOpen p k => simp only [Pc.failed, Option.some.injEq] at hf; subst hf; exact hi.2.2.1.err hi.1 _
  | getLock p k => simp only [Pc.failed, Option.some.injEq] at hf; subst hf; exact hi.2.2.1.err hi.1 _
  | getRead p acc k => simp only [Pc.failed, Option.some.injEq] at hf; subst hf; exact hi.2.2.1.err hi.1 _
  | mkdirDown p n v k =>
    obtain ⟨hlt, fs0, hm, hg⟩ := hi
    simp only [Pc.failed] at hf
    split at hf
    · simp only [Option.some.injEq] at hf; subst hf; exact hg.2.1.err hm.2.1 _
    · simp only [Option.some.injEq] at hf; subst hf
      split
      · exact ⟨by omega, fs0, hm, hg⟩
      · exact ⟨hlt, fs0, hm, hg⟩
  | mkdirDir p n e v k =>
    obtain ⟨hlt, fs0, hm, hg⟩ := hi
    simp only [Pc.failed, Option.some.injEq] at hf; subst hf; exact hg.2.1.err hm.2.1 _
  | mkdirUp p n v k =>
    obtain ⟨h0, fs0, hm, hg⟩ := hi
    simp only [Pc.failed] at hf
    split at hf
    · simp at hf
    · simp only [Option.some.injEq] at hf; subst hf
      exact ⟨by omega, fs0, hm, hg⟩
  | setOpen p v k =>
    obtain ⟨fs0, hm, hg⟩ := hi
    simp only [Pc.failed, Option.some.injEq] at hf; subst hf; exact hg.2.1.err hm.2.1 _
  | setLock p v k =>
    obtain ⟨fs0, b, ho, hg⟩ := hi
    simp only [Pc.failed, Option.some.injEq] at hf; subst hf; exact hg.2.1.err ho.2.1 _
  | setTrunc p v k =>
    obtain ⟨fs0, b, ho, hg⟩ := hi
    simp only [Pc.failed, Option.some.injEq] at hf; subst hf; exact hg.2.1.err ho.2.1 _
  | setWrite p v n k =>
    obtain ⟨fs0, ho, hle, hg⟩ := hi
    simp only [Pc.failed] at hf
    split at hf
    · simp only [Option.some.injEq] at hf; subst hf
      rw [show f.onDrop = false from hn]
      exact hg.2.1.err ho.2.1 _
    · simp at hf
  | eraOpen p k => simp only [Pc.failed, Option.some.injEq] at hf; subst hf; exact hi.2.2.1.err hi.1 _
  | eraLock p l k => simp only [Pc.failed, Option.some.injEq] at hf; subst hf; exact hi.2.2.2.1.err hi.1 _
  | eraUnlink p l k => simp only [Pc.failed, Option.some.injEq] at hf; subst hf; exact hi.2.2.2.1.err hi.1 _
  | eraFinal p k =>
    simp only [Pc.failed, Option.some.injEq] at hf; subst hf
    exact hi.2.2.1.prog hi.1 hi.2.2.2.2

theorem mkdir_ne_panic (fs : Fs) (p : List Str) : fs.mkdir p ≠ .panic := by
  unfold Fs.mkdir
  split
  · split <;> simp
  · simp
  · rename_i hl; exact absurd hl (Fs.locate_ne_panic _ _)

theorem take_split {p : Loc} {n : Nat} (h0 : n ≠ 0) (hn : n < p.length) : ∃ q s, p.take n = q ++ [s] := by
  rcases List.eq_nil_or_concat (p.take n) with e | ⟨q, s, e⟩
  · have := congrArg List.length e
    rw [List.length_take, List.length_nil] at this
    omega
  · exact ⟨q, s, by simpa using e⟩

theorem mkdir_made {p : Loc} {n : Nat} {fs0 : Fs} (hp : Plain p) (h0 : n ≠ 0) (hn : n < p.length)
    (hm : Made p fs0 fs) (hk : fs.mkdir (p.take n) = .ok fs') : Made p fs0 fs' := by
  obtain ⟨m0, m1, m2⟩ := hm
  obtain ⟨q, s, e⟩ := take_split h0 hn
  have hpl : Plain (q ++ [s]) := by
    rw [← e]; intro hx; exact hp (List.mem_of_mem_take hx)
  rw [e, Fs.mkdir_plain m1 hpl] at hk
  split at hk
  · rename_i hd
    split at hk
    · simp at hk
    · rename_i hnone
      simp only [Outcome.ok.injEq] at hk
      subst hk
      refine ⟨m0, m1.put_dir hd, fun l => ?_⟩
      rw [Fs.get_put]
      by_cases el : l = q ++ [s]
      · rw [if_pos el]
        have hpre : l <+: p := by rw [el, ← e]; exact List.take_prefix _ _
        have hne : l ≠ p := by
          intro e2
          have := congrArg List.length (e.symm ▸ el.symm.trans e2 : p.take n = p)
          simp at this
          omega
        rcases m2 l with g | ⟨_, _, g, _⟩
        · rw [el, hnone] at g
          exact .inr ⟨hpre, hne, by rw [el]; exact g.symm, rfl⟩
        · exact .inr ⟨hpre, hne, g, rfl⟩
      · rw [if_neg el]; exact m2 l
  · split at hk
    · simp at hk
    · simp at hk

theorem openCreate_opened {p l : Loc} {fs0 : Fs} (hp : Plain p) (hm : Made p fs0 fs)
    (ho : Fs.openCreate p fs = .ok (l, fs')) : l = p ∧ ∃ b, Opened p fs0 fs' b := by
  obtain ⟨m0, m1, m2⟩ := hm
  rcases List.eq_nil_or_concat p with e | ⟨q, s, e⟩
  · subst e
    simp [Fs.openCreate, Fs.locate, Fs.walk, m1.root] at ho
  · have e : p = q ++ [s] := by simpa using e
    obtain ⟨hl, hnd, _⟩ := openCreate_ok ho
    have hlp := Fs.locate_plain_ok hp hl
    subst hlp
    have hq : fs.get q = some .dir := by
      cases hg : fs.get q with
      | some nd =>
        cases nd with
        | dir => rfl
        | file b =>
          rcases Fs.locate_err m1 (e ▸ hp) (by rw [hg]; simp) with ⟨x, _⟩ | ⟨x, _⟩ <;> rw [← e, hl] at x <;> simp at x
      | none =>
        rcases Fs.locate_err m1 (e ▸ hp) (by rw [hg]; simp) with ⟨x, _⟩ | ⟨x, _⟩ <;> rw [← e, hl] at x <;> simp at x
    have hdir : ∀ x, x <+: l → x ≠ l → fs.get x = some .dir := by
      intro x hx hne
      rw [e] at hx
      rcases Fs.prefix_concat.mp hx with hx | hx
      · by_cases exq : x = q
        · rw [exq]; exact hq
        · exact m1.dir_of_prefix hx exq hq
      · exact absurd (hx.trans e.symm) hne
    have hwr : Writable fs0 l := by
      constructor
      · intro x hx hne b hb
        rcases m2 x with g | ⟨_, _, g, _⟩
        · rw [hdir x hx hne, hb] at g; simp at g
        · rw [g] at hb; simp at hb
      · intro hd
        rcases m2 l with g | ⟨_, g, _⟩
        · exact hnd (g.trans hd)
        · exact g rfl
    have hrest : ∀ x, x ≠ l → fs.get x = setSpec fs0 l [] x := by
      intro x hne
      unfold setSpec
      rw [if_neg hne]
      rcases m2 x with g | ⟨g1, _, g2, g3⟩
      · split
        · rename_i hc; exact hdir x hc.1 hne
        · exact g
      · rw [if_pos ⟨g1, g2⟩]; exact g3
    rw [e] at ho
    rw [openCreate_plain m1 (e ▸ hp) hq, ← e] at ho
    split at ho
    · rename_i b hb
      simp only [Outcome.ok.injEq, Prod.mk.injEq, true_and] at ho
      subst ho
      exact ⟨rfl, b, m0, m1, hb, hwr, hrest⟩
    · simp at ho
    · rename_i hnone
      simp only [Outcome.ok.injEq, Prod.mk.injEq, true_and] at ho
      subst ho
      refine ⟨rfl, [], m0, ?_, by rw [Fs.get_put, if_pos rfl], hwr, fun x hx => ?_⟩
      · rw [e]; exact m1.put_file hq (by rw [← e]; exact hnd)
      · rw [Fs.get_put, if_neg hx]; exact hrest x hx

theorem Opened.put {p : Loc} {fs0 : Fs} {b : Bytes} (ho : Opened p fs0 fs b) (b' : Bytes) :
    Opened p fs0 (fs.put p (.file b')) b' := by
  obtain ⟨o1, o2, o3, o4, o5⟩ := ho
  refine ⟨o1, ?_, by rw [Fs.get_put, if_pos rfl], o4, fun x hx => by rw [Fs.get_put, if_neg hx]; exact o5 x hx⟩
  rcases List.eq_nil_or_concat p with e | ⟨q, s, e⟩
  · subst e; rw [o2.root] at o3; simp at o3
  · have e : p = q ++ [s] := by simpa using e
    rw [e] at o3 ⊢
    exact o2.put_file (o2.parent _ _ _ o3) (by rw [o3]; simp)

/-- A step that does not fail keeps the invariant. -/
theorem FInv.next (hi : FInv h T fs pc) (hn : pc.next h [] fs = some (pc', fs')) : FInv h T fs' pc' := by
  cases pc with
  | prog p =>
    obtain ⟨a1, a2, a3, a4⟩ := hi
    cases p with
    | done r => simp [Pc.next] at hn
    | «exists» key k =>
      obtain ⟨t, ht, hs⟩ := getPath_loc a2.1
      simp only [Pc.next, ht, hs, Option.some.injEq, Prod.mk.injEq] at hn
      obtain ⟨rfl, rfl⟩ := hn
      refine ⟨a1, a2.2 _, a3.2 _, fun r fs1 hr => a4 r fs1 ?_⟩
      simp only [Prog.run]
      rw [storeExists_eq a1 a2.1, ← Fs.isFile_eq a1 a2.1]
      exact hr
    | get key k =>
      obtain ⟨t, ht, hs⟩ := getPath_loc a2.1
      simp only [Pc.next, ht, hs, Option.some.injEq, Prod.mk.injEq] at hn
      obtain ⟨rfl, rfl⟩ := hn
      rw [Fs.isFile_eq a1 a2.1]
      have hg : Good h T (k (.ok (fs.content (h.loc key)))) fs := by
        intro r fs1 hr
        refine a4 r fs1 ?_
        simp only [Prog.run]
        rw [storeGet_eq a1 a2.1]
        exact hr
      cases hb : fs.content (h.loc key) with
      | none => rw [hb] at hg; exact ⟨a1, a2.2 _, a3.2 _, hg⟩
      | some b => rw [hb] at hg; exact ⟨a1, a2.1, ⟨a3.1, a3.2, a2.2⟩, b, hb, hg⟩
    | set key v k =>
      obtain ⟨t, ht, hs⟩ := getPath_loc a2.1
      simp only [Pc.next, ht, hs, Option.some.injEq, Prod.mk.injEq] at hn
      obtain ⟨rfl, rfl⟩ := hn
      have hgs : GoodSet h T fs (h.loc key) v k := by
        refine ⟨a2.1, ⟨a3.1, a3.2, a2.2⟩, fun hw fs1 h1 => ?_⟩
        obtain ⟨f1, e1, w1, g1⟩ := (storeSet_spec v a1 a2.1).1 hw
        have : Good h T (k v.2) f1 := by
          intro r fs2 hr
          refine a4 r fs2 ?_
          simp only [Prog.run, e1]
          exact hr
        exact this.same (a2.2 _) (a3.2 _) ⟨w1, h1.1, fun l => by rw [g1, h1.2]⟩
      split
      · exact ⟨fs, .refl _ a1, hgs⟩
      · rename_i hne
        have hne : h.loc key ≠ [] := by
          intro e; exact hne (.inl (by rw [e]; rfl))
        have hlen := List.length_pos_iff.mpr hne
        exact ⟨by omega, fs, .refl _ a1, hgs⟩
    | erase key k =>
      obtain ⟨t, ht, hs⟩ := getPath_loc a2.1
      simp only [Pc.next, ht, hs, Option.some.injEq, Prod.mk.injEq] at hn
      obtain ⟨rfl, rfl⟩ := hn
      rw [pathExists_eq a1 a2.1]
      have hc : Cont h k := ⟨a3.1, a3.2, a2.2⟩
      cases hg : fs.get (h.loc key) with
      | none =>
        refine ⟨a1, a2.1, hc, hg, fun r fs1 hr => a4 r fs1 ?_⟩
        simp only [Prog.run]
        rw [storeErase_spec a1 a2.1, hg]
        exact hr
      | some nd =>
        refine ⟨a1, a2.1, hc, by rw [hg]; rfl, fun hcon fs1 hs1 => ?_⟩
        obtain ⟨b, hb⟩ := Option.isSome_iff_exists.mp hcon
        have hb := Fs.content_eq_some.mp hb
        have : Good h T (k (.ok true)) (fs.del (h.loc key)) := by
          intro r fs2 hr
          refine a4 r fs2 ?_
          simp only [Prog.run]
          rw [storeErase_spec a1 a2.1, hb]
          exact hr
        exact this.same (a2.2 _) (a3.2 _) hs1
  | getOpen l k =>
    obtain ⟨a1, a2, a3, b, a4, a5⟩ := hi
    have hg := Fs.content_eq_some.mp a4
    simp only [Pc.next, Fs.locate_of_get a1 a2 hg, hg, Option.isSome_some, if_true, Option.some.injEq,
      Prod.mk.injEq] at hn
    obtain ⟨rfl, rfl⟩ := hn
    exact ⟨a1, a2, a3, b, a4, a5⟩
  | getLock l k =>
    obtain ⟨a1, a2, a3, b, a4, a5⟩ := hi
    simp only [Pc.next, List.any_nil, Bool.false_eq_true, if_false, Option.some.injEq, Prod.mk.injEq] at hn
    obtain ⟨rfl, rfl⟩ := hn
    exact ⟨a1, a2, a3, b, a4, List.nil_prefix, a5⟩
  | getRead l acc k =>
    obtain ⟨a1, a2, a3, b, a4, a5, a6⟩ := hi
    have hg := Fs.content_eq_some.mp a4
    have hcon : Threads.content fs l = b := by simp [Threads.content, hg]
    simp only [Pc.next, hg, hcon] at hn
    have hle := a5.length_le
    have htake := List.prefix_iff_eq_take.mp a5
    by_cases hlt : acc.length < b.length
    · rw [List.getElem?_eq_getElem hlt] at hn
      simp only [Option.some.injEq, Prod.mk.injEq] at hn
      obtain ⟨rfl, rfl⟩ := hn
      refine ⟨a1, a2, a3, b, a4, ?_, a6⟩
      rw [List.prefix_iff_eq_take]
      rw [List.length_append, List.length_singleton, ← List.take_append_getElem hlt, ← htake]
    · rw [List.getElem?_eq_none (by omega)] at hn
      simp only [Option.some.injEq, Prod.mk.injEq] at hn
      obtain ⟨rfl, rfl⟩ := hn
      have : acc = b := a5.eq_of_length (by omega)
      subst this
      exact a3.prog a1 a6
  | mkdirDown p n v k =>
    obtain ⟨hlt, fs0, hm, hg⟩ := hi
    simp only [Pc.next] at hn
    by_cases h0 : n = 0
    · have hr : fs.isDir [] = true := by
        simp [Fs.isDir, Fs.node, Fs.locate, Fs.walk, hm.2.1.root]
      rw [if_pos h0, hr] at hn
      simp only [if_true, Option.some.injEq, Prod.mk.injEq] at hn
      obtain ⟨rfl, rfl⟩ := hn
      exact ⟨by omega, fs0, hm, hg⟩
    · rw [if_neg h0] at hn
      cases hk : fs.mkdir (p.take n) with
      | ok f1 =>
        rw [hk] at hn
        simp only [Option.some.injEq, Prod.mk.injEq] at hn
        obtain ⟨rfl, rfl⟩ := hn
        exact ⟨by omega, fs0, mkdir_made hg.1 h0 hlt hm hk, hg⟩
      | err e =>
        rw [hk] at hn
        simp only [Option.some.injEq, Prod.mk.injEq] at hn
        obtain ⟨rfl, rfl⟩ := hn
        split
        · exact ⟨by omega, fs0, hm, hg⟩
        · exact ⟨hlt, fs0, hm, hg⟩
      | panic => exact absurd hk (mkdir_ne_panic _ _)
  | mkdirDir p n e v k =>
    obtain ⟨hlt, fs0, hm, hg⟩ := hi
    simp only [Pc.next, Option.some.injEq, Prod.mk.injEq] at hn
    obtain ⟨rfl, rfl⟩ := hn
    split
    · exact ⟨by omega, fs0, hm, hg⟩
    · exact hg.2.1.err hm.2.1 _
  | mkdirUp p n v k =>
    obtain ⟨h0, fs0, hm, hg⟩ := hi
    simp only [Pc.next] at hn
    by_cases hl : p.length ≤ n
    · rw [if_pos hl] at hn
      simp only [Option.some.injEq, Prod.mk.injEq] at hn
      obtain ⟨rfl, rfl⟩ := hn
      exact ⟨fs0, hm, hg⟩
    · rw [if_neg hl] at hn
      cases hk : fs.mkdir (p.take n) with
      | ok f1 =>
        rw [hk] at hn
        simp only [Option.some.injEq, Prod.mk.injEq] at hn
        obtain ⟨rfl, rfl⟩ := hn
        exact ⟨by omega, fs0, mkdir_made hg.1 h0 (by omega) hm hk, hg⟩
      | err e =>
        rw [hk] at hn
        simp only [Option.some.injEq, Prod.mk.injEq] at hn
        obtain ⟨rfl, rfl⟩ := hn
        exact ⟨by omega, fs0, hm, hg⟩
      | panic => exact absurd hk (mkdir_ne_panic _ _)
  | setOpen p v k =>
    obtain ⟨fs0, hm, hg⟩ := hi
    simp only [Pc.next] at hn
    cases ho : Fs.openCreate p fs with
    | ok r =>
      obtain ⟨l, f1⟩ := r
      rw [ho] at hn
      simp only [Option.some.injEq, Prod.mk.injEq] at hn
      obtain ⟨rfl, rfl⟩ := hn
      obtain ⟨rfl, b, hop⟩ := openCreate_opened hg.1 hm ho
      exact ⟨fs0, b, hop, hg⟩
    | err e =>
      rw [ho] at hn
      simp only [Option.some.injEq, Prod.mk.injEq] at hn
      obtain ⟨rfl, rfl⟩ := hn
      exact hg.2.1.err hm.2.1 _
    | panic => exact absurd ho (openCreate_ne_panic _ _)
  | setLock p v k =>
    obtain ⟨fs0, b, ho, hg⟩ := hi
    simp only [Pc.next, List.any_nil, Bool.false_eq_true, if_false, Option.some.injEq, Prod.mk.injEq] at hn
    obtain ⟨rfl, rfl⟩ := hn
    exact ⟨fs0, b, ho, hg⟩
  | setTrunc p v k =>
    obtain ⟨fs0, b, ho, hg⟩ := hi
    simp only [Pc.next, Option.some.injEq, Prod.mk.injEq] at hn
    obtain ⟨rfl, rfl⟩ := hn
    exact ⟨fs0, ho.put _, Nat.zero_le _, hg⟩
  | setWrite p v n k =>
    obtain ⟨fs0, ho, hle, hg⟩ := hi
    have hcon : Threads.content fs p = v.1.take n := by simp [Threads.content, ho.2.2.1]
    simp only [Pc.next, hcon] at hn
    by_cases hlt : n < v.1.length
    · rw [List.getElem?_eq_getElem hlt] at hn
      simp only [Option.some.injEq, Prod.mk.injEq] at hn
      obtain ⟨rfl, rfl⟩ := hn
      refine ⟨fs0, ?_, hlt, hg⟩
      have e : (v.1.take n).take n ++ v.1[n] :: (v.1.take n).drop (n + 1) = v.1.take (n + 1) := by
        rw [List.take_take, Nat.min_self, List.drop_eq_nil_of_le (by simp; omega), List.take_append_getElem hlt]
      rw [e]
      exact ho.put _
    · rw [List.getElem?_eq_none (by omega)] at hn
      simp only [Option.some.injEq, Prod.mk.injEq] at hn
      obtain ⟨rfl, rfl⟩ := hn
      refine hg.2.1.prog ho.2.1 (hg.2.2 ho.2.2.2.1 _ ⟨ho.2.1, fun l => ?_⟩)
      by_cases e : l = p
      · rw [e, ho.2.2.1, List.take_of_length_le (by omega)]; simp [setSpec]
      · rw [ho.2.2.2.2 l e]; simp [setSpec, e]
  | eraOpen p k =>
    obtain ⟨a1, a2, a3, a4, a5⟩ := hi
    obtain ⟨nd, hnd⟩ := Option.isSome_iff_exists.mp a4
    simp only [Pc.next, Fs.locate_of_get a1 a2 hnd, a4, if_true, Option.some.injEq, Prod.mk.injEq] at hn
    obtain ⟨rfl, rfl⟩ := hn
    exact ⟨a1, a2, rfl, a3, a4, a5⟩
  | eraLock p l k =>
    obtain ⟨a1, a2, rfl, a3, a4, a5⟩ := hi
    simp only [Pc.next, List.any_nil, Bool.false_eq_true, if_false, Option.some.injEq, Prod.mk.injEq] at hn
    obtain ⟨rfl, rfl⟩ := hn
    exact ⟨a1, a2, rfl, a3, a4, a5⟩
  | eraUnlink p l k =>
    obtain ⟨a1, a2, rfl, a3, a4, a5⟩ := hi
    obtain ⟨nd, hnd⟩ := Option.isSome_iff_exists.mp a4
    simp only [Pc.next, Fs.locate_of_get a1 a2 hnd, hnd] at hn
    cases nd with
    | dir =>
      simp only [Option.some.injEq, Prod.mk.injEq] at hn
      obtain ⟨rfl, rfl⟩ := hn
      exact a3.err a1 _
    | file b =>
      simp only [Option.some.injEq, Prod.mk.injEq] at hn
      obtain ⟨rfl, rfl⟩ := hn
      exact ⟨a1.del_file hnd, a2, a3, by rw [Fs.get_del, if_pos rfl],
        a5 (by simp [Fs.content, hnd]) _ (.refl (a1.del_file hnd))⟩
  | eraFinal p k =>
    obtain ⟨a1, a2, a3, a4, a5⟩ := hi
    simp only [Pc.next, pathExists_eq a1 a2, a4, Option.some.injEq, Prod.mk.injEq] at hn
    obtain ⟨rfl, rfl⟩ := hn
    exact a3.prog a1 a5

theorem FInv.step {f : Option Fault} (hi : FInv h T fs pc) (hn : ∀ x, f = some x → Noticed x pc)
    (hs : pc.stepFaulty h fs f = some (pc', fs')) : FInv h T fs' pc' := by
  cases f with
  | none => exact hi.next hs
  | some x =>
    simp only [Pc.stepFaulty] at hs
    cases hf : pc.failed h x with
    | none => rw [hf] at hs; exact hi.next hs
    | some pc1 =>
      rw [hf] at hs
      simp only [Option.some.injEq, Prod.mk.injEq] at hs
      obtain ⟨rfl, rfl⟩ := hs
      exact hi.failed (hn x rfl) hf

theorem FInv.run {s : List (Option Fault)} (hi : FInv h T fs pc) (hn : AllNoticed h pc fs s)
    (hs : pc.runFaulty h fs s = some (pc', fs')) : FInv h T fs' pc' := by
  induction s generalizing pc fs with
  | nil =>
    simp only [Pc.runFaulty, Option.some.injEq, Prod.mk.injEq] at hs
    obtain ⟨rfl, rfl⟩ := hs
    exact hi
  | cons f s ih =>
    simp only [Pc.runFaulty] at hs
    cases hf : pc.stepFaulty h fs f with
    | none => rw [hf] at hs; simp at hs
    | some r =>
      obtain ⟨pc1, fs1⟩ := r
      rw [hf] at hs
      exact ih (hi.step hn.1 hf) (hn.2 _ hf) hs

end

end Zarr.Threads
