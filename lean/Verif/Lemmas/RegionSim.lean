import Verif.Lemmas.RegionStep
/-!
# A thread among others and the same thread alone -/

namespace Zarr

namespace Wide

section
variable {α : Type}

/-- The thread makes directories above its roots, in order to write the file at `p`; the first `a` components
of `p` are below a root and the first `a - 1` are not. The number bounds the steps until this is done. -/
inductive Dig (fs : Fs) (p : List Str) (a : Nat) (v : Bytes × Outcome Unit)
    (k : Outcome Unit → Threads.Prog (Prog α)) : Threads.Pc (Prog α) → Nat → Prop
  | down (n : Nat) : n < a → Dig fs p a v k (.mkdirDown p n v k) (2 * a + 2 + n)
  | dir (n : Nat) (e : ErrKind) : 1 ≤ n → n < a → fs.get (p.take n) = some .dir →
      Dig fs p a v k (.mkdirDir p n e v k) (2 * (a - n))
  | up (n : Nat) : 1 ≤ n → n ≤ a → fs.get (p.take (n - 1)) = some .dir →
      Dig fs p a v k (.mkdirUp p n v k) (2 * (a - n) + 1)

/-- Where the thread is for which these directories exist. -/
def digTarget (p : List Str) (a : Nat) (v : Bytes × Outcome Unit) (k : Outcome Unit → Threads.Prog (Prog α)) :
    Threads.Pc (Prog α) := if a < p.length then .mkdirDown p a v k else .setOpen p v k

/-- How many steps the thread among others may take before the other takes one. -/
def slack : Pc α → Nat
  | .base (.mkdirDown p _ _ _) => 3 * p.length + 2
  | _ => 0

/-- How many steps the thread among others may take after it arrived here. -/
def room : Pc α → Nat
  | .base (.mkdirDown p _ _ _) => 3 * p.length + 2
  | .base (.setOpen p _ _) => 3 * p.length + 2
  | _ => 0

theorem slack_le_room (pc : Pc α) : slack pc ≤ room pc := by
  unfold slack room
  split <;> simp

/-- The thread `pc` among others in `fs` and the thread `pc'` alone in `fs'`. -/
structure Rel (h : Hier) (roots wroots : List Loc) (pc : Pc α) (fs : Fs) (pc' : Pc α) (fs' : Fs) (d : Nat) : Prop where
  twin : Twin roots fs fs'
  state : (pc = pc' ∧ Ok h roots wroots fs pc ∧ d = slack pc) ∨
    ∃ p a v k t, pc = .base t ∧ pc' = .base (digTarget p a v k) ∧ Plain p ∧ Under wroots p ∧ Ret h roots wroots k ∧
      1 ≤ a ∧ a ≤ p.length ∧ Under roots (p.take a) ∧ ¬ Under roots (p.take (a - 1)) ∧ Dig fs p a v k t d

/-- After a step of the thread among others: the other one takes a step too, or fewer such steps remain. -/
def After (h : Hier) (roots wroots : List Loc) (fs : Fs) (pc1 : Pc α) (fs1 : Fs) (pc' : Pc α) (fs' : Fs) (d : Nat) : Prop :=
  Eff wroots fs fs1 ∧ ((∃ d1, d1 < d ∧ Rel h roots wroots pc1 fs1 pc' fs' d1) ∨
    ∃ pc1' fs1' d1, pc'.next h [] fs' = some (pc1', fs1') ∧ Rel h roots wroots pc1 fs1 pc1' fs1' d1 ∧ d1 ≤ room pc1')

variable {h : Hier} {roots wroots : List Loc} {fs fs' fs1 : Fs}

theorem After.same {pc' pc1 : Pc α} {fs1' : Fs} {d : Nat} (hn : pc'.next h [] fs' = some (pc1, fs1'))
    (T : Twin roots fs1 fs1') (he : Eff wroots fs fs1) (ok : Ok h roots wroots fs1 pc1) :
    After h roots wroots fs pc1 fs1 pc' fs' d :=
  ⟨he, .inr ⟨pc1, fs1', slack pc1, hn, ⟨T, .inl ⟨rfl, ok, rfl⟩⟩, slack_le_room pc1⟩⟩

theorem After.of_same {t t1 : Threads.Pc (Prog α)} {d : Nat} (s : Same h roots wroots fs fs1 t t1 fs') {pc' : Pc α}
    (hpc : pc'.next h [] fs' = baseNext h [] fs' t) :
    After h roots wroots fs (.ofBase t1) fs1 pc' fs' d := by
  obtain ⟨⟨fs1', h1, h2⟩, h3, h4⟩ := s
  refine .same (pc' := pc') (fs1' := fs1') ?_ h2 h3 (ok_ofBase h4)
  rw [hpc]; simp [baseNext, h1]

theorem not_under_take {p : List Str} {a n : Nat} (hn : n < a) (ha : ¬ Under roots (p.take (a - 1))) :
    ¬ Under roots (p.take n) := fun hu => ha (hu.below (by
      rw [show p.take n = (p.take (a - 1)).take n by rw [List.take_take]; congr 1; omega]
      exact List.take_prefix _ _))

variable (hr : ∀ r ∈ roots, r ≠ []) (hsub : ∀ r ∈ wroots, r ∈ roots)
include hr hsub

/-- Making directories above the roots. -/
theorem after_dig (T : Twin roots fs fs') {p : List Str} {a : Nat} {v : Bytes × Outcome Unit}
    {k : Outcome Unit → Threads.Prog (Prog α)} {t t1 : Threads.Pc (Prog α)} {d : Nat} (hp : Plain p)
    (hw : Under wroots p) (hk : Ret h roots wroots k) (ha1 : 1 ≤ a) (ha : a ≤ p.length) (hu : Under roots (p.take a))
    (hnu : ¬ Under roots (p.take (a - 1))) (hdig : Dig fs p a v k t d) (hn : t.next h [] fs = some (t1, fs1)) :
    After h roots wroots fs (.ofBase t1) fs1 (.base (digTarget p a v k)) fs' d := by
  have hup := hw.mono hsub
  have habove : ∀ n, n < a → Above roots (p.take n) := fun n hn =>
    .of_prefix hup (List.take_prefix _ _) (not_under_take hn hnu)
  have hw2 : ∀ n, n < a → ∃ w ∈ wroots, p.take n <+: w := by
    intro n hna
    obtain ⟨w, hw1, hw2⟩ := hw
    rcases List.prefix_or_prefix_of_prefix hw2 (List.take_prefix n p) with h6 | h6
    · exact absurd ⟨w, hsub w hw1, h6⟩ (habove n hna).1
    · exact ⟨w, hw1, h6⟩
  have hpl : ∀ n, Plain (p.take n) := fun n => hp.of_prefix (List.take_prefix _ _)
  have hdl : ∀ n, 1 ≤ n → n ≤ p.length → p.take n ≠ [] ∧ (p.take n).dropLast = p.take (n - 1) := by
    intro n h1 h2
    refine ⟨fun e => ?_, ?_⟩
    · have : (p.take n).length = 0 := by rw [e]; rfl
      rw [List.length_take] at this
      omega
    · rw [List.dropLast_eq_take, List.take_take, List.length_take]
      congr 1
      omega
  -- the `mkdir` of a directory above the roots
  have hmk : ∀ n, 1 ≤ n → n < a →
      (fs.get (p.take (n - 1)) = some .dir ∧ fs.mkdir (p.take n) = .ok (fs.put (p.take n) .dir) ∧
        Twin roots (fs.put (p.take n) .dir) fs' ∧ Eff wroots fs (fs.put (p.take n) .dir)) ∨
      (fs.get (p.take (n - 1)) = some .dir ∧ fs.mkdir (p.take n) = .err .alreadyExists ∧ fs.get (p.take n) = some .dir) ∨
      (fs.get (p.take (n - 1)) ≠ some .dir ∧ fs.mkdir (p.take n) = .err .notFound) := by
    intro n h1 h2
    obtain ⟨hne, hdr⟩ := hdl n h1 (by omega)
    have e1 := List.dropLast_concat_getLast hne
    by_cases hd : fs.get (p.take (n - 1)) = some .dir
    · have hl : fs.locate (p.take n) = .ok (p.take n) := by
        have := Fs.locate_plain_dir T.wf (p := (p.take n).dropLast) (s := (p.take n).getLast hne)
          (by rw [e1]; exact hpl n) (by rw [hdr]; exact hd)
        rwa [e1] at this
      cases hg : fs.get (p.take n) with
      | none =>
        have w : (fs.put (p.take n) .dir).WF := by
          have := T.wf.put_dir (l := (p.take n).dropLast) (s := (p.take n).getLast hne) (by rw [hdr]; exact hd)
          rwa [e1] at this
        exact .inl ⟨hd, by simp [Fs.mkdir, hl, hg], T.dig (habove n h2) (hpl n) w, .mkdir _ hg (hw2 n h2)⟩
      | some nd =>
        cases nd with
        | file b => exact absurd hg (T.above _ (habove n h2) b)
        | dir => exact .inr (.inl ⟨hd, by simp [Fs.mkdir, hl, hg], rfl⟩)
    · have hd' : fs.get (p.take n).dropLast ≠ some .dir := by rw [hdr]; exact hd
      refine .inr (.inr ⟨hd, ?_⟩)
      have := Fs.locate_err T.wf (p := (p.take n).dropLast) (s := (p.take n).getLast hne) (by rw [e1]; exact hpl n) hd'
      rw [e1] at this
      rcases this with ⟨h3, _⟩ | ⟨_, h4⟩
      · simp [Fs.mkdir, h3]
      · refine absurd (fun l hl b => ?_) h4
        refine T.above l (.of_prefix (habove n h2 |>.2.choose_spec.1 |> fun hr1 => ⟨_, hr1, List.prefix_refl _⟩) ?_ ?_) b
        · exact (hl.trans (List.dropLast_prefix _)).trans (habove n h2).2.choose_spec.2
        · exact fun hul => (habove n h2).1 (hul.below (hl.trans (List.dropLast_prefix _)))
  have stay : ∀ {d1 : Nat} {t1 : Threads.Pc (Prog α)} {fs1 : Fs}, Twin roots fs1 fs' → Eff wroots fs fs1 →
      Dig fs1 p a v k t1 d1 → d1 < d → After h roots wroots fs (.ofBase t1) fs1 (.base (digTarget p a v k)) fs' d := by
    intro d1 t1 fs1 T1 he hd hlt
    refine ⟨he, .inl ⟨d1, hlt, T1, .inr ⟨p, a, v, k, t1, ?_, rfl, hp, hw, hk, ha1, ha, hu, hnu, hd⟩⟩⟩
    cases hd <;> rfl
  cases hdig with
  | down n hna =>
    by_cases hn0 : n = 0
    · subst hn0
      have hroot : fs.isDir [] = true := by
        rw [Fs.isDir_iff T.wf (by simp [Plain])]; exact T.wf.root
      simp only [Threads.Pc.next, if_true, hroot, Option.some.injEq, Prod.mk.injEq] at hn
      obtain ⟨rfl, rfl⟩ := hn
      exact stay T .same (.up 1 (Nat.le_refl _) ha1 (by simpa using T.wf.root)) (by omega)
    · simp only [Threads.Pc.next, if_neg hn0] at hn
      rcases hmk n (by omega) hna with ⟨h1, h2, h3, h4⟩ | ⟨h1, h2, h3⟩ | ⟨h1, h2⟩
      · rw [h2] at hn
        simp only [Option.some.injEq, Prod.mk.injEq] at hn
        obtain ⟨rfl, rfl⟩ := hn
        exact stay h3 h4 (.up (n + 1) (by omega) (by omega) (by rw [Fs.get_put]; simp)) (by omega)
      · rw [h2] at hn
        simp only [Option.some.injEq, Prod.mk.injEq] at hn
        obtain ⟨rfl, rfl⟩ := hn
        rw [if_neg (by simp)]
        exact stay T .same (.dir n _ (by omega) hna h3) (by omega)
      · rw [h2] at hn
        simp only [Option.some.injEq, Prod.mk.injEq, if_true] at hn
        obtain ⟨rfl, rfl⟩ := hn
        exact stay T .same (.down (n - 1) (by omega)) (by omega)
  | dir n e h1 hna h3 =>
    have hd : fs.isDir (p.take n) = true := by rw [Fs.isDir_iff T.wf (hpl n)]; exact h3
    simp only [Threads.Pc.next, hd, if_true, Option.some.injEq, Prod.mk.injEq] at hn
    obtain ⟨rfl, rfl⟩ := hn
    exact stay T .same (.up (n + 1) (by omega) (by omega) (by simpa using h3)) (by omega)
  | up n h1 hna h3 =>
    by_cases hlt : n < a
    · simp only [Threads.Pc.next, if_neg (show ¬ p.length ≤ n by omega)] at hn
      rcases hmk n h1 hlt with ⟨h4, h5, h6, h7⟩ | ⟨h4, h5, h6⟩ | ⟨h4, _⟩
      · rw [h5] at hn
        simp only [Option.some.injEq, Prod.mk.injEq] at hn
        obtain ⟨rfl, rfl⟩ := hn
        exact stay h6 h7 (.up (n + 1) (by omega) (by omega) (by rw [Fs.get_put]; simp)) (by omega)
      · rw [h5] at hn
        simp only [Option.some.injEq, Prod.mk.injEq] at hn
        obtain ⟨rfl, rfl⟩ := hn
        exact stay T .same (.dir n _ h1 hlt h6) (by omega)
      · exact absurd h3 h4
    · have hna : n = a := by omega
      subst hna
      by_cases hlen : n < p.length
      · have htgt : digTarget p n v k = .mkdirDown p n v k := by unfold digTarget; rw [if_pos hlen]
        rw [htgt]
        simp only [Threads.Pc.next, if_neg (show ¬ p.length ≤ n by omega)] at hn
        have hnear : Near roots fs (p.take n) := .inr (by rw [(hdl n h1 ha).2]; exact h3)
        rcases same_mkdir hr hsub (v := v) T hp hw h1 hlen hu hnear hk with ⟨a1, a2, a3, a4, a5⟩ | ⟨e, a1, a2, a3⟩
        · rw [a1] at hn
          simp only [Option.some.injEq, Prod.mk.injEq] at hn
          obtain ⟨rfl, rfl⟩ := hn
          exact .of_same (t := .mkdirDown p n v k)
            ⟨⟨_, by simp only [Threads.Pc.next, if_neg (show ¬ n = 0 by omega), a2], a3⟩, a4, a5⟩ rfl
        · have hnf : e ≠ .notFound := fun e' => a3 e' (by rw [(hdl n h1 ha).2]; exact h3)
          rw [a1] at hn
          simp only [Option.some.injEq, Prod.mk.injEq] at hn
          obtain ⟨rfl, rfl⟩ := hn
          refine .of_same (t := .mkdirDown p n v k) (t1 := .mkdirDir p n e v k)
            ⟨⟨fs', ?_, T⟩, .same, hp, hw, hlen, hu, hk⟩ rfl
          simp only [Threads.Pc.next, if_neg (show ¬ n = 0 by omega), a2, if_neg hnf]
      · have hpn : n = p.length := by omega
        have htgt : digTarget p n v k = .setOpen p v k := by unfold digTarget; rw [if_neg hlen]
        rw [htgt]
        simp only [Threads.Pc.next, if_pos (show p.length ≤ n by omega), Option.some.injEq, Prod.mk.injEq] at hn
        obtain ⟨rfl, rfl⟩ := hn
        have hok : BOk h roots wroots fs (.setOpen p v k) := by
          refine ⟨hp, hw, .inr ?_, hk⟩
          rw [List.dropLast_eq_take, ← hpn]; exact h3
        exact ⟨.same, .inl ⟨0, by omega, T, .inl ⟨rfl, hok, rfl⟩⟩⟩

/-- States of calls of `Model/Threads.lean`. -/
theorem after_base (T : Twin roots fs fs') {t t1 : Threads.Pc (Prog α)} (ok : BOk h roots wroots fs t)
    (hn : t.next h [] fs = some (t1, fs1)) :
    After h roots wroots fs (.ofBase t1) fs1 (.base t) fs' (slack (.base t)) := by
  by_cases hd : ∀ p n v k, t = .mkdirDown p n v k → Near roots fs (p.take n)
  · exact .of_same (same_base hr hsub T ok hd hn) rfl
  · -- the parent is above the roots and missing
    cases t with
    | mkdirDown p n v k =>
      have hnn : ¬ Near roots fs (p.take n) := fun hx => hd fun p' n' v' k' e => by
        simp only [Threads.Pc.mkdirDown.injEq] at e
        rw [← e.1, ← e.2.1]; exact hx
      obtain ⟨o1, o2, o3, o4, o5⟩ := ok
      have hn0 : n ≠ 0 := by
        rintro rfl
        exact ne_nil_of_under hr o4 (by simp)
      have hdl : (p.take n).dropLast = p.take (n - 1) := List.dropLast_take (by omega)
      have hnu : ¬ Under roots (p.take (n - 1)) := fun hx => hnn (.inl (by rw [hdl]; exact hx))
      have hnd : fs.get (p.take (n - 1)) ≠ some .dir := fun hx => hnn (.inr (by rw [hdl]; exact hx))
      have hnf : fs.mkdir (p.take n) = .err .notFound := by
        have hne : p.take n ≠ [] := ne_nil_of_under hr o4
        have e1 := List.dropLast_concat_getLast hne
        have := Fs.locate_err T.wf (p := (p.take n).dropLast) (s := (p.take n).getLast hne)
          (by rw [e1]; exact o1.of_prefix (List.take_prefix _ _)) (by rw [hdl]; exact hnd)
        rw [e1] at this
        rcases this with ⟨h3, _⟩ | ⟨_, h4⟩
        · simp [Fs.mkdir, h3]
        · refine absurd (fun l hl b => ?_) h4
          refine T.above l (.of_prefix o4 (hl.trans (List.dropLast_prefix _)) fun hul => hnu ?_) b
          rw [hdl] at hl
          exact hul.below hl
      simp only [Threads.Pc.next, if_neg hn0, hnf, if_true, Option.some.injEq, Prod.mk.injEq] at hn
      obtain ⟨rfl, rfl⟩ := hn
      refine ⟨.same, .inl ⟨2 * n + 2 + (n - 1), ?_, T, .inr ⟨p, n, v, k, _, rfl, ?_, o1, o2, o5, by omega, by omega, o4, hnu,
        .down (n - 1) (by omega)⟩⟩⟩
      · simp only [slack]; omega
      · unfold digTarget; rw [if_pos o3]
    | _ => exact absurd (fun _ _ _ _ e => by simp at e) hd

omit hr hsub in
theorem after_noop (T : Twin roots fs fs') {pc' pc1 : Pc α} {d : Nat} (hn : pc'.next h [] fs' = some (pc1, fs'))
    (ok : Ok h roots wroots fs pc1) : After h roots wroots fs pc1 fs pc' fs' d := .same hn T .same ok

/-- The first step of a call. -/
theorem after_prog (T : Twin roots fs fs') {P : Prog α} {pc1 : Pc α} (hu : P.Uses h (Above roots) (Under roots) (Under wroots))
    (hn : (Pc.prog P).next h [] fs = some (pc1, fs1)) :
    After h roots wroots fs pc1 fs1 (.prog P) fs' 0 := by
  cases P with
  | done r => simp [Pc.next] at hn
  | «exists» key k =>
    obtain ⟨h1, h2, h3⟩ := hu
    obtain ⟨t, ht, hs⟩ := getPath_loc h1
    have hi := h2.elim (T.isFile h1) (T.isFile_above h1)
    simp only [Pc.next, baseNext, List.filterMap_nil, Threads.Pc.next, ht, hs, Option.map_some, Option.some.injEq,
      Prod.mk.injEq, Pc.ofBase] at hn
    obtain ⟨rfl, rfl⟩ := hn
    exact after_noop T (by simp [Pc.next, baseNext, Threads.Pc.next, ht, hs, hi, Pc.ofBase]) (h3 _)
  | get key k =>
    obtain ⟨h1, h2, h3⟩ := hu
    obtain ⟨t, ht, hs⟩ := getPath_loc h1
    have hi := T.isFile h1 h2
    simp only [Pc.next, baseNext, List.filterMap_nil, Threads.Pc.next, ht, hs, Option.map_some, Option.some.injEq,
      Prod.mk.injEq] at hn
    obtain ⟨rfl, rfl⟩ := hn
    refine after_noop T (by simp [Pc.next, baseNext, Threads.Pc.next, ht, hs, hi]) ?_
    by_cases hf : fs.isFile (h.loc key)
    · rw [if_pos hf]
      obtain ⟨b, hb⟩ := (Fs.isFile_iff T.wf h1).mp hf
      exact ⟨h1, h2, by rw [hb]; simp, fun r => ⟨k r, rfl, h3 r⟩⟩
    · rw [if_neg hf]
      exact h3 _
  | set key v k =>
    obtain ⟨h1, h2, h3⟩ := hu
    obtain ⟨t, ht, hs⟩ := getPath_loc h1
    have hup := h2.mono hsub
    have hne := ne_nil_of_under hr hup
    have hemp : (h.loc key).isEmpty = false := by simpa using hne
    have hpd : Plain (h.loc key).dropLast := h1.of_prefix (List.dropLast_prefix _)
    simp only [Pc.next, baseNext, List.filterMap_nil, Threads.Pc.next, ht, hs, Option.map_some, Option.some.injEq,
      Prod.mk.injEq, hemp, Bool.false_eq_true, false_or] at hn
    obtain ⟨rfl, rfl⟩ := hn
    have hk : Ret h roots wroots (fun r => (.done (.ok (k r)) : Threads.Prog (Prog α))) := fun r => ⟨k r, rfl, h3 r⟩
    have hpe : fs.pathExists (h.loc key).dropLast = (fs.get (h.loc key).dropLast).isSome := by
      simp [Fs.pathExists, Fs.node_plain T.wf hpd]
    have hnx' : (Pc.prog (.set key v k)).next h [] fs' = some (.ofBase (if fs'.pathExists (h.loc key).dropLast then
        .setOpen (h.loc key) v (fun r => .done (.ok (k r)))
        else .mkdirDown (h.loc key) ((h.loc key).length - 1) v (fun r => .done (.ok (k r)))), fs') := by
      simp [Pc.next, baseNext, Threads.Pc.next, ht, hs, hne]
    have hlen : 0 < (h.loc key).length := List.length_pos_iff.mpr hne
    by_cases hud : Under roots (h.loc key).dropLast
    · have hpp := T.pathExists hpd hud
      rw [← hpp] at hnx'
      refine after_noop T hnx' (ok_ofBase ?_)
      by_cases hx : fs.pathExists (h.loc key).dropLast
      · rw [if_pos hx]; exact ⟨h1, h2, .inl hud, hk⟩
      · rw [if_neg hx]
        refine ⟨h1, h2, by omega, ?_, hk⟩
        rw [← List.dropLast_eq_take]; exact hud
    · have hab : Above roots (h.loc key).dropLast := .of_prefix hup (List.dropLast_prefix _) hud
      have hx' : fs'.pathExists (h.loc key).dropLast = true := by
        simp [Fs.pathExists, Fs.node_plain T.wf' hpd, T.above' _ hab]
      rw [if_pos hx'] at hnx'
      by_cases hx : fs.pathExists (h.loc key).dropLast
      · rw [if_pos hx]
        refine after_noop T hnx' (ok_ofBase ⟨h1, h2, .inr ?_, hk⟩)
        rw [hpe] at hx
        cases hg : fs.get (h.loc key).dropLast with
        | none => simp [hg] at hx
        | some nd =>
          cases nd with
          | dir => rfl
          | file b => exact absurd hg (T.above _ hab b)
      · rw [if_neg hx]
        refine ⟨.same, .inr ⟨_, fs', 2 * (h.loc key).length + 2 + ((h.loc key).length - 1), hnx', ⟨T, .inr ?_⟩, ?_⟩⟩
        · refine ⟨h.loc key, (h.loc key).length, v, _, _, rfl, ?_, h1, h2, hk, hlen, Nat.le_refl _, ?_, ?_, .down _ (by omega)⟩
          · unfold digTarget; rw [if_neg (by omega)]; rfl
          · rw [List.take_length]; exact hup
          · rw [← List.dropLast_eq_take]; exact hud
        · simp only [Pc.ofBase, room]; omega
  | erase key k =>
    obtain ⟨h1, h2, h3⟩ := hu
    obtain ⟨t, ht, hs⟩ := getPath_loc h1
    have hi := T.pathExists h1 (h2.mono hsub)
    simp only [Pc.next, baseNext, List.filterMap_nil, Threads.Pc.next, ht, hs, Option.map_some, Option.some.injEq,
      Prod.mk.injEq] at hn
    obtain ⟨rfl, rfl⟩ := hn
    refine after_noop T (by simp [Pc.next, baseNext, Threads.Pc.next, ht, hs, hi]) (ok_ofBase ?_)
    by_cases hf : fs.pathExists (h.loc key)
    · rw [if_pos hf]
      refine ⟨h1, h2, ?_, fun r => ⟨k r, rfl, h3 r⟩⟩
      intro hg
      simp [Fs.pathExists, Fs.node_plain T.wf h1, hg] at hf
    · rw [if_neg hf]
      exact ⟨h1, h2, fun r => ⟨k r, rfl, h3 r⟩⟩
  | erasePrefix key k =>
    obtain ⟨h1, h2, h3⟩ := hu
    obtain ⟨t, ht, hs⟩ := getPath_loc h1
    have hup := h2.mono hsub
    have hi := T.pathExists h1 hup
    simp only [Pc.next, ht, hs, Option.some.injEq, Prod.mk.injEq] at hn
    obtain ⟨rfl, rfl⟩ := hn
    refine after_noop T (by simp [Pc.next, ht, hs, hi]) ⟨⟨h1, h2, ?_, h3⟩, ?_⟩
    · intro it hit
      by_cases hf : fs.pathExists (h.loc key)
      · rw [if_pos hf] at hit
        simp only [List.mem_singleton] at hit
        subst hit
        exact ⟨h1, List.prefix_refl _⟩
      · rw [if_neg hf] at hit
        simp at hit
    · intro hne
      by_cases hf : fs.pathExists (h.loc key)
      · refine near_of_get T.wf (ne_nil_of_under hr hup) fun hg => ?_
        simp [Fs.pathExists, Fs.node_plain T.wf h1, hg] at hf
      · rw [if_neg hf] at hne
        exact absurd rfl hne
  | listDir key k =>
    obtain ⟨h1, h2, h3⟩ := hu
    obtain ⟨t, ht, hs⟩ := getPath_loc h1
    have hne := ne_nil_of_under hr h2
    have hg := T.get h2
    -- the result if the directory is not there
    have hnone : fs.get (h.loc key) = none → ∃ e, fs1 = fs ∧ pc1 = .prog (k (.err e)) ∧
        (Pc.prog (.listDir key k)).next h [] fs' = some (.prog (k (.err e)), fs') ∨
        ∃ e', fs1 = fs ∧ pc1 = .prog (k (.err e)) ∧
          (Pc.prog (.listDir key k)).next h [] fs' = some (.prog (k (.err e')), fs') ∧ e = e' := by
      intro hc
      rw [hc] at hg
      have hcase : ∀ f : Fs, Twin roots fs fs' → f.WF → f.get (h.loc key) = none →
          ((Pc.prog (.listDir key k)).next h [] f = some (.prog (k (.err .notFound)), f) ∧ f.dirable (h.loc key).dropLast) ∨
          ((Pc.prog (.listDir key k)).next h [] f = some (.prog (k (.err .notADirectory)), f) ∧
            ¬ f.dirable (h.loc key).dropLast) := by
        intro f _ hwf hcf
        have e1 := List.dropLast_concat_getLast hne
        by_cases hd : f.get (h.loc key).dropLast = some .dir
        · left
          have hl := Fs.locate_plain_dir hwf (p := (h.loc key).dropLast) (s := (h.loc key).getLast hne)
            (by rw [e1]; exact h1) hd
          rw [e1] at hl
          exact ⟨by simp [Pc.next, ht, hs, hl, hcf], Fs.dirable_of_dir hwf hd⟩
        · have hl := Fs.locate_err hwf (p := (h.loc key).dropLast) (s := (h.loc key).getLast hne)
            (by rw [e1]; exact h1) hd
          rw [e1] at hl
          rcases hl with ⟨hl, hdd⟩ | ⟨hl, hdd⟩
          · exact .inl ⟨by simp [Pc.next, ht, hs, hl], hdd⟩
          · exact .inr ⟨by simp [Pc.next, ht, hs, hl], hdd⟩
      have hdd : fs.dirable (h.loc key).dropLast ↔ fs'.dirable (h.loc key).dropLast := by
        constructor
        · intro hdd l hl b
          by_cases hul : Under roots l
          · rw [← T.get hul]; exact hdd l hl b
          · rw [T.above' l (.of_prefix h2 (hl.trans (List.dropLast_prefix _)) hul)]; simp
        · intro hdd l hl b
          by_cases hul : Under roots l
          · rw [T.get hul]; exact hdd l hl b
          · exact T.above l (.of_prefix h2 (hl.trans (List.dropLast_prefix _)) hul) b
      rcases hcase fs T T.wf hc with ⟨a1, a2⟩ | ⟨a1, a2⟩
      · rw [a1] at hn
        simp only [Option.some.injEq, Prod.mk.injEq] at hn
        rcases hcase fs' T T.wf' hg.symm with ⟨b1, _⟩ | ⟨_, b2⟩
        · exact ⟨.notFound, .inl ⟨hn.2.symm, hn.1.symm, b1⟩⟩
        · exact absurd (hdd.mp a2) b2
      · rw [a1] at hn
        simp only [Option.some.injEq, Prod.mk.injEq] at hn
        rcases hcase fs' T T.wf' hg.symm with ⟨_, b2⟩ | ⟨b1, _⟩
        · exact absurd (hdd.mpr b2) a2
        · exact ⟨.notADirectory, .inl ⟨hn.2.symm, hn.1.symm, b1⟩⟩
    cases hc : fs.get (h.loc key) with
    | none =>
      obtain ⟨e, ⟨rfl, rfl, hnx⟩ | ⟨e', rfl, rfl, hnx, rfl⟩⟩ := hnone hc
      · exact after_noop T hnx (h3 _)
      · exact after_noop T hnx (h3 _)
    | some nd =>
      rw [hc] at hg
      have hl := Fs.locate_of_get T.wf h1 hc
      have hl' := Fs.locate_of_get T.wf' h1 hg.symm
      cases nd with
      | file b =>
        simp only [Pc.next, ht, hs, hl, hc, Option.some.injEq, Prod.mk.injEq] at hn
        obtain ⟨rfl, rfl⟩ := hn
        exact after_noop T (by simp [Pc.next, ht, hs, hl', ← hg]) (h3 _)
      | dir =>
        simp only [Pc.next, ht, hs, hl, hc, Option.some.injEq, Prod.mk.injEq] at hn
        obtain ⟨rfl, rfl⟩ := hn
        refine after_noop T (by simp [Pc.next, ht, hs, hl', ← hg, T.children h2]) ⟨h1, h2, ?_, h3⟩
        intro n hnm
        obtain ⟨e, he, rfl⟩ := List.mem_map.mp hnm
        exact T.named _ _ ((Fs.mem_children T.wf (s := e.1) (n := e.2)).mp he)

/-- The steps of `erase_prefix` and `list_dir`. -/
theorem after_walk (T : Twin roots fs fs') {pc pc1 : Pc α} (ok : Ok h roots wroots fs pc)
    (hp : ∀ P, pc ≠ .prog P) (hb : ∀ t, pc ≠ .base t) (hn : pc.next h [] fs = some (pc1, fs1)) :
    After h roots wroots fs pc1 fs1 pc fs' 0 := by
  cases pc with
  | prog P => exact absurd rfl (hp P)
  | base t => exact absurd rfl (hb t)
  | walk p items k =>
    obtain ⟨⟨o1, o2, o3, o4⟩, o5⟩ := ok
    have hup := o2.mono hsub
    cases items with
    | nil =>
      simp only [Pc.next, Option.some.injEq, Prod.mk.injEq] at hn
      obtain ⟨rfl, rfl⟩ := hn
      exact after_noop T (by simp [Pc.next, T.pathExists o1 hup]) (o4 _)
    | cons it r =>
      have hnear := o5 (by simp)
      obtain ⟨q1, q2⟩ := o3 it (by simp)
      have o3' : ∀ it ∈ r, Plain it.path ∧ p <+: it.path := fun i hi => o3 i (by simp [hi])
      have hq := hup.below q2
      have hqne := ne_nil_of_under hr hq
      have hl := T.locate_eq q1 hqne hq (hnear.below hup q2)
      have hg := T.get hq
      have hwq := o2.below q2
      cases it with
      | stat q =>
        simp only [Item.path] at q1 q2 hq hl hg
        simp only [Pc.next] at hn
        cases hlq : fs.locate q with
        | err e =>
          rw [hlq] at hn hl
          simp only [Option.some.injEq, Prod.mk.injEq] at hn
          obtain ⟨rfl, rfl⟩ := hn
          exact after_noop T (by simp [Pc.next, ← hl]) (o4 _)
        | panic => exact absurd hlq (Fs.locate_ne_panic _ _)
        | ok l =>
          have := Fs.locate_plain_ok q1 hlq
          subst this
          rw [hlq] at hn hl
          simp only at hn
          cases hc : fs.get l with
          | none =>
            rw [hc] at hn hg
            simp only [Option.some.injEq, Prod.mk.injEq] at hn
            obtain ⟨rfl, rfl⟩ := hn
            exact after_noop T (by simp [Pc.next, ← hl, ← hg]) (o4 _)
          | some nd =>
            rw [hc] at hn hg
            cases nd with
            | dir =>
              simp only [Option.some.injEq, Prod.mk.injEq] at hn
              obtain ⟨rfl, rfl⟩ := hn
              refine after_noop T (by simp [Pc.next, ← hl, ← hg]) ⟨⟨o1, o2, ?_, o4⟩, fun _ => hnear⟩
              intro i hi
              rcases List.mem_cons.mp hi with rfl | hi
              · exact ⟨q1, q2⟩
              · exact o3' i hi
            | file b =>
              simp only [Option.some.injEq, Prod.mk.injEq] at hn
              obtain ⟨rfl, rfl⟩ := hn
              refine after_noop T (by simp [Pc.next, ← hl, ← hg]) ⟨⟨o1, o2, ?_, o4⟩, fun _ => hnear⟩
              intro i hi
              rcases List.mem_cons.mp hi with rfl | hi
              · exact ⟨q1, q2⟩
              · exact o3' i hi
      | «open» q =>
        simp only [Item.path] at q1 q2 hq hl hg
        simp only [Pc.next] at hn
        cases hlq : fs.locate q with
        | err e =>
          rw [hlq] at hn hl
          simp only [Option.some.injEq, Prod.mk.injEq] at hn
          obtain ⟨rfl, rfl⟩ := hn
          exact after_noop T (by simp [Pc.next, ← hl]) (o4 _)
        | panic => exact absurd hlq (Fs.locate_ne_panic _ _)
        | ok l =>
          have := Fs.locate_plain_ok q1 hlq
          subst this
          rw [hlq] at hn hl
          simp only at hn
          cases hc : fs.get l with
          | none =>
            rw [hc] at hn hg
            simp only [Option.some.injEq, Prod.mk.injEq] at hn
            obtain ⟨rfl, rfl⟩ := hn
            exact after_noop T (by simp [Pc.next, ← hl, ← hg]) (o4 _)
          | some nd =>
            rw [hc] at hn hg
            cases nd with
            | dir =>
              simp only [Option.some.injEq, Prod.mk.injEq] at hn
              obtain ⟨rfl, rfl⟩ := hn
              refine after_noop T (by simp [Pc.next, ← hl, ← hg, T.children hq]) ⟨⟨o1, o2, ?_, o4⟩, fun _ => hnear⟩
              intro i hi
              rcases List.mem_append.mp hi with hi | hi
              · obtain ⟨e, he, rfl⟩ := List.mem_map.mp hi
                have hpl := T.named _ _ ((Fs.mem_children T.wf (s := e.1) (n := e.2)).mp he)
                split
                · exact ⟨hpl, q2.trans (List.prefix_append _ _)⟩
                · exact ⟨hpl, q2.trans (List.prefix_append _ _)⟩
              · rcases List.mem_cons.mp hi with rfl | hi
                · exact ⟨q1, q2⟩
                · exact o3' i hi
            | file b =>
              simp only [Option.some.injEq, Prod.mk.injEq] at hn
              obtain ⟨rfl, rfl⟩ := hn
              exact after_noop T (by simp [Pc.next, ← hl, ← hg]) (o4 _)
      | file q =>
        simp only [Item.path] at q1 q2 hq hl hg
        simp only [Pc.next] at hn
        cases hlq : fs.locate q with
        | err e =>
          rw [hlq] at hn hl
          simp only [Option.some.injEq, Prod.mk.injEq] at hn
          obtain ⟨rfl, rfl⟩ := hn
          exact after_noop T (by simp [Pc.next, ← hl]) (o4 _)
        | panic => exact absurd hlq (Fs.locate_ne_panic _ _)
        | ok l =>
          have := Fs.locate_plain_ok q1 hlq
          subst this
          rw [hlq] at hn hl
          simp only [Option.some.injEq, Prod.mk.injEq] at hn
          obtain ⟨rfl, rfl⟩ := hn
          refine after_noop T (by simp [Pc.next, ← hl, ← hg]) ?_
          split
          · exact ⟨rfl, q1, q2, hnear, o1, o2, o3', o4⟩
          · exact o4 _
      | rmdir q =>
        simp only [Item.path] at q1 q2 hq hl hg hqne hwq
        simp only [Pc.next] at hn
        rcases T.rmdir q1 hqne hq (hnear.below hup q2) with ⟨a1, a2, a3⟩ | ⟨e, a1, a2⟩
        · rw [a1] at hn
          simp only [Option.some.injEq, Prod.mk.injEq] at hn
          obtain ⟨rfl, rfl⟩ := hn
          refine .same (by simp only [Pc.next, a2]) a3 (.del _ hwq) ⟨⟨o1, o2, o3', o4⟩, fun _ => ?_⟩
          refine hnear.imp id fun hd => ?_
          rw [Fs.get_del, if_neg, hd]
          intro e
          have hl1 := q2.length_le
          have := congrArg List.length e
          have hpne := List.length_pos_iff.mpr (ne_nil_of_under hr hup)
          simp only [List.length_dropLast] at this
          omega
        · rw [a1] at hn
          simp only [Option.some.injEq, Prod.mk.injEq] at hn
          obtain ⟨rfl, rfl⟩ := hn
          exact after_noop T (by simp only [Pc.next, a2]) (o4 _)
  | walkLock p q l items k =>
    simp only [Pc.next, List.filterMap_nil, List.any_nil, Bool.false_eq_true, if_false, Option.some.injEq,
      Prod.mk.injEq] at hn
    obtain ⟨rfl, rfl⟩ := hn
    exact after_noop T (by simp [Pc.next]) ok
  | walkUnlink p q l items k =>
    obtain ⟨o0, q1, q2, hnear, o1, o2, o3, o4⟩ := ok
    have hup := o2.mono hsub
    have hq := hup.below q2
    have hqne := ne_nil_of_under hr hq
    have hl := T.locate_eq q1 hqne hq (hnear.below hup q2)
    have hg := T.get hq
    have hwq := o2.below q2
    simp only [Pc.next] at hn
    cases hlq : fs.locate q with
    | err e =>
      rw [hlq] at hn hl
      simp only [Option.some.injEq, Prod.mk.injEq] at hn
      obtain ⟨rfl, rfl⟩ := hn
      exact after_noop T (by simp [Pc.next, ← hl]) (o4 _)
    | panic => exact absurd hlq (Fs.locate_ne_panic _ _)
    | ok l' =>
      have := Fs.locate_plain_ok q1 hlq
      subst this
      rw [hlq] at hn hl
      simp only at hn
      cases hc : fs.get l' with
      | none =>
        rw [hc] at hn hg
        simp only [Option.some.injEq, Prod.mk.injEq] at hn
        obtain ⟨rfl, rfl⟩ := hn
        exact after_noop T (by simp [Pc.next, ← hl, ← hg]) (o4 _)
      | some nd =>
        rw [hc] at hn
        have hg' := hg
        rw [hc] at hg'
        cases nd with
        | dir =>
          simp only [Option.some.injEq, Prod.mk.injEq] at hn
          obtain ⟨rfl, rfl⟩ := hn
          exact after_noop T (by simp [Pc.next, ← hl, ← hg']) (o4 _)
        | file b =>
          simp only [Option.some.injEq, Prod.mk.injEq] at hn
          obtain ⟨rfl, rfl⟩ := hn
          refine .same (by simp [Pc.next, ← hl, ← hg']) (T.del_both hq (T.wf.del_file hc) (T.wf'.del_file hg'.symm))
            (.del _ hwq) ⟨⟨o1, o2, o3, o4⟩, fun _ => ?_⟩
          refine hnear.imp id fun hd => ?_
          rw [Fs.get_del, if_neg, hd]
          intro e
          have hl1 := q2.length_le
          have := congrArg List.length e
          have hpne := List.length_pos_iff.mpr (ne_nil_of_under hr hup)
          simp only [List.length_dropLast] at this
          omega
  | listing pre p names keys prefixes k =>
    obtain ⟨o1, o2, o3, o4⟩ := ok
    cases names with
    | nil =>
      simp only [Pc.next, Option.some.injEq, Prod.mk.injEq] at hn
      obtain ⟨rfl, rfl⟩ := hn
      exact after_noop T (by simp [Pc.next]) (o4 _)
    | cons n ns =>
      have hnd := T.node (o3 n (by simp)) (o2.below (List.prefix_append p [n]))
      have o3' : ∀ n ∈ ns, Plain (p ++ [n]) := fun m hm => o3 m (by simp [hm])
      simp only [Pc.next] at hn
      cases hc : fs.node (p ++ [n]) with
      | none =>
        rw [hc] at hn hnd
        simp only [Option.some.injEq, Prod.mk.injEq] at hn
        obtain ⟨rfl, rfl⟩ := hn
        exact after_noop T (by simp [Pc.next, ← hnd]) ⟨o1, o2, o3', o4⟩
      | some nd =>
        rw [hc] at hn hnd
        cases nd with
        | dir =>
          simp only [Option.some.injEq, Prod.mk.injEq] at hn
          obtain ⟨rfl, rfl⟩ := hn
          exact after_noop T (by simp [Pc.next, ← hnd]) ⟨o1, o2, o3', o4⟩
        | file b =>
          simp only [Option.some.injEq, Prod.mk.injEq] at hn
          obtain ⟨rfl, rfl⟩ := hn
          exact after_noop T (by simp [Pc.next, ← hnd]) ⟨o1, o2, o3', o4⟩

/-- Every step of the thread among others is answered by the thread alone. -/
theorem Rel.step {pc pc1 pc' : Pc α} {d : Nat} (R : Rel h roots wroots pc fs pc' fs' d)
    (hn : pc.next h [] fs = some (pc1, fs1)) : After h roots wroots fs pc1 fs1 pc' fs' d := by
  obtain ⟨T, ⟨rfl, ok, rfl⟩ | ⟨p, a, v, k, t, rfl, rfl, h1, h2, h3, h4, h5, h6, h7, h8⟩⟩ := R
  · cases pc with
    | prog P => exact after_prog hr hsub T ok hn
    | base t =>
      simp only [Pc.next, baseNext, List.filterMap_nil, Option.map_eq_some_iff] at hn
      obtain ⟨⟨t1, f1⟩, hn, he⟩ := hn
      simp only [Prod.mk.injEq] at he
      obtain ⟨rfl, rfl⟩ := he
      exact after_base hr hsub T ok hn
    | walk p items k => exact after_walk hr hsub T ok (by simp) (by simp) hn
    | walkLock p q l items k => exact after_walk hr hsub T ok (by simp) (by simp) hn
    | walkUnlink p q l items k => exact after_walk hr hsub T ok (by simp) (by simp) hn
    | listing pre p names keys prefixes k => exact after_walk hr hsub T ok (by simp) (by simp) hn
  · simp only [Pc.next, baseNext, List.filterMap_nil, Option.map_eq_some_iff] at hn
    obtain ⟨⟨t1, f1⟩, hn, he⟩ := hn
    simp only [Prod.mk.injEq] at he
    obtain ⟨rfl, rfl⟩ := he
    exact after_dig hr hsub T h1 h2 h3 h4 h5 h6 h7 h8 hn

omit hr in
/-- A change by another thread. -/
theorem Rel.other {W : List Loc} {pc pc' : Pc α} {d : Nat} (R : Rel h roots wroots pc fs pc' fs' d)
    (ha : Apart W roots) (he : Eff W fs fs1) (hw : fs1.WF) (hn : fs1.Named) :
    Rel h roots wroots pc fs1 pc' fs' d := by
  obtain ⟨T, hs⟩ := R
  refine ⟨T.other ha he hw hn, ?_⟩
  rcases hs with ⟨h1, h2, h3⟩ | ⟨p, a, v, k, t, h0, h1, h2, h3, h4, h5, h6, h7, h8, h9⟩
  · exact .inl ⟨h1, h2.other hsub ha he, h3⟩
  · refine .inr ⟨p, a, v, k, t, h0, h1, h2, h3, h4, h5, h6, h7, h8, ?_⟩
    have hab : ∀ n, n < a → Above roots (p.take n) := fun n hn =>
      .of_prefix (h3.mono hsub) (List.take_prefix _ _) (not_under_take hn h8)
    have keep : ∀ n, n < a → fs.get (p.take n) = some .dir → fs1.get (p.take n) = some .dir := by
      intro n hna hd
      rcases he.get_above ha (hab n hna) with e | ⟨e, _⟩
      · rw [e, hd]
      · rw [e] at hd; simp at hd
    cases h9 with
    | down n hna => exact .down n hna
    | dir n e a1 a2 a3 => exact .dir n e a1 a2 (keep n a2 a3)
    | up n a1 a2 a3 => exact .up n a1 a2 (keep _ (by omega) a3)

end

end Wide

end Zarr
