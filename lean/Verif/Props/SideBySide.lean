import Verif.Props.Beside
import Verif.Lemmas.Sessions
/-!
# Several hierarchies in one filesystem: C113
-/

namespace Zarr

open Spec

/-! ## Specification -/

/-- A program that uses a hierarchy: the machine and build it runs on, the handle of the hierarchy, the metadata
of the arrays, and the calls that it makes one after the other. -/
structure Spec.User where
  env : Env
  h : Hier
  md : List Str → ArrayMetadata
  calls : List WCall

/-- The results of the calls if nobody else does anything. -/
def Spec.User.alone (u : User) (fs : Fs) : List WResult := wResults u.env u.h u.md u.calls fs

/-- The filesystem after the calls if nobody else does anything. -/
def Spec.User.after (u : User) (fs : Fs) : Fs := wState u.env u.h u.md u.calls fs

/-- Two different base directories, neither of which lies in the `meta` or `data` directory of the other. -/
def Spec.BasesApart (b b' : Loc) : Prop :=
  b ≠ b' ∧ ∀ k, k = str!"meta" ∨ k = str!"data" → ¬ b ++ [k] <+: b' ∧ ¬ b' ++ [k] <+: b

/-- The programs use hierarchies that are apart, or they use the same one and no call of the other program is
about something that this one changes. -/
def Spec.User.Apart (u v : User) : Prop :=
  BasesApart (segs u.h.base) (segs v.h.base) ∨
  (u.h = v.h ∧ u.md = v.md ∧ ∀ c ∈ u.calls, ∀ c' ∈ v.calls, c.changes = true →
    ∀ a b, c.Touches u.md a → c'.Touches u.md b → ¬ a.Meets b)

/-- The calls, or results, of program `i` among those of all programs. -/
def Spec.ofUser {β : Type} (i : Nat) (xs : List (Nat × β)) : List β := (xs.filter fun x => decide (x.1 = i)).map (·.2)

/-- The results of calls that are made one after the other by several programs; `x.1` makes the call `x.2`. -/
def Spec.mixedResults (us : List User) : List (Nat × WCall) → Fs → List (Nat × WResult)
  | [], _ => []
  | x :: xs, fs =>
    match us[x.1]? with
    | some u => (x.1, (x.2.run u.env u.h u.md fs).1) :: mixedResults us xs (x.2.run u.env u.h u.md fs).2
    | none => mixedResults us xs fs

/-- What C93 asks of a program that uses a hierarchy. -/
structure Spec.User.Fine (u : User) (fs : Fs) : Prop where
  base : Plain (segs u.h.base)
  suffix : GoodSuffix u.h.entry
  dot : '.' ∉ stripDot u.h.entry.metadataKeySuffix
  sep : ∀ q, GoodSep (u.md q).separator
  calls : ∀ c ∈ u.calls, c.Fits u.h u.md ∧ c.Open u.h u.md fs

namespace Wide

/-- Thread `t`, whose handle is `hs t`, takes its next step (storage.rs and store/filesystem.rs, see
`Model/Walk.lean`); the locks of the files are those of all threads. -/
def Sys.advanceIn {α : Type} (hs : Nat → Option Hier) (s : Sys α) (t : Nat) : Option (Sys α) :=
  (hs t).bind fun h => s.advance h t

/-- Run a schedule of threads that have handles of their own. -/
def Sys.runIn {α : Type} (hs : Nat → Option Hier) (s : Sys α) : List Nat → Option (Sys α)
  | [] => some s
  | t :: ts => (s.advanceIn hs t).bind fun s' => s'.runIn hs ts

/-- The handles of some programs. -/
def handles (us : List User) (t : Nat) : Option Hier := (us[t]?).map (·.h)

/-- The programs as threads before anything happened. -/
def usersInitial (fs : Fs) (us : List User) : Sys (List WResult) :=
  .initial fs (us.map fun u => threadProg u.env u.h u.md u.calls)

/-! ## The places of two programs -/

/-- Locations below `meta` or `data` of bases that are apart are never one below the other. -/
theorem bases_apart {b b' x y : Loc} {k k' : Str} (ha : BasesApart b b') (hk : k = str!"meta" ∨ k = str!"data")
    (hk' : k' = str!"meta" ∨ k' = str!"data") : ¬ b ++ k :: x <+: b' ++ k' :: y := by
  intro hp
  have h1 : b <+: b' ++ k' :: y := (List.prefix_append _ _).trans hp
  have h2 : b ++ [k] <+: b' ++ k' :: y := by
    refine List.IsPrefix.trans ⟨x, ?_⟩ hp
    simp
  rcases List.prefix_or_prefix_of_prefix h1 (List.prefix_append b' _) with hb | hb
  · obtain ⟨d, rfl⟩ := hb
    cases d with
    | nil => exact ha.1 (by simp)
    | cons a d =>
      rw [List.append_assoc, List.prefix_append_right_inj, List.cons_append, List.cons_prefix_cons] at h2
      refine (ha.2 k hk).1 ?_
      rw [List.prefix_append_right_inj, List.cons_prefix_cons]
      exact ⟨h2.1, List.nil_prefix⟩
  · obtain ⟨d, rfl⟩ := hb
    cases d with
    | nil => exact ha.1 (by simp)
    | cons a d =>
      rw [List.prefix_append_right_inj, List.cons_prefix_cons] at h1
      refine (ha.2 k' hk').2 ?_
      rw [List.prefix_append_right_inj, List.cons_prefix_cons]
      exact ⟨h1.1.symm, List.nil_prefix⟩

theorem BasesApart.symm {b b' : Loc} (ha : BasesApart b b') : BasesApart b' b :=
  ⟨fun e => ha.1 e.symm, fun k hk => (ha.2 k hk).symm⟩

/-- The roots of a call are in the `meta` or the `data` directory of the hierarchy. -/
theorem rootKind_head {h : Hier} {md : List Str → ArrayMetadata} {c : WCall} {r : Loc}
    (hs : ∀ q, GoodSep (md q).separator) (hk : RootKind h md c r) :
    ∃ k x, (k = str!"meta" ∨ k = str!"data") ∧ r = segs h.base ++ k :: x := by
  have hdoc : ∀ kind, ∃ k x, (k = str!"meta" ∨ k = str!"data") ∧ docLoc h kind c.path = segs h.base ++ k :: x := by
    intro kind
    obtain ⟨x, y, h1, rfl⟩ := docLoc_head h kind c.path
    exact ⟨_, y, .inl rfl, h1⟩
  cases hk with
  | array _ ht => exact hdoc _
  | group _ ht => exact hdoc _
  | spot _ _ hl ht =>
    exact ⟨str!"meta", str!"root" :: segs c.path ++ [str!"/"], .inl rfl, by unfold implicitLoc; simp⟩
  | below _ _ ht => exact ⟨str!"meta", str!"root" :: segs c.path, .inl rfl, by unfold implicitLoc; simp⟩
  | data _ ht => exact ⟨str!"data", str!"root" :: segs c.path, .inr rfl, by unfold dataLoc; simp⟩
  | chunk pos _ _ ht =>
    rw [loc_chunkKey ((hs _).imp id (·.2))]
    exact ⟨str!"data", str!"root" :: segs c.path ++ chunkName (md (segs c.path)).separator pos, .inr rfl, by
      unfold chunkLoc dataLoc; simp⟩

theorem users_apart {u v : User} {fs : Fs} (hu : u.Fine fs) (hv : v.Fine fs) (ha : u.Apart v) :
    Apart (threadWrites u.h u.md u.calls) (threadRoots v.h v.md v.calls) := by
  intro w hw r hr
  obtain ⟨c, h1, h2⟩ := List.mem_flatMap.mp hw
  obtain ⟨h1, hch⟩ := List.mem_filter.mp h1
  obtain ⟨c', h3, h4⟩ := List.mem_flatMap.mp hr
  have k1 := rootKind (hu.calls c h1).1 h2
  have k2 := rootKind (hv.calls c' h3).1 h4
  rcases ha with ha | ⟨e1, e2, ha⟩
  · obtain ⟨k, x, hk, rfl⟩ := rootKind_head hu.sep k1
    obtain ⟨k', y, hk', rfl⟩ := rootKind_head hv.sep k2
    exact ⟨bases_apart ha hk hk', bases_apart (BasesApart.symm ha) hk' hk⟩
  · rw [← e1, ← e2] at k2
    exact roots_apart hu.sep k1 k2 hch (ha c h1 c' h3 hch)

/-! ## The invariant -/

/-- What a schedule leads to. -/
structure UInv (us : List User) (fs0 : Fs) (s : Sys (List WResult)) (ms : List Nat) : Prop where
  len : s.pcs.length = us.length
  mlen : ms.length = us.length
  wf : s.fs.WF
  named : s.fs.Named
  track : ∀ (i : Nat) (u : User) (pc : Pc (List WResult)) (m : Nat), us[i]? = some u → s.pcs[i]? = some pc →
    ms[i]? = some m → Track u.h fs0 s.fs (threadProg u.env u.h u.md u.calls) (threadRoots u.h u.md u.calls)
      (threadWrites u.h u.md u.calls) pc m
  frame : ∀ l, (∀ u ∈ us, ¬ Under (threadWrites u.h u.md u.calls) l) → s.fs.content l = fs0.content l

section
variable {us : List User} {fs0 : Fs}

theorem user_ne {u : User} {fs : Fs} (hu : u.Fine fs) : ∀ r ∈ threadRoots u.h u.md u.calls, r ≠ [] := by
  intro r hr
  obtain ⟨c, h1, h2⟩ := List.mem_flatMap.mp hr
  exact (rootKind (hu.calls c h1).1 h2).ne_nil

theorem UInv.init (hwf : fs0.WF) (hnm : fs0.Named) (hok : ∀ u ∈ us, u.Fine fs0) :
    ∃ ms, UInv us fs0 (usersInitial fs0 us) ms := by
  have hone : ∀ i, i < us.length → ∃ m, ∀ u, us[i]? = some u → Track u.h fs0 fs0 (threadProg u.env u.h u.md u.calls)
      (threadRoots u.h u.md u.calls) (threadWrites u.h u.md u.calls) (.prog (threadProg u.env u.h u.md u.calls)) m := by
    intro i hi
    have hF := hok us[i] (List.getElem_mem hi)
    have hkind : ∀ r ∈ threadRoots us[i].h us[i].md us[i].calls, ∃ c ∈ us[i].calls, RootKind us[i].h us[i].md c r ∧
        c.Open us[i].h us[i].md fs0 := by
      intro r hr
      obtain ⟨c, h1, h2⟩ := List.mem_flatMap.mp hr
      exact ⟨c, h1, rootKind (hF.calls c h1).1 h2, (hF.calls c h1).2⟩
    obtain ⟨N, hN⟩ := Track.init (P := threadProg us[i].env us[i].h us[i].md us[i].calls) (h := us[i].h) hwf hnm
      (user_ne hF)
      (by
        intro r hr
        obtain ⟨c, _, h2, _⟩ := hkind r hr
        exact h2.plain hF.base hF.sep) threadWrites_sub
      (by
        rintro l ⟨hu, r, hr, hl⟩ b
        obtain ⟨c, _, h2, h3⟩ := hkind r hr
        exact h2.open hF.sep h3 hl (fun e => hu ⟨r, hr, e ▸ List.prefix_rfl⟩) b)
      (uses_thread hF.base hF.suffix hF.dot hF.sep fun c hc => (hF.calls c hc).1)
    refine ⟨N, fun u hu => ?_⟩
    rw [List.getElem?_eq_getElem hi] at hu
    simp only [Option.some.injEq] at hu
    subst hu
    exact hN
  obtain ⟨ms, h1, h2⟩ := exists_list us.length hone
  refine ⟨ms, by simp [usersInitial, Sys.initial], h1, hwf, hnm, ?_, fun l _ => rfl⟩
  intro i u pc m hu hpc hm
  simp only [usersInitial, Sys.initial, List.map_map, List.getElem?_map, hu, Option.map_some, Function.comp_apply,
    Option.some.injEq] at hpc
  rw [← hpc]
  exact h2 i m hm u hu

theorem sum_set_lt : ∀ (xs : List Nat) (i : Nat) (hi : i < xs.length) (y : Nat), y < xs[i] → (xs.set i y).sum < xs.sum := by
  intro xs
  induction xs with
  | nil => intro i hi; simp at hi
  | cons x xs ih =>
    intro i hi y hy
    cases i with
    | zero => simp at hy ⊢; omega
    | succ i =>
      simp only [List.length_cons, Nat.add_lt_add_iff_right, List.getElem_cons_succ] at hi hy
      have := ih i hi y hy
      simp only [List.set_cons_succ, List.sum_cons]; omega

theorem UInv.step (hok : ∀ u ∈ us, u.Fine fs0)
    (hsep : ∀ (i j : Nat) u v, us[i]? = some u → us[j]? = some v → i ≠ j → u.Apart v)
    {s s' : Sys (List WResult)} {ms : List Nat} (I : UInv us fs0 s ms) {t : Nat}
    (hs : s.advanceIn (handles us) t = some s') : ∃ ms', UInv us fs0 s' ms' ∧ ms'.sum < ms.sum := by
  unfold Sys.advanceIn handles at hs
  rw [Option.bind_eq_some_iff] at hs
  obtain ⟨h, hh, hs⟩ := hs
  rw [Option.map_eq_some_iff] at hh
  obtain ⟨u, hu, rfl⟩ := hh
  unfold Sys.advance at hs
  rw [Option.bind_eq_some_iff] at hs
  obtain ⟨pc, hpc, hs⟩ := hs
  rw [Option.map_eq_some_iff] at hs
  obtain ⟨⟨pc1, fs1⟩, hnx, hs⟩ := hs
  simp only at hs
  have htl : t < s.pcs.length := by rw [List.getElem?_eq_some_iff] at hpc; exact hpc.1
  have ht : t < us.length := by rw [← I.len]; exact htl
  have htm : t < ms.length := by rw [I.mlen]; exact ht
  have hm : ms[t]? = some ms[t] := List.getElem?_eq_getElem htm
  have K := I.track t u pc _ hu hpc hm
  have hF := hok u (List.mem_of_getElem? hu)
  have hnil := next_nil hnx
  obtain ⟨m', hm', htr, hwf1, hnm1⟩ := K.step (user_ne hF) threadWrites_sub hnil
  obtain ⟨_, pc', fs', f2, d, c, R, _⟩ := K
  obtain ⟨heff, _⟩ := R.step (user_ne hF) threadWrites_sub hnil
  refine ⟨ms.set t m', ⟨?_, ?_, ?_, ?_, ?_, ?_⟩, sum_set_lt ms t htm m' hm'⟩
  · rw [← hs]; simp [I.len]
  · simp [I.mlen]
  · rw [← hs]; exact hwf1
  · rw [← hs]; exact hnm1
  · intro i v pci m hv hpci hmi
    rw [← hs] at hpci ⊢
    simp only at hpci ⊢
    by_cases hit : i = t
    · subst hit
      rw [List.getElem?_set_self htl] at hpci
      rw [List.getElem?_set_self htm] at hmi
      rw [hu] at hv
      simp only [Option.some.injEq] at hpci hmi hv
      rw [← hpci, ← hmi, ← hv]; exact htr
    · rw [List.getElem?_set_ne (Ne.symm hit)] at hpci hmi
      exact (I.track i v pci m hv hpci hmi).other threadWrites_sub
        (users_apart hF (hok v (List.mem_of_getElem? hv)) (hsep t i u v hu hv (Ne.symm hit))) heff hwf1 hnm1
  · intro l hl'
    rw [← hs, ← I.frame l hl']
    simp only
    have hnu := hl' u (List.mem_of_getElem? hu)
    unfold Fs.content
    cases heff with
    | same => rfl
    | write x n hx => rw [Fs.get_put, if_neg (by rintro rfl; exact hnu hx)]
    | del x hx => rw [Fs.get_del, if_neg (by rintro rfl; exact hnu hx)]
    | mkdir x hx hw =>
      rw [Fs.get_put]
      by_cases e : l = x
      · subst e; rw [if_pos rfl, hx]
      · rw [if_neg e]

theorem UInv.run (hok : ∀ u ∈ us, u.Fine fs0)
    (hsep : ∀ (i j : Nat) u v, us[i]? = some u → us[j]? = some v → i ≠ j → u.Apart v)
    {s s' : Sys (List WResult)} {ms : List Nat} (I : UInv us fs0 s ms) (ts : List Nat)
    (hs : s.runIn (handles us) ts = some s') : ∃ ms', UInv us fs0 s' ms' ∧ ms'.sum + ts.length ≤ ms.sum := by
  induction ts generalizing s ms with
  | nil =>
    simp only [Sys.runIn, Option.some.injEq] at hs
    rw [← hs]; exact ⟨ms, I, by simp⟩
  | cons t ts ih =>
    simp only [Sys.runIn, Option.bind_eq_some_iff] at hs
    obtain ⟨s1, h1, h2⟩ := hs
    obtain ⟨ms1, I1, hlt⟩ := I.step hok hsep h1
    obtain ⟨ms2, I2, hle⟩ := ih I1 h2
    exact ⟨ms2, I2, by simp only [List.length_cons]; omega⟩

theorem UInv.result {s : Sys (List WResult)} {ms : List Nat} (I : UInv us fs0 s ms) {i : Nat} {u : User}
    {r : Outcome (List WResult)} (hu : us[i]? = some u) (hr : s.result i = some r) :
    r = .ok (u.alone fs0) ∧ ∀ l, Under (threadRoots u.h u.md u.calls) l → s.fs.get l = (u.after fs0).get l := by
  have hi : i < us.length := by rw [List.getElem?_eq_some_iff] at hu; exact hu.1
  have hm : ms[i]? = some (ms[i]'(by rw [I.mlen]; exact hi)) := List.getElem?_eq_getElem (by rw [I.mlen]; exact hi)
  unfold Sys.result at hr
  split at hr
  · rename_i r' hpc
    simp only [Option.some.injEq] at hr
    subst hr
    have := (I.track i u _ _ hu hpc hm).result
    rw [run_thread] at this
    exact this
  · simp at hr

/-- Nobody waits for anybody. -/
theorem UInv.progress (hok : ∀ u ∈ us, u.Fine fs0)
    (hsep : ∀ (i j : Nat) u v, us[i]? = some u → us[j]? = some v → i ≠ j → u.Apart v)
    {s : Sys (List WResult)} {ms : List Nat} (I : UInv us fs0 s ms) {i : Nat} (hi : i < us.length)
    (hr : s.result i = none) : ∃ s', s.advanceIn (handles us) i = some s' := by
  have hil : i < s.pcs.length := by rw [I.len]; exact hi
  have hpc : s.pcs[i]? = some s.pcs[i] := List.getElem?_eq_getElem hil
  have hu : us[i]? = some us[i] := List.getElem?_eq_getElem hi
  have hm : ms[i]? = some (ms[i]'(by rw [I.mlen]; exact hi)) := List.getElem?_eq_getElem (by rw [I.mlen]; exact hi)
  have K := I.track i _ _ _ hu hpc hm
  cases hn : (s.pcs[i]).next us[i].h s.pcs s.fs with
  | some r => exact ⟨_, by unfold Sys.advanceIn handles Sys.advance; rw [hu, hpc]; simp [hn]; rfl⟩
  | none =>
    exfalso
    rcases next_none hn with ⟨r, hd⟩ | ⟨r, hd⟩ | ⟨l, x, hw, hany⟩
    · unfold Sys.result at hr
      rw [hpc, hd] at hr
      simp at hr
    · rcases K.progress with ⟨r', hd'⟩ | ⟨y, hy⟩
      · rw [hd] at hd'; cases hd'
      · rw [hd] at hy
        obtain ⟨hset, pc', fs', f2, d, c, R, _⟩ := K
        rw [hd] at R hset
        obtain ⟨_, ⟨_, ok, _⟩ | ⟨p, a, v, k, t, h0, _, _, _, _, _, _, _, _, hdig⟩⟩ := R
        · obtain ⟨P, hP', _⟩ := ok
          rw [hP'] at hset
          exact hset P rfl
        · simp only [Pc.base.injEq] at h0
          rw [← h0] at hdig
          cases hdig
    · rw [List.any_eq_true] at hany
      obtain ⟨t, ht, hhold⟩ := hany
      obtain ⟨q, hq, hqt⟩ := List.mem_filterMap.mp ht
      obtain ⟨j, hj, hqj⟩ := List.getElem_of_mem hq
      have hjp : j < us.length := by rw [← I.len]; exact hj
      have hqj' : s.pcs[j]? = some q := by rw [List.getElem?_eq_getElem hj, hqj]
      have huj : us[j]? = some us[j] := List.getElem?_eq_getElem hjp
      have hmj : ms[j]? = some (ms[j]'(by rw [I.mlen]; exact hjp)) := List.getElem?_eq_getElem (by rw [I.mlen]; exact hjp)
      obtain ⟨_, pcj, fsj, _, dj, _, Rj, _⟩ := I.track j _ _ _ huj hqj' hmj
      obtain ⟨_, pc', fs', f2, d, c, R, _⟩ := K
      have hlk := Rj.locks threadWrites_sub hqt (l := l)
      have hwt := R.waits hw
      have hFi := hok _ (List.getElem_mem hi)
      have hFj := hok _ (List.getElem_mem hjp)
      by_cases hij : i = j
      · subst hij
        rw [hpc] at hqj'
        simp only [Option.some.injEq] at hqj'
        rw [hqj'] at hw
        cases hw with
        | get l k =>
          simp only [Pc.locks, Option.some.injEq] at hqt
          rw [← hqt] at hhold; simp [Threads.Pc.exclusive] at hhold
        | set l v k =>
          simp only [Pc.locks, Option.some.injEq] at hqt
          rw [← hqt] at hhold; simp [Threads.Pc.holds, Threads.Pc.exclusive] at hhold
        | erase p l k =>
          simp only [Pc.locks, Option.some.injEq] at hqt
          rw [← hqt] at hhold; simp [Threads.Pc.holds, Threads.Pc.exclusive] at hhold
        | walk p q l items k => simp [Pc.locks] at hqt
      · cases x with
        | true =>
          simp only [if_true] at hhold hwt
          exact (users_apart hFi hFj (hsep i j _ _ hu huj hij)).not_under hwt (hlk.2 hhold)
        | false =>
          simp only [Bool.false_eq_true, if_false] at hhold hwt
          exact (users_apart hFj hFi (hsep j i _ _ huj hu (Ne.symm hij))).not_under (hlk.1 hhold) hwt

end

end Wide

open Wide in
/-- **C113.** Several programs use hierarchies in one filesystem at the same time, each making any calls one after
the other, with handles, machines and builds of their own; their system calls are interleaved in any way. Any two of
them use hierarchies with different base directories, neither in the `meta` or `data` directory of the other, or they
use the same hierarchy and make no call about something that the other one changes. Then every program gets the results
it gets alone; no program waits for another or runs forever; when a program has finished, the files and directories
that its calls are about are those that the calls leave alone; and no other file has changed. -/
theorem C113 (us : List User) (fs : Fs) (hwf : fs.WF) (hnm : fs.Named) (hok : ∀ u ∈ us, u.Fine fs)
    (hsep : ∀ (i j : Nat) u v, us[i]? = some u → us[j]? = some v → i ≠ j → u.Apart v) :
    ∃ N, ∀ ts s, (usersInitial fs us).runIn (handles us) ts = some s →
      ts.length ≤ N ∧ s.fs.WF ∧
      (∀ (i : Nat) u, us[i]? = some u → ∀ r, s.result i = some r → r = .ok (u.alone fs) ∧
        ∀ c ∈ u.calls, ∀ r l, c.Place u.h u.md r → r <+: l → s.fs.get l = (u.after fs).get l) ∧
      (∀ i, i < us.length → s.result i = none → ∃ s', s.advanceIn (handles us) i = some s') ∧
      ∀ l, (∀ u ∈ us, ∀ c ∈ u.calls, c.changes = true → ∀ r, c.Place u.h u.md r → ¬ r <+: l) →
        s.fs.content l = fs.content l := by
  obtain ⟨ms, I⟩ := UInv.init hwf hnm hok
  refine ⟨ms.sum, fun ts s hrun => ?_⟩
  obtain ⟨ms', I', hle⟩ := I.run hok hsep ts hrun
  refine ⟨by omega, I'.wf, ?_, fun i hi hr => I'.progress hok hsep hi hr, ?_⟩
  · intro i u hu r hr
    obtain ⟨h1, h2⟩ := I'.result hu hr
    have hF := hok u (List.mem_of_getElem? hu)
    exact ⟨h1, fun c hc r l hp hl => h2 l
      ⟨r, List.mem_flatMap.mpr ⟨c, hc, root_of_place hF.sep (hF.calls c hc).1 hp⟩, hl⟩⟩
  · intro l hl
    refine I'.frame l fun u hu => ?_
    rintro ⟨w, hw, hwl⟩
    obtain ⟨c, h1, h2⟩ := List.mem_flatMap.mp hw
    obtain ⟨h1, hch⟩ := List.mem_filter.mp h1
    have hF := hok u hu
    have hk := rootKind (hF.calls c h1).1 h2
    rcases place_of_root hF.sep hk with hp | ⟨hd, _, _⟩
    · exact hl u hu c h1 hch w hp hwl
    · cases c with
      | listNodes p => cases hd
      | call c =>
        cases c with
        | readBox p t b => cases hd
        | writeBox p t o a => cases hd
        | call c => cases c <;> simp [WCall.looksAtDir] at hd <;> cases hch


/-! ## Calls one after the other -/

namespace Wide

theorem uses_one {env : Env} {h : Hier} {md : List Str → ArrayMetadata} {cs : List WCall} (hb : Plain (segs h.base))
    (hsfx : GoodSuffix h.entry) (hdot : '.' ∉ stripDot h.entry.metadataKeySuffix)
    (hs : ∀ q, GoodSep (md q).separator) {c : WCall} (hok : c.Fits h md) (hc : c ∈ cs) :
    (threadProg env h md [c]).Uses h (Above (threadRoots h md cs)) (Under (threadRoots h md cs))
      (Under (threadWrites h md cs)) := by
  refine uses_bind (uses_call hb hsfx hdot hs hok ?_ ?_ ?_ fun l hl => hl.mono threadWrites_sub)
    fun _ => uses_bind (p := threadProg env h md []) (by trivial) fun _ => trivial
  · exact fun r hr => ⟨r, List.mem_flatMap.mpr ⟨c, hc, hr⟩, List.prefix_rfl⟩
  · intro p hp
    by_cases hu : Under (threadRoots h md cs) (implicitLoc h p)
    · exact .inl hu
    · exact .inr ⟨hu, _, List.mem_flatMap.mpr ⟨c, hc, hp⟩, List.prefix_append _ _⟩
  · exact fun hch r hr => ⟨r, List.mem_flatMap.mpr ⟨c, List.mem_filter.mpr ⟨hc, hch⟩, hr⟩, List.prefix_rfl⟩

theorem mixed_results {us : List User} {fs0 : Fs} (hok : ∀ u ∈ us, u.Fine fs0)
    (hsep : ∀ (i j : Nat) u v, us[i]? = some u → us[j]? = some v → i ≠ j → u.Apart v) (xs : List (Nat × WCall)) :
    ∀ (fs : Fs) (F : Nat → Fs), (∀ (i : Nat) u, us[i]? = some u → Alike (threadRoots u.h u.md u.calls) fs (F i) ∧
      ∀ c ∈ ofUser i xs, c ∈ u.calls) →
    ∀ (i : Nat) u, us[i]? = some u → ofUser i (mixedResults us xs fs) = wResults u.env u.h u.md (ofUser i xs) (F i) := by
  induction xs with
  | nil => intro fs F _ i u _; rfl
  | cons x xs ih =>
    obtain ⟨t, c⟩ := x
    intro fs F hI i u hu
    cases hv : us[t]? with
    | none =>
      have hne : t ≠ i := by rintro rfl; rw [hu] at hv; cases hv
      have e : ofUser i ((t, c) :: xs) = ofUser i xs := by simp [ofUser, hne]
      have e2 : mixedResults us ((t, c) :: xs) fs = mixedResults us xs fs := by simp only [mixedResults, hv]
      rw [e, e2]
      refine ih fs F (fun j w hw => ⟨(hI j w hw).1, fun c' hc' => (hI j w hw).2 c' ?_⟩) i u hu
      have hj : t ≠ j := by rintro rfl; rw [hw] at hv; cases hv
      simpa [ofUser, hj] using hc'
    | some v =>
      have hF := hok v (List.mem_of_getElem? hv)
      have hcv : c ∈ v.calls := (hI t v hv).2 c (by simp [ofUser])
      have hus := uses_one (env := v.env) hF.base hF.suffix hF.dot hF.sep (hF.calls c hcv).1 hcv
      have hA := (hI t v hv).1
      obtain ⟨r1, r2⟩ := Alike.run (user_ne hF) threadWrites_sub hA hus
      obtain ⟨r3, _⟩ := run_elsewhere (user_ne hF) threadWrites_sub hA hus
      simp only [run_thread] at r1 r2 r3
      have e1 : (c.run v.env v.h v.md fs).1 = (c.run v.env v.h v.md (F t)).1 := by
        have := Outcome.ok.inj r1
        exact (List.cons.inj this).1
      have e2 : mixedResults us ((t, c) :: xs) fs =
          (t, (c.run v.env v.h v.md fs).1) :: mixedResults us xs (c.run v.env v.h v.md fs).2 := by
        simp only [mixedResults, hv]
      have hnext : ∀ (j : Nat) w, us[j]? = some w →
          Alike (threadRoots w.h w.md w.calls) (c.run v.env v.h v.md fs).2
            (if j = t then (c.run v.env v.h v.md (F t)).2 else F j) ∧ ∀ c' ∈ ofUser j xs, c' ∈ w.calls := by
        intro j w hw
        refine ⟨?_, fun c' hc' => (hI j w hw).2 c' ?_⟩
        · by_cases hj : j = t
          · subst hj
            rw [hv] at hw
            cases hw
            rw [if_pos rfl]
            exact r2
          · rw [if_neg hj]
            obtain ⟨f, T1, T2⟩ := (hI j w hw).1
            exact ⟨f, r3 _ f (users_apart hF (hok w (List.mem_of_getElem? hw)) (hsep t j v w hv hw (Ne.symm hj))) T1, T2⟩
        · unfold ofUser at hc' ⊢
          rw [List.filter_cons]
          split
          · exact List.mem_cons_of_mem _ hc'
          · exact hc'
      have hr := ih _ (fun j => if j = t then (c.run v.env v.h v.md (F t)).2 else F j) hnext i u hu
      rw [e2]
      by_cases hi : i = t
      · subst hi
        rw [hv] at hu
        cases hu
        rw [if_pos rfl] at hr
        have e3 : ofUser i ((i, c) :: xs) = c :: ofUser i xs := by simp [ofUser]
        have e4 : ∀ (y : WResult) ys, ofUser i ((i, y) :: ys) = y :: ofUser i ys := by simp [ofUser]
        rw [e3, e4, wResults, hr, e1]
      · rw [if_neg hi] at hr
        have hi' : t ≠ i := Ne.symm hi
        have e3 : ofUser i ((t, c) :: xs) = ofUser i xs := by simp [ofUser, hi']
        have e4 : ∀ (y : WResult) ys, ofUser i ((t, y) :: ys) = ofUser i ys := by simp [ofUser, hi']
        rw [e3, e4, hr]

end Wide

open Wide in
/-- **C113, histories.** The programs of C113 make their calls one after the other, in any order: every program gets
the results it gets if the others make no calls. -/
theorem C113_history (us : List User) (fs : Fs) (hwf : fs.WF) (hnm : fs.Named) (hok : ∀ u ∈ us, u.Fine fs)
    (hsep : ∀ (i j : Nat) u v, us[i]? = some u → us[j]? = some v → i ≠ j → u.Apart v) (xs : List (Nat × WCall))
    (hxs : ∀ (i : Nat) u, us[i]? = some u → ofUser i xs = u.calls) (i : Nat) (u : User) (hu : us[i]? = some u) :
    ofUser i (mixedResults us xs fs) = u.alone fs := by
  have := mixed_results hok hsep xs fs (fun _ => fs) (fun j v hv => ?_) i u hu
  · rw [this, hxs i u hu]; rfl
  · refine ⟨?_, fun c hc => by rwa [hxs j v hv] at hc⟩
    have hF := hok v (List.mem_of_getElem? hv)
    obtain ⟨f, T⟩ := exists_twin (roots := threadRoots v.h v.md v.calls) hwf hnm
      (by
        intro r hr
        obtain ⟨c, h1, h2⟩ := List.mem_flatMap.mp hr
        exact (rootKind (hF.calls c h1).1 h2).plain hF.base hF.sep)
      (by
        rintro l ⟨hu, r, hr, hl⟩ b
        obtain ⟨c, h1, h2⟩ := List.mem_flatMap.mp hr
        exact (rootKind (hF.calls c h1).1 h2).open hF.sep (hF.calls c h1).2 hl
          (fun e => hu ⟨r, hr, e ▸ List.prefix_rfl⟩) b)
    exact ⟨f, T, T⟩

/-! ## A concrete case -/

namespace Wide

/-- A hierarchy in the base directory of the other, beside its `meta` and `data`. -/
def nestedHier : Hier := { Demo.hier with base := str!"/h/n" }

/-- A hierarchy elsewhere. -/
def otherHier : Hier := { Demo.hier with base := str!"/k" }

/-- In the hierarchy at `/h` one program removes the array and one lists the nodes of `/b`; in the hierarchies at
`/h/n` and `/k` programs write and read the same chunk of an array with the same name. -/
def demoUsers : List User :=
  [⟨Demo.envJ, Demo.hier, fun _ => Demo.arr, [.call (.call (.remove Demo.path)), .call (.call (.nodeExists Demo.path))]⟩,
   ⟨Demo.envJ, Demo.hier, fun _ => Demo.arr, [.listNodes str!"/b"]⟩,
   ⟨Demo.envJ, nestedHier, fun _ => Demo.arr,
     [.call (.call (.writeChunk Demo.path .u16 Demo.chunk)), .call (.call (.readChunk Demo.path .u16 [1]))]⟩,
   ⟨Demo.envJ, otherHier, fun _ => Demo.arr,
     [.call (.call (.writeChunk Demo.path .u16 Demo.chunk)), .call (.call (.readChunk Demo.path .u16 [1]))]⟩]

theorem demoUsers_fine : ∀ u ∈ demoUsers, u.Fine demoFs := by
  have hsep : ∀ q, GoodSep ((fun _ : List Str => Demo.arr) q).separator := fun _ => .inl rfl
  have hp : ∀ {h : Hier} {p : Str}, (openAt demoFs (implicitLoc h p) && openAt demoFs (dataLoc h p)) = true →
      ∀ q, q <+: implicitLoc h p ∨ q <+: dataLoc h p → ∀ b, demoFs.get q ≠ some (.file b) := by
    intro h p ho q hq b
    rw [Bool.and_eq_true] at ho
    exact hq.elim (fun hq => openAt_spec ho.1 hq b) fun hq => openAt_spec ho.2 hq b
  have hc : ∀ {h : Hier}, openAt demoFs (chunkLoc h Demo.path str!"/" [1]) = true →
      ∀ q, q <+: chunkLoc h Demo.path str!"/" [1] → ∀ b, demoFs.get q ≠ some (.file b) :=
    fun ho q hq b => openAt_spec ho hq b
  have hd : OrdinaryPath Demo.hier Demo.path := Demo.ordinaryPath (by decide)
  have hb : OrdinaryPath Demo.hier str!"/b" := Demo.ordinaryPath (by decide)
  have hn : OrdinaryPath nestedHier Demo.path := fun s hs => ⟨(hd s hs).1, (hd s hs).2, (hd s hs).3, (hd s hs).4⟩
  have hk : OrdinaryPath otherHier Demo.path := fun s hs => ⟨(hd s hs).1, (hd s hs).2, (hd s hs).3, (hd s hs).4⟩
  have hchunk : ∀ {h : Hier}, OrdinaryPath h Demo.path →
      (openAt demoFs (implicitLoc h Demo.path) && openAt demoFs (dataLoc h Demo.path)) = true →
      openAt demoFs (chunkLoc h Demo.path str!"/" [1]) = true →
      ∀ c ∈ [WCall.call (.call (.writeChunk Demo.path .u16 Demo.chunk)), .call (.call (.readChunk Demo.path .u16 [1]))],
        c.Fits h (fun _ => Demo.arr) ∧ c.Open h (fun _ => Demo.arr) demoFs := by
    intro h ho h1 h2 c hm
    simp only [List.mem_cons, List.not_mem_nil, or_false] at hm
    rcases hm with rfl | rfl
    · refine ⟨⟨ho, rfl⟩, hp h1, fun pos ht => ?_⟩
      simp [WCall.Touches] at ht; obtain ⟨_, rfl⟩ := ht; exact fun q hq _ b => hc h2 q hq b
    · refine ⟨⟨ho, rfl⟩, hp h1, fun pos ht => ?_⟩
      simp [WCall.Touches] at ht; obtain ⟨_, rfl⟩ := ht; exact fun q hq _ b => hc h2 q hq b
  simp only [demoUsers, List.forall_mem_cons, List.not_mem_nil, false_imp_iff, implies_true, and_true]
  refine ⟨⟨by decide, by unfold GoodSuffix; decide, by decide, hsep, ?_⟩, ⟨by decide, by unfold GoodSuffix; decide, by decide, hsep, ?_⟩,
    ⟨by decide, by unfold GoodSuffix; decide, by decide, hsep, hchunk hn (by decide +kernel) (by decide +kernel)⟩,
    ⟨by decide, by unfold GoodSuffix; decide, by decide, hsep, hchunk hk (by decide +kernel) (by decide +kernel)⟩⟩
  · intro c hm
    simp only [List.mem_cons, List.not_mem_nil, or_false] at hm
    rcases hm with rfl | rfl
    · exact ⟨hd, hp (by decide +kernel), fun pos ht => by simp [WCall.Touches] at ht⟩
    · exact ⟨hd, hp (by decide +kernel), fun pos ht => by simp [WCall.Touches] at ht⟩
  · intro c hm
    simp only [List.mem_cons, List.not_mem_nil, or_false] at hm
    subst hm
    exact ⟨hb, hp (by decide +kernel), fun pos ht => by simp [WCall.Touches] at ht⟩

theorem demoUsers_apart : ∀ (i j : Nat) u v, demoUsers[i]? = some u → demoUsers[j]? = some v → i ≠ j → u.Apart v := by
  intro i j u v hi hj hij
  have hi' : i < 4 := (List.getElem?_eq_some_iff.mp hi).1
  have hj' : j < 4 := (List.getElem?_eq_some_iff.mp hj).1
  have hbase : ∀ h h' : Hier, (decide (segs h.base ≠ segs h'.base) && decide (¬ segs h.base ++ [str!"meta"] <+: segs h'.base) &&
      decide (¬ segs h'.base ++ [str!"meta"] <+: segs h.base) && decide (¬ segs h.base ++ [str!"data"] <+: segs h'.base) &&
      decide (¬ segs h'.base ++ [str!"data"] <+: segs h.base)) = true → BasesApart (segs h.base) (segs h'.base) := by
    intro h h' hx
    simp only [Bool.and_eq_true, decide_eq_true_eq] at hx
    obtain ⟨⟨⟨⟨h1, h2⟩, h3⟩, h4⟩, h5⟩ := hx
    refine ⟨h1, ?_⟩
    rintro k (rfl | rfl)
    · exact ⟨h2, h3⟩
    · exact ⟨h4, h5⟩
  have : ∀ k < 4, k = 0 ∨ k = 1 ∨ k = 2 ∨ k = 3 := by omega
  rcases this i hi' with rfl | rfl | rfl | rfl <;> rcases this j hj' with rfl | rfl | rfl | rfl <;>
    cases hi <;> cases hj <;>
    first
    | exact absurd rfl hij
    | exact .inl (hbase _ _ (by decide +kernel))
    | skip
  · refine .inr ⟨rfl, rfl, fun c hc c' hc' hch a b ha hb => ?_⟩
    simp at hc hc'
    subst hc'
    rcases hc with rfl | rfl
    · simp [WCall.Touches] at ha hb
      rcases ha with rfl | rfl <;> subst hb <;> simp [Area.Meets] <;> try decide
    · cases hch
  · refine .inr ⟨rfl, rfl, fun c hc c' hc' hch a b ha hb => ?_⟩
    simp at hc
    subst hc
    cases hch

/-- They meet the hypotheses of C113, and these are their results, whatever the schedule. -/
example : ∃ N, ∀ ts s, (usersInitial demoFs demoUsers).runIn (handles demoUsers) ts = some s → ts.length ≤ N ∧
    (∀ r, s.result 0 = some r → r = .ok [.plain (.plain (.unit (.ok ()))), .plain (.plain (.bool (.ok false)))]) ∧
    (∀ r, s.result 1 = some r → r = .ok [.names (.ok [str!"a"])]) ∧
    (∀ r, s.result 2 = some r ∨ s.result 3 = some r → r = .ok [.plain (.plain (.unit (.ok ()))),
      .plain (.plain (.data (.ok (some ⟨.u16, Demo.chunk.data⟩))))]) := by
  obtain ⟨N, hN⟩ := C113 demoUsers demoFs demoFs_wf.1 demoFs_wf.2 demoUsers_fine demoUsers_apart
  refine ⟨N, fun ts s hrun => ?_⟩
  obtain ⟨h1, _, h3, _⟩ := hN ts s hrun
  refine ⟨h1, fun r hr => (h3 0 _ rfl r hr).1, fun r hr => (h3 1 _ rfl r hr).1, fun r hr => ?_⟩
  exact hr.elim (fun hr => (h3 2 _ rfl r hr).1) fun hr => (h3 3 _ rfl r hr).1

/-- Their calls, one after the other. -/
def demoMixed : List (Nat × WCall) :=
  [(3, .call (.call (.writeChunk Demo.path .u16 Demo.chunk))), (0, .call (.call (.remove Demo.path))),
   (2, .call (.call (.writeChunk Demo.path .u16 Demo.chunk))), (1, .listNodes str!"/b"),
   (2, .call (.call (.readChunk Demo.path .u16 [1]))), (0, .call (.call (.nodeExists Demo.path))),
   (3, .call (.call (.readChunk Demo.path .u16 [1])))]

/-- They meet the hypotheses of C113_history. -/
example : ofUser 2 (mixedResults demoUsers demoMixed demoFs) = [.plain (.plain (.unit (.ok ()))),
    .plain (.plain (.data (.ok (some ⟨.u16, Demo.chunk.data⟩))))] :=
  C113_history demoUsers demoFs demoFs_wf.1 demoFs_wf.2 demoUsers_fine demoUsers_apart demoMixed (by
    intro i u hu
    have hi' : i < 4 := (List.getElem?_eq_some_iff.mp hu).1
    have : ∀ k < 4, k = 0 ∨ k = 1 ∨ k = 2 ∨ k = 3 := by omega
    rcases this i hi' with rfl | rfl | rfl | rfl <;> cases hu <;> rfl) 2 _ rfl

/-- A hierarchy in the `data` directory of the other one. -/
def insideHier : Hier := { Demo.hier with base := str!"/h/data/root/a" }

set_option maxRecDepth 20000 in
/-- The condition on the base directories is needed: `remove` of a node of the outer hierarchy removes the array of
the inner one. -/
theorem C113_needed :
    let fs1 := wState Demo.envJ insideHier (fun _ => Demo.arr) [.call (.call (.createArray Demo.path Demo.arr))] demoFs
    let fs2 := wState Demo.envJ Demo.hier (fun _ => Demo.arr) [.call (.call (.remove str!"/a"))] fs1
    (Zarr.arrayExists Demo.envJ insideHier Demo.path fs1).1 = .ok true ∧
      (Zarr.arrayExists Demo.envJ insideHier Demo.path fs2).1 = .ok false := by
  decide +kernel

end Wide

end Zarr
