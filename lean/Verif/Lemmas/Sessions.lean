import Verif.Lemmas.Once
import Verif.Model.Sessions
import Verif.Props.Beside
/-!
# Threads that are interrupted

What the threads have done at any moment, in terms of the calls that have returned and those that have not. -/

namespace Zarr

namespace Wide

section
variable {α : Type} {h : Hier}

/-! ## Programs that run one after the other -/

theorem runAll_append (ps qs : List (Prog α)) (fs : Fs) :
    runAll h (ps ++ qs) fs = ((runAll h ps fs).1 ++ (runAll h qs (runAll h ps fs).2).1, (runAll h qs (runAll h ps fs).2).2) := by
  induction ps generalizing fs with
  | nil => rfl
  | cons p ps ih => simp only [List.cons_append, runAll, ih]

theorem runAll_length (ps : List (Prog α)) (fs : Fs) : (runAll h ps fs).1.length = ps.length := by
  induction ps generalizing fs with
  | nil => rfl
  | cons p ps ih => simp only [runAll, List.length_cons, ih]

/-- The two filesystems are the same below the roots. -/
def Alike (R : List Loc) (fs fs2 : Fs) : Prop := ∃ f, Twin R fs f ∧ Twin R fs2 f

theorem Alike.get {R : List Loc} {fs fs2 : Fs} (ha : Alike R fs fs2) {l : Loc} (hl : Under R l) : fs.get l = fs2.get l := by
  obtain ⟨f, h1, h2⟩ := ha
  rw [h1.get hl, h2.get hl]

theorem Alike.content {R : List Loc} {fs fs2 : Fs} (ha : Alike R fs fs2) {l : Loc} (hl : Under R l) :
    fs.content l = fs2.content l := by
  unfold Fs.content
  rw [ha.get hl]

theorem Eff.content_eq {W : List Loc} {fs fs1 : Fs} (he : Eff W fs fs1) {l : Loc} (hl : ¬ Under W l) :
    fs1.content l = fs.content l := by
  unfold Fs.content
  cases he with
  | same => rfl
  | write x n hx => rw [Fs.get_put, if_neg (by rintro rfl; exact hl hx)]
  | del x hx => rw [Fs.get_del, if_neg (by rintro rfl; exact hl hx)]
  | mkdir x hx _ =>
    rw [Fs.get_put]
    by_cases e : l = x
    · rw [if_pos e, e, hx]
    · rw [if_neg e]

section
variable {R W : List Loc} {P : Prog α} {fs fs1 fs2 : Fs} {pc pc1 : Pc α} {m : Nat}

theorem not_under_nil (hne : ∀ r ∈ R, r ≠ []) (hsub : ∀ r ∈ W, r ∈ R) : ¬ Under W [] := by
  rintro ⟨w, hw, hw2⟩
  exact hne w (hsub w hw) (List.prefix_nil.mp hw2)

/-- A call begins in a filesystem that is like one in which the thread was alone. -/
theorem Track.start (hne : ∀ r ∈ R, r ≠ []) (hsub : ∀ r ∈ W, r ∈ R) (ha : Alike R fs fs2)
    (hu : P.Uses h (Above R) (Under R) (Under W)) : ∃ m, Track h fs2 fs P R W (.prog P) m := by
  obtain ⟨f, T1, T2⟩ := ha
  have R1 : Rel h R W (.prog P) fs (.prog P) f 0 := ⟨T1, .inl ⟨rfl, hu, rfl⟩⟩
  have R2 : Rel h R W (.prog P) fs2 (.prog P) f 0 := ⟨T2, .inl ⟨rfl, hu, rfl⟩⟩
  obtain ⟨f2, h1, h2⟩ := Rel.leads hne hsub (solo (not_under_nil hne hsub) P fs2 T2.wf T2.named hu) R2
  obtain ⟨c, hc⟩ := h1.costs
  exact ⟨0 + c, by intro Q; simp, .prog P, f, f2, 0, c, R1, h1, h2, hc, Nat.le_refl _⟩

theorem Track.eff (hne : ∀ r ∈ R, r ≠ []) (hsub : ∀ r ∈ W, r ∈ R) (K : Track h fs2 fs P R W pc m)
    (hn : pc.next h [] fs = some (pc1, fs1)) : Eff W fs fs1 := by
  obtain ⟨_, pc', fs', f2, d, c, R', _⟩ := K
  exact (R'.step hne hsub hn).1

/-- A call returns. -/
theorem Track.alike {r : Outcome α} (K : Track h fs2 fs P R W (.prog (.done r)) m) :
    r = (P.run h fs2).1 ∧ Alike R fs (P.run h fs2).2 := by
  obtain ⟨_, pc', fs', f2, d, c, R', hl, T2, _, _⟩ := K
  obtain ⟨T, ⟨rfl, _, _⟩ | ⟨p, a, v, k, t, h0, _⟩⟩ := R'
  · cases hl with
    | refl => exact ⟨rfl, _, T, T2⟩
    | step hn _ => simp [Pc.next] at hn
  · simp at h0

/-- A program does the same in two filesystems that are alike. -/
theorem Alike.run (hne : ∀ r ∈ R, r ≠ []) (hsub : ∀ r ∈ W, r ∈ R) (ha : Alike R fs fs2)
    (hu : P.Uses h (Above R) (Under R) (Under W)) :
    (P.run h fs).1 = (P.run h fs2).1 ∧ Alike R (P.run h fs).2 (P.run h fs2).2 := by
  obtain ⟨f, T1, T2⟩ := ha
  have hW := not_under_nil hne hsub
  have R1 : Rel h R W (.prog P) fs (.prog P) f 0 := ⟨T1, .inl ⟨rfl, hu, rfl⟩⟩
  have R2 : Rel h R W (.prog P) fs2 (.prog P) f 0 := ⟨T2, .inl ⟨rfl, hu, rfl⟩⟩
  obtain ⟨g1, h1, t1⟩ := Rel.leads hne hsub (solo hW P fs T1.wf T1.named hu) R1
  obtain ⟨g2, h2, t2⟩ := Rel.leads hne hsub (solo hW P fs2 T2.wf T2.named hu) R2
  obtain ⟨e1, e2⟩ := h2.finish_unique h1
  subst e2
  exact ⟨e1, _, t1, t2⟩

/-- A program leaves alone what is below the roots of others. -/
theorem run_elsewhere (hne : ∀ r ∈ R, r ≠ []) (hsub : ∀ r ∈ W, r ∈ R) (ha : Alike R fs fs2)
    (hu : P.Uses h (Above R) (Under R) (Under W)) :
    (∀ R' f', Apart W R' → Twin R' fs f' → Twin R' (P.run h fs).2 f') ∧
    (∀ l, ¬ Under W l → (P.run h fs).2.content l = fs.content l) := by
  obtain ⟨m, K⟩ := Track.start hne hsub ⟨ha.choose, ha.choose_spec.1, ha.choose_spec.1⟩ hu
  have hl := solo (not_under_nil hne hsub) P fs ha.choose_spec.1.wf ha.choose_spec.1.named hu
  have key : ∀ {pc : Pc α} {g : Fs} {pc2 : Pc α} {g2 : Fs}, Leads h pc g pc2 g2 → ∀ m, Track h fs g P R W pc m →
      (∀ R' f', Apart W R' → Twin R' g f' → Twin R' g2 f') ∧ ∀ l, ¬ Under W l → g2.content l = g.content l := by
    intro pc g pc2 g2 hl
    induction hl with
    | refl => exact fun _ _ => ⟨fun _ _ _ T => T, fun _ _ => rfl⟩
    | step hn _ ih =>
      intro m K
      have he := K.eff hne hsub hn
      obtain ⟨m1, _, K1, hw1, hn1⟩ := K.step hne hsub hn
      obtain ⟨i1, i2⟩ := ih m1 K1
      exact ⟨fun R' f' hap T => i1 R' f' hap (T.other hap he hw1 hn1),
        fun l hl => by rw [i2 l hl, he.content_eq hl]⟩
  exact key hl m K

end

/-! ## What a call that has not returned leaves -/

section
variable {R W : List Loc} {P : Prog α} {fs fs2 : Fs} {pc : Pc α} {m : Nat} {A : Loc → Prop}

/-- What will be in the end. -/
theorem Track.ends (hne : ∀ r ∈ R, r ≠ []) (hsub : ∀ r ∈ W, r ∈ R) (hwf : fs.WF) (hnm : fs.Named)
    (K : Track h fs2 fs P R W pc m) (hs : Shape h A fs pc) :
    (∀ l, Under R l → ¬ A l → ¬ Cur pc l → (P.run h fs2).2.content l = fs.content l) ∧
    (∀ l v, Under R l → Writing pc l v → (P.run h fs2).2.content l = some v) ∧
    (∀ l, Under R l → Walking pc l → fs.content l = none → (P.run h fs2).2.content l = none) := by
  induction m using Nat.strongRecOn generalizing fs pc A with
  | ind m ih =>
    rcases K.progress with ⟨r, rfl⟩ | ⟨⟨pc1, fs1⟩, hn⟩
    · refine ⟨fun l hl _ _ => (K.alike.2.content hl).symm, fun _ _ _ h => h.elim, fun _ _ h => h.elim⟩
    · obtain ⟨m1, hlt, K1, hw1, hn1⟩ := K.step hne hsub hn
      obtain ⟨B, S⟩ := stepped hnm hwf hs hn
      obtain ⟨i1, i2, i3⟩ := ih m1 hlt hw1 hn1 K1 S.shape
      refine ⟨fun l hl hA hc => ?_, fun l v hl hv => ?_, fun l hl hw he => ?_⟩
      · rw [i1 l hl (fun hB => hA (S.sub l hB)) fun hc1 => (S.cur l hc1).elim hc hA, S.rest l hc]
      · rcases S.write l v hv with h1 | ⟨h1, h2⟩
        · exact i2 l v hl h1
        · rw [i1 l hl (fun hB => hs.cur hv.cur (S.sub l hB)) h2, h1]
      · obtain ⟨h1, h2⟩ := S.walk l hw
        rcases h2 with h2 | h2
        · exact i3 l hl h2 (h1 he)
        · rw [i1 l hl (fun hB => hs.cur hw.cur (S.sub l hB)) h2, h1 he]

/-- The files below the roots, when the call has not returned. -/
theorem Track.torn (hne : ∀ r ∈ R, r ≠ []) (hsub : ∀ r ∈ W, r ∈ R) (hwf : fs.WF) (hnm : fs.Named)
    (K : Track h fs2 fs P R W pc m) (hs : Shape h A fs pc) {l : Loc} (hl : Under R l)
    (h1 : A l → fs.content l = fs2.content l) (h2 : Cur pc l → St pc fs l (fs2.content l)) :
    fs.content l = fs2.content l ∨ fs.content l = (P.run h fs2).2.content l ∨
      ∃ v n, (P.run h fs2).2.content l = some v ∧ fs.content l = some (v.take n) := by
  obtain ⟨i1, i2, i3⟩ := K.ends hne hsub hwf hnm hs
  by_cases hA : A l
  · exact .inl (h1 hA)
  · by_cases hc : Cur pc l
    · rcases h2 hc with e | ⟨v, n, hw, e⟩ | ⟨hw, e⟩
      · exact .inl e
      · exact .inr (.inr ⟨v, n, i2 l v hl hw, e⟩)
      · exact .inr (.inl (by rw [e, i3 l hl hw e]))
    · exact .inr (.inl (i1 l hl hA hc).symm)

theorem Shape.other {fs1 : Fs} (hs : Shape h A fs pc) (hg : ∀ l, Cur pc l → fs1.get l = fs.get l) : Shape h A fs1 pc := by
  cases pc with
  | base t =>
    cases t with
    | setLock l v k => exact ⟨by rw [hg l rfl]; exact hs.1, hs.2⟩
    | setTrunc l v k => exact ⟨by rw [hg l rfl]; exact hs.1, hs.2⟩
    | setWrite l v n k => exact ⟨by rw [hg l rfl]; exact hs.1, hs.2⟩
    | _ => exact hs
  | _ => exact hs

end

/-! ## Systems -/

/-- The threads stay below their own roots; call `k` of thread `i` changes only what is in `A i k`, and nothing
twice. -/
structure Isolated (h : Hier) (fs0 : Fs) (pss : List (List (Prog α))) (rs ws : Nat → List Loc)
    (A : Nat → Nat → Loc → Prop) : Prop where
  wf : fs0.WF
  named : fs0.Named
  ne : ∀ i, i < pss.length → ∀ r ∈ rs i, r ≠ []
  plain : ∀ i, i < pss.length → ∀ r ∈ rs i, Plain r
  sub : ∀ i, i < pss.length → ∀ r ∈ ws i, r ∈ rs i
  apart : ∀ i j, i < pss.length → j < pss.length → i ≠ j → Apart (ws i) (rs j)
  above : ∀ i, i < pss.length → ∀ l, Above (rs i) l → ∀ b, fs0.get l ≠ some (.file b)
  uses : ∀ (i k : Nat) (ps : List (Prog α)) (P : Prog α), pss[i]? = some ps → ps[k]? = some P →
    P.Uses h (Above (rs i)) (Under (rs i)) (Under (ws i))
  once : ∀ (i k : Nat) (ps : List (Prog α)) (P : Prog α), pss[i]? = some ps → ps[k]? = some P → P.Once h (A i k)
  within : ∀ (i k : Nat) (l : Loc), i < pss.length → A i k l → Under (ws i) l

/-- The call that a thread is in, which changes only what is in `C`. -/
def InCall (h : Hier) (F fs : Fs) (P : Prog α) (R W : List Loc) (C : Loc → Prop) (pc : Pc α) : Prop :=
  ∃ m A, Track h F fs P R W pc m ∧ Shape h A fs pc ∧ (∀ l, A l → C l) ∧ (∀ l, Cur pc l → C l) ∧
    ∀ l, Under R l → (A l → fs.content l = F.content l) ∧ (Cur pc l → St pc fs l (F.content l)) ∧
      (¬ C l → fs.content l = F.content l)

/-- What a thread has done. -/
structure Done (h : Hier) (fs0 fs : Fs) (ps : List (Prog α)) (R W : List Loc) (C : Nat → Loc → Prop)
    (σ : Session α) : Prop where
  returned : σ.returned = (runAll h (ps.take σ.returned.length) fs0).1
  idle : σ.current = none → Alike R fs (runAll h (ps.take σ.returned.length) fs0).2
  busy : ∀ pc, σ.current = some pc → ∃ P, ps[σ.returned.length]? = some P ∧
    InCall h (runAll h (ps.take σ.returned.length) fs0).2 fs P R W (C σ.returned.length) pc

section
variable {R W : List Loc} {fs0 fs fs1 : Fs} {ps : List (Prog α)} {C : Nat → Loc → Prop} {σ σ1 : Session α}

/-- A step of the thread. -/
theorem Done.step (hne : ∀ r ∈ R, r ≠ []) (hsub : ∀ r ∈ W, r ∈ R) (hwf : fs.WF) (hnm : fs.Named)
    (hu : ∀ (k : Nat) (P : Prog α), ps[k]? = some P → P.Uses h (Above R) (Under R) (Under W))
    (ho : ∀ (k : Nat) (P : Prog α), ps[k]? = some P → P.Once h (C k))
    (D : Done h fs0 fs ps R W C σ) {pcs : List (Pc α)} (hn : σ.next h ps pcs fs = some (σ1, fs1)) :
    Done h fs0 fs1 ps R W C σ1 ∧ Eff W fs fs1 ∧ fs1.WF ∧ fs1.Named := by
  obtain ⟨rs, cur⟩ := σ
  cases cur with
  | none =>
    simp only [Session.next, Option.map_eq_some_iff, Prod.mk.injEq] at hn
    obtain ⟨P, hP, rfl, rfl⟩ := hn
    have ha := D.idle rfl
    obtain ⟨m, K⟩ := Track.start hne hsub ha (hu _ P hP)
    refine ⟨⟨D.returned, by simp, fun pc hpc => ⟨P, hP, ?_⟩⟩, .same, hwf, hnm⟩
    simp only [Option.some.injEq] at hpc
    subst hpc
    exact ⟨m, C rs.length, K, ho _ P hP, fun _ h => h, fun _ h => h.elim,
      fun l hl => ⟨fun _ => ha.content hl, fun h => h.elim, fun _ => ha.content hl⟩⟩
  | some pc =>
    obtain ⟨P, hP, m, A, K, hs, hAC, hCC, hG⟩ := D.busy pc rfl
    by_cases hd : ∃ r, pc = .prog (.done r)
    · obtain ⟨r, rfl⟩ := hd
      simp only [Session.next, Option.some.injEq, Prod.mk.injEq] at hn
      obtain ⟨rfl, rfl⟩ := hn
      obtain ⟨e, ha⟩ := K.alike
      have htk : ps.take (rs.length + 1) = ps.take rs.length ++ [P] := by
        rw [List.take_add_one]
        simp only at hP
        rw [hP]; rfl
      have hret : rs = _ := D.returned
      refine ⟨⟨?_, fun _ => ?_, by simp⟩, .same, hwf, hnm⟩
      · simp only [List.length_append, List.length_cons, List.length_nil, Nat.zero_add]
        rw [htk, runAll_append]
        simp only [runAll]
        rw [← hret, e]
      · simp only [List.length_append, List.length_cons, List.length_nil, Nat.zero_add]
        rw [htk, runAll_append]
        exact ha
    · have hn' : (pc.next h pcs fs).map (fun x => ((⟨rs, some x.1⟩ : Session α), x.2)) = some (σ1, fs1) := by
        rw [← hn]
        unfold Session.next
        split
        · simp_all
        · rename_i r h1
          simp only [Session.mk.injEq, Option.some.injEq] at h1
          exact absurd ⟨_, h1.2⟩ hd
        · rename_i h1
          simp only [Session.mk.injEq, Option.some.injEq] at h1
          rw [h1.1, h1.2]
      rw [Option.map_eq_some_iff] at hn'
      obtain ⟨⟨pc1, f1⟩, hx, hy⟩ := hn'
      simp only [Prod.mk.injEq] at hy
      obtain ⟨rfl, rfl⟩ := hy
      have hx := next_nil hx
      obtain ⟨m1, _, K1, hw1, hn1⟩ := K.step hne hsub hx
      obtain ⟨B, S⟩ := stepped hnm hwf hs hx
      refine ⟨⟨D.returned, by simp, fun pc' hpc => ⟨P, hP, ?_⟩⟩, K.eff hne hsub hx, hw1, hn1⟩
      simp only [Option.some.injEq] at hpc
      subst hpc
      refine ⟨m1, B, K1, S.shape, fun l hl => hAC l (S.sub l hl), fun l hl => (S.cur l hl).elim (hCC l) (hAC l),
        fun l hl => ⟨fun hB => ?_, fun hc => ?_, fun hC => ?_⟩⟩
      · have hA := S.sub l hB
        rw [S.rest l fun hc => hs.cur hc hA]
        exact (hG l hl).1 hA
      · by_cases hc0 : Cur pc l
        · exact S.keep l hc0 hc _ ((hG l hl).2.1 hc0)
        · have hA := (S.cur l hc).resolve_left hc0
          exact .inl (by rw [S.rest l hc0]; exact (hG l hl).1 hA)
      · rw [S.rest l fun hc => hC (hCC l hc)]
        exact (hG l hl).2.2 hC

/-- A step of another thread. -/
theorem Done.other {X : List Loc} (hsub : ∀ r ∈ W, r ∈ R) (hC : ∀ k l, C k l → Under W l) (D : Done h fs0 fs ps R W C σ)
    (ha : Apart X R) (he : Eff X fs fs1) (hw : fs1.WF) (hn : fs1.Named) : Done h fs0 fs1 ps R W C σ where
  returned := D.returned
  idle hi := by
    obtain ⟨f, T1, T2⟩ := D.idle hi
    exact ⟨f, T1.other ha he hw hn, T2⟩
  busy pc hpc := by
    obtain ⟨P, hP, m, A, K, hs, hAC, hCC, hG⟩ := D.busy pc hpc
    have hc : ∀ l, Under R l → fs1.content l = fs.content l := fun l hl => by
      unfold Fs.content
      rw [he.get_eq ha hl]
    refine ⟨P, hP, m, A, K.other hsub ha he hw hn,
      hs.other fun l hl => he.get_eq ha ((hC _ l (hCC l hl)).mono hsub), hAC, hCC, fun l hl => ?_⟩
    unfold St
    rw [hc l hl]
    exact hG l hl

end

/-- What a schedule leads to. -/
structure SInv (h : Hier) (fs0 : Fs) (pss : List (List (Prog α))) (rs ws : Nat → List Loc) (A : Nat → Nat → Loc → Prop)
    (s : Sessions α) : Prop where
  len : s.threads.length = pss.length
  wf : s.fs.WF
  named : s.fs.Named
  done : ∀ (i : Nat) (ps : List (Prog α)) (σ : Session α), pss[i]? = some ps → s.threads[i]? = some σ →
    Done h fs0 s.fs ps (rs i) (ws i) (A i) σ
  frame : ∀ l, (∀ i, i < pss.length → ¬ Under (ws i) l) → s.fs.content l = fs0.content l

section
variable {fs0 : Fs} {pss : List (List (Prog α))} {rs ws : Nat → List Loc} {A : Nat → Nat → Loc → Prop}

theorem Isolated.alike (S : Isolated h fs0 pss rs ws A) {i : Nat} (hi : i < pss.length) : Alike (rs i) fs0 fs0 := by
  obtain ⟨f, T⟩ := exists_twin S.wf S.named (S.plain i hi) (S.above i hi)
  exact ⟨f, T, T⟩

theorem SInv.init (S : Isolated h fs0 pss rs ws A) : SInv h fs0 pss rs ws A (.initial fs0 pss.length) where
  len := by simp [Sessions.initial]
  wf := S.wf
  named := S.named
  done i ps σ hps hσ := by
    have hi : i < pss.length := by rw [List.getElem?_eq_some_iff] at hps; exact hps.1
    have hσ := (List.mem_replicate.mp (List.mem_of_getElem? hσ)).2
    subst hσ
    exact ⟨rfl, fun _ => S.alike hi, by simp⟩
  frame _ _ := rfl

theorem SInv.step (S : Isolated h fs0 pss rs ws A) {s s1 : Sessions α} (I : SInv h fs0 pss rs ws A s) {t : Nat}
    (hs : s.advance h pss t = some s1) : SInv h fs0 pss rs ws A s1 := by
  unfold Sessions.advance at hs
  split at hs
  · rename_i σ ps hσ hps
    rw [Option.map_eq_some_iff] at hs
    obtain ⟨⟨σ1, f1⟩, hx, rfl⟩ := hs
    have ht : t < pss.length := by rw [List.getElem?_eq_some_iff] at hps; exact hps.1
    have htl : t < s.threads.length := by rw [I.len]; exact ht
    obtain ⟨D, he, hw, hn⟩ := (I.done t ps σ hps hσ).step (S.ne t ht) (S.sub t ht) I.wf I.named
      (fun k P hP => S.uses t k ps P hps hP) (fun k P hP => S.once t k ps P hps hP) hx
    refine ⟨by simp [I.len], hw, hn, fun i qs τ hqs hτ => ?_, fun l hl => ?_⟩
    · by_cases e : i = t
      · subst e
        simp only at hτ
        rw [List.getElem?_set_self htl] at hτ
        rw [hps] at hqs
        simp only [Option.some.injEq] at hτ hqs
        subst hτ hqs
        exact D
      · simp only at hτ
        rw [List.getElem?_set_ne (Ne.symm e)] at hτ
        have hi : i < pss.length := by rw [List.getElem?_eq_some_iff] at hqs; exact hqs.1
        exact (I.done i qs τ hqs hτ).other (S.sub i hi) (fun k l hl => S.within i k l hi hl)
          (S.apart t i ht hi (Ne.symm e)) he hw hn
    · simp only
      rw [he.content_eq (hl t ht)]
      exact I.frame l hl
  · simp at hs

theorem SInv.run (S : Isolated h fs0 pss rs ws A) {s s1 : Sessions α} (I : SInv h fs0 pss rs ws A s) (ts : List Nat)
    (hs : s.run h pss ts = some s1) : SInv h fs0 pss rs ws A s1 := by
  induction ts generalizing s with
  | nil =>
    simp only [Sessions.run, Option.some.injEq] at hs
    exact hs ▸ I
  | cons t ts ih =>
    simp only [Sessions.run, Option.bind_eq_some_iff] at hs
    obtain ⟨s2, h1, h2⟩ := hs
    exact ih (I.step S h1) h2

/-! ## The calls that have returned, one after the other -/

/-- The programs of a thread among programs that run one after the other. -/
def own (i : Nat) (es : List (Nat × Prog α)) : List (Prog α) := (es.filter fun e => e.1 = i).map Prod.snd

theorem mixed (S : Isolated h fs0 pss rs ws A) (es : List (Nat × Prog α))
    (hes : ∀ e ∈ es, ∃ ps, pss[e.1]? = some ps ∧ e.2 ∈ ps) (fs : Fs) (F : Nat → Fs)
    (hF : ∀ i, i < pss.length → Alike (rs i) fs (F i)) :
    (∀ i, i < pss.length → Alike (rs i) (runAll h (es.map Prod.snd) fs).2 (runAll h (own i es) (F i)).2) ∧
    ∀ l, (∀ i, i < pss.length → ¬ Under (ws i) l) → (runAll h (es.map Prod.snd) fs).2.content l = fs.content l := by
  induction es generalizing fs F with
  | nil => exact ⟨hF, fun _ _ => rfl⟩
  | cons e es ih =>
    obtain ⟨j, P⟩ := e
    obtain ⟨ps, hps, hP⟩ := hes (j, P) (by simp)
    obtain ⟨k, hk⟩ := List.getElem?_of_mem hP
    have hj : j < pss.length := by rw [List.getElem?_eq_some_iff] at hps; exact hps.1
    have hu := S.uses j k ps P hps hk
    obtain ⟨e1, e2⟩ := run_elsewhere (S.ne j hj) (S.sub j hj) (hF j hj) hu
    obtain ⟨i1, i2⟩ := ih (fun e he => hes e (by simp [he])) (P.run h fs).2
      (fun i => if i = j then (P.run h (F j)).2 else F i) (by
        intro i hi
        by_cases e : i = j
        · subst e
          simp only [if_true]
          exact ((hF i hi).run (S.ne i hi) (S.sub i hi) hu).2
        · simp only [if_neg e]
          obtain ⟨f, T1, T2⟩ := hF i hi
          exact ⟨f, e1 _ f (S.apart j i hj hi (Ne.symm e)) T1, T2⟩)
    refine ⟨fun i hi => ?_, fun l hl => ?_⟩
    · have := i1 i hi
      by_cases e : i = j
      · subst e
        simp only [if_true] at this
        simpa [own, runAll] using this
      · simp only [if_neg e] at this
        have hne : ¬ j = i := Ne.symm e
        simpa [own, runAll, hne] using this
    · simp only [List.map_cons, runAll]
      rw [i2 l hl, e2 l (hl j hj)]

/-- The programs with the numbers of their threads. -/
def tagged (n : Nat) : List (List (Prog α)) → List (Nat × Prog α)
  | [] => []
  | qs :: qss => qs.map (fun q => (n, q)) ++ tagged (n + 1) qss

theorem tagged_snd (n : Nat) (qss : List (List (Prog α))) : (tagged n qss).map Prod.snd = qss.flatten := by
  induction qss generalizing n with
  | nil => rfl
  | cons qs qss ih =>
    rw [tagged, List.map_append, ih, List.map_map, List.flatten_cons]
    congr 1
    induction qs with
    | nil => rfl
    | cons q qs ih => rw [List.map_cons, ih]; rfl

theorem mem_tagged {n : Nat} {qss : List (List (Prog α))} {e : Nat × Prog α} (he : e ∈ tagged n qss) :
    ∃ qs i, e.1 = n + i ∧ qss[i]? = some qs ∧ e.2 ∈ qs := by
  induction qss generalizing n with
  | nil => simp [tagged] at he
  | cons qs qss ih =>
    rw [tagged, List.mem_append] at he
    rcases he with he | he
    · obtain ⟨q, hq, rfl⟩ := List.mem_map.mp he
      exact ⟨qs, 0, rfl, rfl, hq⟩
    · obtain ⟨qs', i, h1, h2, h3⟩ := ih he
      exact ⟨qs', i + 1, by omega, by simpa using h2, h3⟩

theorem own_tagged (n i : Nat) (qss : List (List (Prog α))) : own (n + i) (tagged n qss) = (qss[i]?).getD [] := by
  induction qss generalizing n i with
  | nil => rfl
  | cons qs qss ih =>
    have happ : own (n + i) (tagged n (qs :: qss)) = own (n + i) (qs.map fun q => (n, q)) ++ own (n + i) (tagged (n + 1) qss) := by
      simp [own, tagged]
    rw [happ]
    clear happ
    cases i with
    | zero =>
      have e1 : own (n + 0) (qs.map fun q => (n, q)) = qs := by
        induction qs with
        | nil => rfl
        | cons q qs ih => simp [own] at ih ⊢; exact ih
      have e2 : own (n + 0) (tagged (n + 1) qss) = [] := by
        unfold own
        rw [List.map_eq_nil_iff, List.filter_eq_nil_iff]
        intro e he
        obtain ⟨_, i, h1, _⟩ := mem_tagged he
        simp only [decide_eq_true_eq]
        omega
      rw [e1, e2]; simp
    | succ i =>
      have e1 : own (n + (i + 1)) (qs.map fun q => (n, q)) = [] := by
        unfold own
        rw [List.map_eq_nil_iff, List.filter_eq_nil_iff]
        intro e he
        obtain ⟨q, _, rfl⟩ := List.mem_map.mp he
        simp only [decide_eq_true_eq]
        omega
      rw [e1, show n + (i + 1) = n + 1 + i by omega, ih]
      simp

end

end

end Wide

end Zarr
