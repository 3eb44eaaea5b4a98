import Verif.Lemmas.Interfere
/-!
# Store calls as single steps

The simulation behind C79: system calls of threads that share files, related to whole store calls made
one after the other. -/

namespace Zarr.Threads

namespace Prog
variable {α : Type} (h : Hier)

/-- The next store call of a program, made as one step. -/
def call : Prog α → Fs → Option (Prog α × Fs)
  | .done _, _ => none
  | .exists key k, fs => some (k (storeExists h key fs).1, (storeExists h key fs).2)
  | .get key k, fs => some (k (storeGet h key fs).1, (storeGet h key fs).2)
  | .set key v k, fs => some (k (storeSet h key v fs).1, (storeSet h key v fs).2)
  | .erase key k, fs => some (k (storeErase h key fs).1, (storeErase h key fs).2)

/-- The next store call on a map from locations to contents. -/
def astep : Prog α → Mem → Option (Prog α × Mem)
  | .done _, _ => none
  | .exists key k, m => some (k (.ok (m (h.loc key)).isSome), m)
  | .get key k, m => some (k (.ok (m (h.loc key))), m)
  | .set key v k, m => some (k v.2, upd m (h.loc key) (some v.1))
  | .erase key k, m => some (k (.ok true), upd m (h.loc key) none)

/-- What a look at the file at `l` may tell: files that nobody changes are as in `m0`, shared files exist. -/
def Sees (m0 : Mem) (W : Nat → Loc → Prop) (S : Loc → Prop) (l : Loc) (v : Option Bytes) : Prop :=
  (¬ S l → (∀ i, ¬ W i l) → v = m0 l) ∧ (S l → v.isSome)

/-- Thread `i` only uses files at locations that are not another thread's, and only changes its own and
the shared ones; it erases only its own. -/
def Shares (m0 : Mem) (W : Nat → Loc → Prop) (S : Loc → Prop) (i : Nat) : Prog α → Prop
  | .done _ => True
  | .exists key k => Plain (h.loc key) ∧ (∀ j, W j (h.loc key) → j = i) ∧
      ∀ v, Sees m0 W S (h.loc key) v → (k (.ok v.isSome)).Shares m0 W S i
  | .get key k => Plain (h.loc key) ∧ (∀ j, W j (h.loc key) → j = i) ∧
      ∀ v, Sees m0 W S (h.loc key) v → (k (.ok v)).Shares m0 W S i
  | .set key v k => Plain (h.loc key) ∧ (W i (h.loc key) ∨ S (h.loc key)) ∧ (k v.2).Shares m0 W S i
  | .erase key k => Plain (h.loc key) ∧ W i (h.loc key) ∧ (k (.ok true)).Shares m0 W S i

end Prog

/-- The files that change. -/
def Touched (W : Nat → Loc → Prop) (S : Loc → Prop) (l : Loc) : Prop := S l ∨ ∃ i, W i l

theorem Change.mono {W W' : Loc → Prop} {fs fs' : Fs} (hc : Change W fs fs') (h : ∀ l, W l → W' l) :
    Change W' fs fs' := by
  refine ⟨hc.wf, fun l => ?_⟩
  rcases hc.get l with e | ⟨e1, e2, w, e3, e4⟩ | ⟨e1, e2⟩
  · exact .inl e
  · exact .inr (.inl ⟨e1, e2, w, h w e3, e4⟩)
  · exact .inr (.inr ⟨h l e1, e2⟩)

/-- What is assumed of the locations: nobody else's file is mine, what I change can be written, shared
files exist. -/
structure Layout (fs : Fs) (W : Nat → Loc → Prop) (S : Loc → Prop) : Prop where
  wf : fs.WF
  free : ∀ i l, W i l → Writable fs l
  sep : ∀ i j a b, W i a → W j b → a <+: b → a = b ∧ i = j
  stored : ∀ l, S l → ∃ b, fs.get l = some (.file b)
  apart : ∀ i l, W i l → ¬ S l

section
variable {α : Type} {h : Hier} {W : Nat → Loc → Prop} {S : Loc → Prop} {fs fs' fs0 : Fs} {m0 : Mem}

theorem Layout.chain (hl : Layout fs W S) {a b : Loc} (ha : Touched W S a) (hb : Touched W S b) (hp : a <+: b) :
    a = b := by
  by_cases hne : a = b
  · exact hne
  rcases hb with hb | ⟨j, hb⟩
  · obtain ⟨y, hy⟩ := hl.stored b hb
    have hd := hl.wf.dir_of_prefix hp hne hy
    rcases ha with ha | ⟨i, ha⟩
    · obtain ⟨x, hx⟩ := hl.stored a ha
      rw [hd] at hx; simp at hx
    · exact absurd hd (hl.free i a ha).2
  · rcases ha with ha | ⟨i, ha⟩
    · obtain ⟨x, hx⟩ := hl.stored a ha
      exact absurd hx ((hl.free j b hb).1 a hp hne x)
    · exact (hl.sep i j a b ha hb hp).1

theorem Layout.writable0 (hl : Layout fs W S) {l : Loc} (ht : Touched W S l) : Writable fs l := by
  rcases ht with ht | ⟨i, ht⟩
  · obtain ⟨b, hb⟩ := hl.stored l ht
    refine ⟨fun x hx hne c hc => ?_, by rw [hb]; simp⟩
    rw [hl.wf.dir_of_prefix hx hne hb] at hc; simp at hc
  · exact hl.free i l ht

theorem Layout.writable (hl : Layout fs0 W S) (hc : Change (Touched W S) fs0 fs) {l : Loc} (ht : Touched W S l) :
    Writable fs l :=
  hc.writable (hl.writable0 ht) (fun _ ha hp => hl.chain ha ht hp) (fun _ ha hp => (hl.chain ht ha hp).symm)

/-- A store call made as one step does what it does to the map of contents. -/
theorem Prog.call_astep (hl : Layout fs0 W S) (hc : Change (Touched W S) fs0 fs) {i : Nat} {p q : Prog α} {m : Mem}
    (hu : p.Shares h m0 W S i) (hs : p.astep h fs.content = some (q, m)) :
    ∃ fs', p.call h fs = some (q, fs') ∧ fs'.content = m ∧ Change (Touched W S) fs0 fs' := by
  have hch : ∀ {fs'}, Change (Touched W S) fs fs' → Change (Touched W S) fs0 fs' :=
    fun h2 => hc.trans (fun a b ha hb hp => hl.chain ha hb hp) h2
  cases p with
  | done r => simp [Prog.astep] at hs
  | «exists» key k =>
    simp only [Prog.astep, Option.some.injEq, Prod.mk.injEq] at hs
    obtain ⟨rfl, rfl⟩ := hs
    exact ⟨fs, by simp only [Prog.call, storeExists_eq hc.wf hu.1], rfl, hc⟩
  | get key k =>
    simp only [Prog.astep, Option.some.injEq, Prod.mk.injEq] at hs
    obtain ⟨rfl, rfl⟩ := hs
    exact ⟨fs, by simp only [Prog.call, storeGet_eq hc.wf hu.1], rfl, hc⟩
  | set key v k =>
    simp only [Prog.astep, Option.some.injEq, Prod.mk.injEq] at hs
    obtain ⟨rfl, rfl⟩ := hs
    have ht : Touched W S (h.loc key) := hu.2.1.elim (fun x => .inr ⟨i, x⟩) .inl
    obtain ⟨k1, k2, k3⟩ := Prog.run_eval (h := h) (R := fun _ => False) (W := fun l => l = h.loc key)
      (fun a b ha hb _ => ha.trans hb.symm) (pSet key v) ⟨hu.1, rfl, fun _ => trivial⟩ hc.wf
      (fun l e => e ▸ hl.writable hc ht)
    simp only [pSet, Prog.run, M.lift_apply, Prog.eval] at k1 k2 k3
    exact ⟨_, by simp only [Prog.call, k1], k2, hch (k3.mono fun l e => e ▸ ht)⟩
  | erase key k =>
    simp only [Prog.astep, Option.some.injEq, Prod.mk.injEq] at hs
    obtain ⟨rfl, rfl⟩ := hs
    have ht : Touched W S (h.loc key) := .inr ⟨i, hu.2.1⟩
    obtain ⟨k1, k2, k3⟩ := Prog.run_eval (h := h) (R := fun _ => False) (W := fun l => l = h.loc key)
      (fun a b ha hb _ => ha.trans hb.symm) (pErase key) ⟨hu.1, rfl, fun _ => trivial⟩ hc.wf
      (fun l e => e ▸ hl.writable hc ht)
    simp only [pErase, Prog.run, M.lift_apply, Prog.eval] at k1 k2 k3
    exact ⟨_, by simp only [Prog.call, k1], k2, hch (k3.mono fun l e => e ▸ ht)⟩

/-! ## The relation of one thread -/

/-- Thread `i` is at `pc`; when store calls are single steps, it is before the call of `q`. -/
def Thr (h : Hier) (m0 : Mem) (W : Nat → Loc → Prop) (S : Loc → Prop) (i : Nat) (fs : Fs) (m : Mem) (pc : Pc α) (q : Prog α) :
    Prop :=
  q.Shares h m0 W S i ∧ match pc with
  | .prog p => q = p
  | .getOpen l k => ∃ key, h.loc key = l ∧ (fs.content l).isSome ∧ q = .get key k
  | .getLock l k => ∃ key, h.loc key = l ∧ (fs.content l).isSome ∧ q = .get key k
  | .getRead l acc k => (∀ j, W j l → j = i) ∧ ∃ b, fs.content l = some b ∧ acc <+: b ∧ q = k (.ok (some b))
  | .mkdirDown p n v k => W i p ∧ n < p.length ∧ ∃ key, h.loc key = p ∧ q = .set key v k
  | .mkdirDir p n _ v k => W i p ∧ n < p.length ∧ fs.get (p.take n) = some .dir ∧ ∃ key, h.loc key = p ∧ q = .set key v k
  | .mkdirUp p n v k => W i p ∧ n ≠ 0 ∧ n ≤ p.length ∧ fs.get (p.take (n - 1)) = some .dir ∧
      ∃ key, h.loc key = p ∧ q = .set key v k
  | .setOpen p v k => fs.get p.dropLast = some .dir ∧ ∃ key, h.loc key = p ∧ q = .set key v k
  | .setLock l v k => (fs.content l).isSome ∧ ∃ key, h.loc key = l ∧ q = .set key v k
  | .setTrunc l v k => (W i l ∨ S l) ∧ (fs.content l).isSome ∧ m l = some v.1 ∧ q = k v.2
  | .setWrite l v n k => (W i l ∨ S l) ∧ n ≤ v.1.length ∧ fs.content l = some (v.1.take n) ∧ m l = some v.1 ∧ q = k v.2
  | .eraOpen p k => (fs.content p).isSome ∧ ∃ key, h.loc key = p ∧ q = .erase key k
  | .eraLock p l k => l = p ∧ (fs.content p).isSome ∧ ∃ key, h.loc key = p ∧ q = .erase key k
  | .eraUnlink p l k => l = p ∧ (fs.content p).isSome ∧ ∃ key, h.loc key = p ∧ q = .erase key k
  | .eraFinal p k => Plain p ∧ W i p ∧ fs.content p = none ∧ q = k (.ok true)

/-- The file at `l` is being written by the thread, or was created by it and not written yet. -/
def Dirty (W : Nat → Loc → Prop) (i : Nat) (pc : Pc α) (l : Loc) : Prop :=
  match pc with
  | .setLock l' _ _ => l = l' ∧ W i l'
  | .setTrunc l' _ _ => l = l'
  | .setWrite l' _ _ _ => l = l'
  | _ => False

/-- What a step of thread `i` does to the files and to the map of contents. -/
structure Eff (W : Nat → Loc → Prop) (S : Loc → Prop) (i : Nat) (pc pc' : Pc α) (fs fs' : Fs) (m m' : Mem) : Prop where
  change : Change (Touched W S) fs fs'
  files : ∀ l, ¬ W i l → pc.exclusive l = false → fs'.content l = fs.content l
  mem : ∀ l, ¬ W i l → pc'.exclusive l = false → m' l = m l
  agree : ∀ l, ¬ Dirty W i pc' l → Dirty W i pc l ∨ fs.content l = m l → fs'.content l = m' l
  shared : ∀ l, S l → (fs'.content l).isSome ∧ (m' l).isSome

variable {i : Nat} {pc pc' : Pc α} {q : Prog α} {m m' : Mem}

theorem Eff.silent (hwf : fs.WF) (hS : ∀ l, S l → (fs.content l).isSome ∧ (m l).isSome)
    (hd : ∀ l, ¬ Dirty W i pc' l → Dirty W i pc l → fs.content l = m l) : Eff W S i pc pc' fs fs m m where
  change := .refl hwf
  files _ _ _ := rfl
  mem _ _ _ := rfl
  agree l h1 h2 := h2.elim (hd l h1) id
  shared := hS

theorem Eff.dir (hwf : fs.WF) (hS : ∀ l, S l → (fs.content l).isSome ∧ (m l).isSome) {p : Loc} {n : Nat}
    (hw : W i p) (hn : n < p.length) (hg : fs.get (p.take n) = none) (hwf' : (fs.put (p.take n) .dir).WF)
    (hd : ∀ l, ¬ Dirty W i pc l) : Eff W S i pc pc' fs (fs.put (p.take n) .dir) m m where
  change := .put_dir hwf (.inr ⟨i, hw⟩) hn hg hwf'
  files l _ _ := content_put_dir hg l
  mem _ _ _ := rfl
  agree l _ h2 := by rw [content_put_dir hg]; exact h2.elim (fun x => absurd x (hd l)) id
  shared l hl := by rw [content_put_dir hg]; exact hS l hl

/-- A step of thread `i`. -/
theorem Thr.step {pcs : List (Pc α)} (hwf : fs.WF) (hfree : ∀ l, Touched W S l → Writable fs l)
    (hap : ∀ i l, W i l → ¬ S l)
    (hS : ∀ l, S l → (fs.content l).isSome ∧ (m l).isSome)
    (hA1 : ∀ l, (∀ j, W j l → j = i) → ¬ S l → ¬ Dirty W i pc l → fs.content l = m l)
    (hA2 : ∀ l, (∀ j, W j l → j = i) → pcs.any (Pc.exclusive l) = false → ¬ Dirty W i pc l → fs.content l = m l)
    (hsep : ∀ j l, W i l → W j l → j = i) (hro : ∀ l, ¬ S l → (∀ i, ¬ W i l) → m l = m0 l)
    (ht : Thr h m0 W S i fs m pc q) (hn : pc.next h pcs fs = some (pc', fs')) :
    ∃ q' m', ((q' = q ∧ m' = m) ∨ q.astep h m = some (q', m')) ∧ Thr h m0 W S i fs' m' pc' q' ∧
      Eff W S i pc pc' fs fs' m m' := by
  obtain ⟨hu, ht⟩ := ht
  have sees : ∀ l, Prog.Sees m0 W S l (m l) := fun l => ⟨hro l, fun x => (hS l x).2⟩
  cases pc with
  | prog p =>
    obtain rfl : q = p := ht
    have nd : ∀ l, ¬ Dirty W i (.prog q) l := fun l x => x
    cases q with
    | done r => simp [Pc.next] at hn
    | «exists» key k =>
      obtain ⟨b1, b2, b3⟩ := hu
      obtain ⟨t, ht, hs⟩ := getPath_loc b1
      simp only [Pc.next, ht, hs, Option.some.injEq, Prod.mk.injEq] at hn
      obtain ⟨rfl, rfl⟩ := hn
      refine ⟨_, _, .inr rfl, ⟨b3 _ (sees _), ?_⟩, .silent hwf hS fun l _ x => absurd x (nd l)⟩
      rw [Fs.isFile_eq hwf b1]
      by_cases hs : S (h.loc key)
      · rw [(hS _ hs).1, (hS _ hs).2]
      · rw [hA1 _ b2 hs (nd _)]
    | get key k =>
      have hu' := hu
      obtain ⟨b1, b2, b3⟩ := hu
      obtain ⟨t, ht, hs⟩ := getPath_loc b1
      simp only [Pc.next, ht, hs, Option.some.injEq, Prod.mk.injEq] at hn
      obtain ⟨rfl, rfl⟩ := hn
      rw [Fs.isFile_eq hwf b1]
      cases hc : fs.content (h.loc key) with
      | none =>
        have hs : ¬ S (h.loc key) := fun x => by have := (hS _ x).1; rw [hc] at this; simp at this
        refine ⟨_, _, .inr rfl, ⟨b3 _ (sees _), ?_⟩, .silent hwf hS fun l _ x => absurd x (nd l)⟩
        simp only [Option.isSome_none, Bool.false_eq_true, if_false]
        rw [← hA1 _ b2 hs (nd _), hc]
      | some b =>
        exact ⟨_, _, .inl ⟨rfl, rfl⟩, ⟨hu', key, rfl, by rw [hc]; rfl, rfl⟩,
          .silent hwf hS fun l _ x => absurd x (nd l)⟩
    | set key v k =>
      have hu' := hu
      obtain ⟨b1, b2, b3⟩ := hu
      obtain ⟨t, ht, hs⟩ := getPath_loc b1
      simp only [Pc.next, ht, hs, Option.some.injEq, Prod.mk.injEq] at hn
      obtain ⟨rfl, rfl⟩ := hn
      have hwr := hfree _ (b2.elim (fun x => .inr ⟨i, x⟩) .inl)
      obtain ⟨q, x, e⟩ := writable_split hwf hwr
      have hpq : Plain q := fun hx => b1 (by rw [e]; exact List.mem_append_left _ hx)
      have hlen : (h.loc key).length ≠ 0 := by rw [e]; simp
      refine ⟨_, _, .inl ⟨rfl, rfl⟩, ?_, .silent hwf hS fun l _ x => absurd x (nd l)⟩
      by_cases hc : (h.loc key).isEmpty ∨ fs.pathExists (h.loc key).dropLast
      · rw [if_pos hc]
        refine ⟨hu', ?_, key, rfl, rfl⟩
        rcases hc with hc | hc
        · rw [e] at hc; simp at hc
        · rw [e, List.dropLast_concat] at hc ⊢
          rw [pathExists_eq hwf hpq] at hc
          cases hq : fs.get q with
          | none => rw [hq] at hc; simp at hc
          | some nd =>
            cases nd with
            | dir => rfl
            | file b => exact absurd hq (hwr.1 q (by rw [e]; exact List.prefix_append _ _) (by rw [e]; simp) b)
      · rw [if_neg hc]
        refine ⟨hu', ?_, by omega, key, rfl, rfl⟩
        rcases b2 with b2 | b2
        · exact b2
        · obtain ⟨y, hy⟩ := Option.isSome_iff_exists.mp (hS _ b2).1
          have := parent_of_content hwf hwr hy
          rw [e, List.dropLast_concat] at this hc
          exact absurd (.inr (by rw [pathExists_eq hwf hpq, this]; rfl)) hc
    | erase key k =>
      have hu' := hu
      obtain ⟨b1, b2, b3⟩ := hu
      obtain ⟨t, ht, hs⟩ := getPath_loc b1
      simp only [Pc.next, ht, hs, Option.some.injEq, Prod.mk.injEq] at hn
      obtain ⟨rfl, rfl⟩ := hn
      rw [pathExists_eq hwf b1]
      cases hg : fs.get (h.loc key) with
      | none =>
        have hc : fs.content (h.loc key) = none := by simp [Fs.content, hg]
        have hm := hA1 _ (fun j x => hsep j _ b2 x) (hap _ _ b2) (nd _)
        have hupd : upd m (h.loc key) none = m := by
          funext l
          unfold upd
          by_cases e : l = h.loc key
          · rw [if_pos e, e, ← hm, hc]
          · rw [if_neg e]
        refine ⟨k (.ok true), m, .inr (by rw [Prog.astep, hupd]), ⟨b3, b1, b2, hc, rfl⟩,
          .silent hwf hS fun l _ x => absurd x (nd l)⟩
      | some nd' =>
        cases nd' with
        | dir => exact absurd hg (hfree _ (.inr ⟨i, b2⟩)).2
        | file b =>
          exact ⟨_, _, .inl ⟨rfl, rfl⟩, ⟨hu', by simp [Fs.content, hg], key, rfl, rfl⟩,
            .silent hwf hS fun l _ x => absurd x (nd l)⟩
  | getOpen l k =>
    obtain ⟨key, rfl, a1, rfl⟩ := ht
    obtain ⟨b, hb⟩ := Option.isSome_iff_exists.mp a1
    have hg := Fs.content_eq_some.mp hb
    simp only [Pc.next, Fs.locate_of_get hwf hu.1 hg, hg, Option.isSome_some, if_true, Option.some.injEq,
      Prod.mk.injEq] at hn
    obtain ⟨rfl, rfl⟩ := hn
    exact ⟨_, _, .inl ⟨rfl, rfl⟩, ⟨hu, key, rfl, a1, rfl⟩, .silent hwf hS fun l _ x => x.elim⟩
  | getLock l k =>
    obtain ⟨key, rfl, a1, rfl⟩ := ht
    obtain ⟨b, hb⟩ := Option.isSome_iff_exists.mp a1
    obtain ⟨b1, b2, b3⟩ := hu
    simp only [Pc.next] at hn
    split at hn
    · simp at hn
    · rename_i hx
      simp only [Option.some.injEq, Prod.mk.injEq] at hn
      obtain ⟨rfl, rfl⟩ := hn
      have hm := hA2 _ b2 (by simpa using hx) (fun x => x)
      refine ⟨_, _, .inr rfl, ⟨b3 _ (sees _), b2, b, hb, List.nil_prefix, ?_⟩, .silent hwf hS fun l _ x => x.elim⟩
      rw [← hm, hb]
  | getRead l acc k =>
    obtain ⟨a1, b, a2, a3, rfl⟩ := ht
    have hg := Fs.content_eq_some.mp a2
    have hcon : content fs l = b := by simp [content, hg]
    simp only [Pc.next, hg, hcon] at hn
    have hle := a3.length_le
    have htake := List.prefix_iff_eq_take.mp a3
    refine ⟨_, _, .inl ⟨rfl, rfl⟩, ?_⟩
    by_cases hlt : acc.length < b.length
    · rw [List.getElem?_eq_getElem hlt] at hn
      simp only [Option.some.injEq, Prod.mk.injEq] at hn
      obtain ⟨rfl, rfl⟩ := hn
      refine ⟨⟨hu, a1, b, a2, ?_, rfl⟩, .silent hwf hS fun l _ x => x.elim⟩
      rw [List.prefix_iff_eq_take]
      rw [List.length_append, List.length_singleton, ← List.take_append_getElem hlt, ← htake]
    · rw [List.getElem?_eq_none (by omega)] at hn
      simp only [Option.some.injEq, Prod.mk.injEq] at hn
      obtain ⟨rfl, rfl⟩ := hn
      have : acc = b := a3.eq_of_length (by omega)
      subst this
      exact ⟨⟨hu, rfl⟩, .silent hwf hS fun l _ x => x.elim⟩
  | mkdirDown p n v k =>
    obtain ⟨a2, a4, key, rfl, rfl⟩ := ht
    simp only [Pc.next] at hn
    refine ⟨_, _, .inl ⟨rfl, rfl⟩, ?_⟩
    by_cases h0 : n = 0
    · have : fs.isDir [] = true := (Fs.isDir_iff hwf (by simp [Plain])).mpr hwf.root
      rw [if_pos h0, if_pos this] at hn
      simp only [Option.some.injEq, Prod.mk.injEq] at hn
      obtain ⟨rfl, rfl⟩ := hn
      exact ⟨⟨hu, a2, by omega, by omega, by simpa using hwf.root, key, rfl, rfl⟩, .silent hwf hS fun l _ x => x.elim⟩
    · rw [if_neg h0] at hn
      rcases mkdir_take hwf hu.1 (hfree _ (.inr ⟨i, a2⟩)) h0 a4 with ⟨e1, e2, e3⟩ | ⟨e1, e2⟩ | ⟨e1, e2⟩
      · rw [e1] at hn
        simp only [Option.some.injEq, Prod.mk.injEq] at hn
        obtain ⟨rfl, rfl⟩ := hn
        refine ⟨⟨hu, a2, by omega, by omega, ?_, key, rfl, rfl⟩, .dir hwf hS a2 a4 e2 e3 fun l x => x⟩
        rw [Nat.add_sub_cancel, Fs.get_put, if_pos rfl]
      · rw [e1] at hn
        simp only [reduceCtorEq, if_false, Option.some.injEq, Prod.mk.injEq] at hn
        obtain ⟨rfl, rfl⟩ := hn
        exact ⟨⟨hu, a2, a4, e2, key, rfl, rfl⟩, .silent hwf hS fun l _ x => x.elim⟩
      · rw [e1] at hn
        simp only [if_true, Option.some.injEq, Prod.mk.injEq] at hn
        obtain ⟨rfl, rfl⟩ := hn
        exact ⟨⟨hu, a2, by omega, key, rfl, rfl⟩, .silent hwf hS fun l _ x => x.elim⟩
  | mkdirDir p n e v k =>
    obtain ⟨a2, a4, a5, key, rfl, rfl⟩ := ht
    have : fs.isDir ((h.loc key).take n) = true :=
      (Fs.isDir_iff hwf (fun hx => hu.1 (List.mem_of_mem_take hx))).mpr a5
    simp only [Pc.next, this, if_true, Option.some.injEq, Prod.mk.injEq] at hn
    obtain ⟨rfl, rfl⟩ := hn
    exact ⟨_, _, .inl ⟨rfl, rfl⟩, ⟨hu, a2, by omega, by omega, by simpa using a5, key, rfl, rfl⟩,
      .silent hwf hS fun l _ x => x.elim⟩
  | mkdirUp p n v k =>
    obtain ⟨a2, a4, a5, a6, key, rfl, rfl⟩ := ht
    simp only [Pc.next] at hn
    refine ⟨_, _, .inl ⟨rfl, rfl⟩, ?_⟩
    by_cases hl : (h.loc key).length ≤ n
    · rw [if_pos hl] at hn
      simp only [Option.some.injEq, Prod.mk.injEq] at hn
      obtain ⟨rfl, rfl⟩ := hn
      refine ⟨⟨hu, ?_, key, rfl, rfl⟩, .silent hwf hS fun l _ x => x.elim⟩
      rw [List.dropLast_eq_take, show (h.loc key).length = n by omega]; exact a6
    · rw [if_neg hl] at hn
      rcases mkdir_take hwf hu.1 (hfree _ (.inr ⟨i, a2⟩)) a4 (by omega) with ⟨e1, e2, e3⟩ | ⟨e1, e2⟩ | ⟨e1, e2⟩
      · rw [e1] at hn
        simp only [Option.some.injEq, Prod.mk.injEq] at hn
        obtain ⟨rfl, rfl⟩ := hn
        refine ⟨⟨hu, a2, by omega, by omega, ?_, key, rfl, rfl⟩, .dir hwf hS a2 (by omega) e2 e3 fun l x => x⟩
        rw [Nat.add_sub_cancel, Fs.get_put, if_pos rfl]
      · rw [e1] at hn
        simp only [Option.some.injEq, Prod.mk.injEq] at hn
        obtain ⟨rfl, rfl⟩ := hn
        exact ⟨⟨hu, a2, by omega, e2, key, rfl, rfl⟩, .silent hwf hS fun l _ x => x.elim⟩
      · exact absurd a6 e2
  | setOpen p v k =>
    obtain ⟨a4, key, rfl, rfl⟩ := ht
    have htch : Touched W S (h.loc key) := hu.2.1.elim (fun x => .inr ⟨i, x⟩) .inl
    have hwr := hfree _ htch
    have hch : ∀ b, Change (Touched W S) fs (fs.put (h.loc key) (.file b)) := fun b => .put_file hwf htch hwr a4
    obtain ⟨q, x, e⟩ := writable_split hwf hwr
    rw [e, List.dropLast_concat] at a4
    have ho := openCreate_plain hwf (by rw [← e]; exact hu.1) a4
    rw [← e] at ho
    simp only [Pc.next, ho] at hn
    refine ⟨_, _, .inl ⟨rfl, rfl⟩, ?_⟩
    cases hg : fs.get (h.loc key) with
    | none =>
      rw [hg] at hn
      simp only [Option.some.injEq, Prod.mk.injEq] at hn
      obtain ⟨rfl, rfl⟩ := hn
      have hns : ¬ S (h.loc key) := fun x => by have := (hS _ x).1; simp [Fs.content, hg] at this
      have hw : W i (h.loc key) := hu.2.1.elim id fun x => absurd x hns
      refine ⟨⟨hu, by rw [content_put, if_pos rfl]; rfl, key, rfl, rfl⟩, hch _, fun l h1 _ => ?_, fun _ _ _ => rfl,
        fun l h1 h2 => ?_, fun l hl => ?_⟩
      · rw [content_put, if_neg fun e : l = h.loc key => h1 (e ▸ hw)]
      · rw [content_put, if_neg fun e : l = h.loc key => h1 ⟨e, hw⟩]; exact h2.elim (fun x => x.elim) id
      · rw [content_put, if_neg fun e : l = h.loc key => hns (e ▸ hl)]; exact hS l hl
    | some nd =>
      rw [hg] at hn
      cases nd with
      | dir => exact absurd hg hwr.2
      | file b =>
        simp only [Option.some.injEq, Prod.mk.injEq] at hn
        obtain ⟨rfl, rfl⟩ := hn
        exact ⟨⟨hu, by rw [Fs.content_eq_some.mpr hg]; rfl, key, rfl, rfl⟩, .silent hwf hS fun l _ x => x.elim⟩
  | setLock l v k =>
    obtain ⟨a1, key, rfl, rfl⟩ := ht
    obtain ⟨b1, b2, b3⟩ := hu
    simp only [Pc.next] at hn
    split at hn
    · simp at hn
    · simp only [Option.some.injEq, Prod.mk.injEq] at hn
      obtain ⟨rfl, rfl⟩ := hn
      refine ⟨_, _, .inr rfl, ⟨b3, b2, a1, by rw [upd, if_pos rfl], rfl⟩, .refl hwf, fun _ _ _ => rfl,
        fun l _ h2 => ?_, fun l h1 h2 => ?_, fun l hl => ⟨(hS l hl).1, ?_⟩⟩
      · simp only [Pc.exclusive, decide_eq_false_iff_not] at h2
        rw [upd, if_neg h2]
      · rw [upd, if_neg (show ¬ l = h.loc key from h1)]
        exact h2.elim (fun x => absurd x.1 h1) id
      · unfold upd
        split
        · rfl
        · exact (hS l hl).2
  | setTrunc p v k =>
    obtain ⟨a2, a4, a5, rfl⟩ := ht
    obtain ⟨b, hb⟩ := Option.isSome_iff_exists.mp a4
    simp only [Pc.next, Option.some.injEq, Prod.mk.injEq] at hn
    obtain ⟨rfl, rfl⟩ := hn
    have htch : Touched W S p := a2.elim (fun x => .inr ⟨i, x⟩) .inl
    refine ⟨_, _, .inl ⟨rfl, rfl⟩, ⟨hu, a2, by omega, by rw [content_put, if_pos rfl]; simp, a5, rfl⟩,
      .put_file hwf htch (hfree _ htch) (parent_of_content hwf (hfree _ htch) hb), fun l _ h2 => ?_, fun _ _ _ => rfl,
      fun l h1 h2 => ?_, fun l hl => ⟨?_, (hS l hl).2⟩⟩
    · simp only [Pc.exclusive, decide_eq_false_iff_not] at h2
      rw [content_put, if_neg h2]
    · rw [content_put, if_neg (show ¬ l = p from h1)]; exact h2.elim (fun x => absurd x h1) id
    · rw [content_put]
      split
      · rfl
      · exact (hS l hl).1
  | setWrite p v n k =>
    obtain ⟨a2, a4, a5, a6, rfl⟩ := ht
    have hcon : content fs p = v.1.take n := by simp [content, Fs.content_eq_some.mp a5]
    have htch : Touched W S p := a2.elim (fun x => .inr ⟨i, x⟩) .inl
    simp only [Pc.next] at hn
    refine ⟨_, _, .inl ⟨rfl, rfl⟩, ?_⟩
    by_cases hlt : n < v.1.length
    · rw [List.getElem?_eq_getElem hlt] at hn
      simp only [Option.some.injEq, Prod.mk.injEq] at hn
      obtain ⟨rfl, rfl⟩ := hn
      have e : (content fs p).take n ++ v.1[n] :: (content fs p).drop (n + 1) = v.1.take (n + 1) := by
        rw [hcon, List.take_take, Nat.min_self, List.drop_eq_nil_of_le (by simp; omega), List.take_append_getElem hlt]
      rw [e]
      refine ⟨⟨hu, a2, by omega, by rw [content_put, if_pos rfl], a6, rfl⟩,
        .put_file hwf htch (hfree _ htch) (parent_of_content hwf (hfree _ htch) a5), fun l _ h2 => ?_, fun _ _ _ => rfl,
        fun l h1 h2 => ?_, fun l hl => ⟨?_, (hS l hl).2⟩⟩
      · simp only [Pc.exclusive, decide_eq_false_iff_not] at h2
        rw [content_put, if_neg h2]
      · rw [content_put, if_neg (show ¬ l = p from h1)]; exact h2.elim (fun x => absurd x h1) id
      · rw [content_put]
        split
        · rfl
        · exact (hS l hl).1
    · rw [List.getElem?_eq_none (by omega)] at hn
      simp only [Option.some.injEq, Prod.mk.injEq] at hn
      obtain ⟨rfl, rfl⟩ := hn
      rw [List.take_of_length_le (by omega)] at a5
      refine ⟨⟨hu, rfl⟩, .silent hwf hS fun l _ x => ?_⟩
      obtain rfl : l = p := x
      rw [a5, a6]
  | eraOpen p k =>
    obtain ⟨a4, key, rfl, rfl⟩ := ht
    obtain ⟨b, hb⟩ := Option.isSome_iff_exists.mp a4
    have hg := Fs.content_eq_some.mp hb
    simp only [Pc.next, Fs.locate_of_get hwf hu.1 hg, hg, Option.isSome_some, if_true, Option.some.injEq,
      Prod.mk.injEq] at hn
    obtain ⟨rfl, rfl⟩ := hn
    exact ⟨_, _, .inl ⟨rfl, rfl⟩, ⟨hu, rfl, a4, key, rfl, rfl⟩, .silent hwf hS fun l _ x => x.elim⟩
  | eraLock p l k =>
    obtain ⟨rfl, a4, key, rfl, rfl⟩ := ht
    simp only [Pc.next] at hn
    split at hn
    · simp at hn
    · simp only [Option.some.injEq, Prod.mk.injEq] at hn
      obtain ⟨rfl, rfl⟩ := hn
      exact ⟨_, _, .inl ⟨rfl, rfl⟩, ⟨hu, rfl, a4, key, rfl, rfl⟩, .silent hwf hS fun l _ x => x.elim⟩
  | eraUnlink p l k =>
    obtain ⟨rfl, a4, key, rfl, rfl⟩ := ht
    obtain ⟨b, hb⟩ := Option.isSome_iff_exists.mp a4
    have hg := Fs.content_eq_some.mp hb
    obtain ⟨b1, b2, b3⟩ := hu
    simp only [Pc.next, Fs.locate_of_get hwf b1 hg, hg, Option.some.injEq, Prod.mk.injEq] at hn
    obtain ⟨rfl, rfl⟩ := hn
    have hns := hap _ _ b2
    refine ⟨_, _, .inr rfl, ⟨b3, b1, b2, by rw [content_del, if_pos rfl], rfl⟩, ⟨hwf.del_file hg, fun l => ?_⟩,
      fun l h1 _ => ?_, fun l h1 _ => ?_, fun l _ h2 => ?_, fun l hl => ?_⟩
    · rw [Fs.get_del]
      by_cases e : l = h.loc key
      · exact .inr (.inr ⟨e ▸ .inr ⟨i, b2⟩, by rw [e, hg]; simp, by rw [if_pos e]; simp⟩)
      · exact .inl (if_neg e)
    · rw [content_del, if_neg fun e : l = h.loc key => h1 (e ▸ b2)]
    · rw [upd, if_neg fun e : l = h.loc key => h1 (e ▸ b2)]
    · rw [content_del, upd]
      split
      · rfl
      · exact h2.elim (fun x => x.elim) id
    · rw [content_del, upd, if_neg fun e : l = h.loc key => hns (e ▸ hl), if_neg fun e : l = h.loc key => hns (e ▸ hl)]
      exact hS l hl
  | eraFinal p k =>
    obtain ⟨a1, a2, a4, rfl⟩ := ht
    have hg : fs.get p = none := by
      cases hg : fs.get p with
      | none => rfl
      | some nd =>
        cases nd with
        | dir => exact absurd hg (hfree _ (.inr ⟨i, a2⟩)).2
        | file b => simp [Fs.content, hg] at a4
    simp only [Pc.next, pathExists_eq hwf a1, hg, Option.isSome_none, Bool.not_false, Option.some.injEq,
      Prod.mk.injEq] at hn
    obtain ⟨rfl, rfl⟩ := hn
    exact ⟨_, _, .inl ⟨rfl, rfl⟩, ⟨hu, rfl⟩, .silent hwf hS fun l _ x => x.elim⟩

/-- The thread changes the file at `l` only if it is its own or shared. -/
theorem Thr.excl (ht : Thr h m0 W S i fs m pc q) {l : Loc} (hx : pc.exclusive l = true) : W i l ∨ S l := by
  obtain ⟨hu, ht⟩ := ht
  cases pc <;> simp only [Pc.exclusive, Bool.false_eq_true, decide_eq_true_eq] at hx <;> subst hx
  · exact ht.1
  · exact ht.1
  · obtain ⟨e, _, key, rfl, rfl⟩ := ht
    exact .inl (e ▸ hu.2.1)

theorem Thr.dirty (ht : Thr h m0 W S i fs m pc q) {l : Loc} (hx : Dirty W i pc l) : W i l ∨ S l := by
  obtain ⟨hu, ht⟩ := ht
  cases pc <;> simp only [Dirty] at hx
  · exact .inl (hx.1 ▸ hx.2)
  · exact hx ▸ ht.1
  · exact hx ▸ ht.1

/-- A step of thread `j` leaves the relation of thread `i`. -/
theorem Thr.frame {j : Nat} {pcj pcj' : Pc α} (ht : Thr h m0 W S i fs m pc q)
    (hsep : ∀ a b l, W a l → W b l → a = b) (hij : i ≠ j)
    (he : Eff W S j pcj pcj' fs fs' m m')
    (hex : ∀ l, pcj.exclusive l = true → pc.holds l = false ∧ (W j l ∨ S l))
    (hex' : ∀ l, pcj'.exclusive l = true → pc.holds l = false ∧ (W j l ∨ S l))
    (hap : ∀ i l, W i l → ¬ S l)
    (hS : ∀ l, S l → (fs.content l).isSome) :
    Thr h m0 W S i fs' m' pc q := by
  have own : ∀ l, W i l → ¬ W j l := fun l h1 h2 => hij (hsep _ _ l h1 h2)
  have key : ∀ l, ¬ W j l → pc.holds l = true → fs'.content l = fs.content l := fun l h1 h2 => by
    refine he.files l h1 ?_
    cases hx : pcj.exclusive l with
    | false => rfl
    | true => rw [(hex l hx).1] at h2; simp at h2
  have key' : ∀ l, ¬ W j l → pc.holds l = true → m' l = m l := fun l h1 h2 => by
    refine he.mem l h1 ?_
    cases hx : pcj'.exclusive l with
    | false => rfl
    | true => rw [(hex' l hx).1] at h2; simp at h2
  have mine : ∀ l, W i l → fs'.content l = fs.content l := fun l h1 => by
    refine he.files l (own l h1) ?_
    cases hx : pcj.exclusive l with
    | false => rfl
    | true =>
      rcases (hex l hx).2 with h2 | h2
      · exact absurd h2 (own l h1)
      · exact absurd h2 (hap i l h1)
  have some : ∀ l, ¬ W j l → (fs.content l).isSome → (fs'.content l).isSome := fun l h1 h2 => by
    by_cases hs : S l
    · exact (he.shared l hs).1
    · rw [he.files l h1 ?_]
      · exact h2
      · cases hx : pcj.exclusive l with
        | false => rfl
        | true =>
          rcases (hex l hx).2 with h2 | h2
          · exact absurd h2 h1
          · exact absurd h2 hs
  have nown : ∀ l, W i l ∨ S l → ¬ W j l := fun l h1 => h1.elim (own l) fun h2 h3 => hap j l h3 h2
  obtain ⟨hu, ht⟩ := ht
  refine ⟨hu, ?_⟩
  cases pc with
  | prog p => exact ht
  | getOpen l k =>
    obtain ⟨key, rfl, a1, rfl⟩ := ht
    exact ⟨_, rfl, some _ (fun x => hij (hu.2.1 j x).symm) a1, rfl⟩
  | getLock l k =>
    obtain ⟨key, rfl, a1, rfl⟩ := ht
    exact ⟨_, rfl, some _ (fun x => hij (hu.2.1 j x).symm) a1, rfl⟩
  | getRead l acc k =>
    obtain ⟨a1, b, a2, a3⟩ := ht
    exact ⟨a1, b, by rw [key l (fun x => hij (a1 j x).symm) (by simp [Pc.holds]), a2], a3⟩
  | mkdirDown p n v k => exact ht
  | mkdirDir p n e v k => exact ⟨ht.1, ht.2.1, he.change.dir ht.2.2.1, ht.2.2.2⟩
  | mkdirUp p n v k => exact ⟨ht.1, ht.2.1, ht.2.2.1, he.change.dir ht.2.2.2.1, ht.2.2.2.2⟩
  | setOpen p v k => exact ⟨he.change.dir ht.1, ht.2⟩
  | setLock l v k =>
    obtain ⟨a1, key, rfl, rfl⟩ := ht
    exact ⟨some _ (nown _ hu.2.1) a1, _, rfl, rfl⟩
  | setTrunc l v k =>
    obtain ⟨a1, a2, a3, a4⟩ := ht
    exact ⟨a1, some _ (nown _ a1) a2, by rw [key' l (nown _ a1) (by simp [Pc.holds, Pc.exclusive]), a3], a4⟩
  | setWrite l v n k =>
    obtain ⟨a1, a2, a3, a4, a5⟩ := ht
    exact ⟨a1, a2, by rw [key l (nown _ a1) (by simp [Pc.holds, Pc.exclusive]), a3],
      by rw [key' l (nown _ a1) (by simp [Pc.holds, Pc.exclusive]), a4], a5⟩
  | eraOpen p k =>
    obtain ⟨a1, key, rfl, rfl⟩ := ht
    exact ⟨by rw [mine _ hu.2.1]; exact a1, _, rfl, rfl⟩
  | eraLock p l k =>
    obtain ⟨rfl, a1, key, rfl, rfl⟩ := ht
    exact ⟨rfl, by rw [mine _ hu.2.1]; exact a1, _, rfl, rfl⟩
  | eraUnlink p l k =>
    obtain ⟨rfl, a1, key, rfl, rfl⟩ := ht
    exact ⟨rfl, by rw [mine _ hu.2.1]; exact a1, _, rfl, rfl⟩
  | eraFinal p k => exact ⟨ht.1, ht.2.1, by rw [mine _ ht.2.1]; exact ht.2.2.1, ht.2.2.2⟩

/-- A lock is taken only when the others allow it. -/
theorem Pc.locks {pcs : List (Pc α)} (hn : pc.next h pcs fs = some (pc', fs')) (l : Loc) :
    (pc'.exclusive l = true → pc.exclusive l = true ∨ pcs.any (Pc.holds l) = false) ∧
    (pc'.holds l = true → pc.holds l = true ∨ pcs.any (Pc.exclusive l) = false) := by
  have hsub : pcs.any (Pc.holds l) = false → pcs.any (Pc.exclusive l) = false := by
    intro hx
    rw [List.any_eq_false] at hx ⊢
    exact fun x hm he => hx x hm (Pc.holds_of_exclusive he)
  cases pc with
  | prog p => cases p <;> simp only [Pc.next] at hn <;> (repeat' split at hn) <;> simp at hn <;>
      obtain ⟨rfl, _⟩ := hn <;> (try split) <;> simp [Pc.holds, Pc.exclusive]
  | getOpen p k => simp only [Pc.next] at hn; (repeat' split at hn) <;> simp at hn <;>
      obtain ⟨rfl, _⟩ := hn <;> (try split) <;> simp [Pc.holds, Pc.exclusive]
  | getLock l' k =>
    simp only [Pc.next] at hn
    split at hn
    · simp at hn
    · rename_i hx
      simp at hn
      obtain ⟨rfl, _⟩ := hn
      refine ⟨by simp [Pc.exclusive], fun e => .inr ?_⟩
      obtain rfl : l = l' := by simpa [Pc.holds] using e
      simpa using hx
  | getRead l' acc k => simp only [Pc.next] at hn; (repeat' split at hn) <;> simp at hn <;>
      obtain ⟨rfl, _⟩ := hn <;> simp +contextual [Pc.holds, Pc.exclusive]
  | mkdirDown p n v k => simp only [Pc.next] at hn; (repeat' split at hn) <;> simp at hn <;>
      obtain ⟨rfl, _⟩ := hn <;> (try split) <;> simp [Pc.holds, Pc.exclusive]
  | mkdirDir p n e v k => simp only [Pc.next] at hn; simp at hn; obtain ⟨rfl, _⟩ := hn; split <;>
      simp [Pc.holds, Pc.exclusive]
  | mkdirUp p n v k => simp only [Pc.next] at hn; (repeat' split at hn) <;> simp at hn <;>
      obtain ⟨rfl, _⟩ := hn <;> (try split) <;> simp [Pc.holds, Pc.exclusive]
  | setOpen p v k => simp only [Pc.next] at hn; (repeat' split at hn) <;> simp at hn <;>
      obtain ⟨rfl, _⟩ := hn <;> (try split) <;> simp [Pc.holds, Pc.exclusive]
  | setLock l' v k =>
    simp only [Pc.next] at hn
    split at hn
    · simp at hn
    · rename_i hx
      simp at hn
      obtain ⟨rfl, _⟩ := hn
      refine ⟨fun e => .inr ?_, fun e => .inr (hsub ?_)⟩ <;>
      · obtain rfl : l = l' := by simpa [Pc.holds, Pc.exclusive] using e
        simpa using hx
  | setTrunc l' v k => simp [Pc.next] at hn; obtain ⟨rfl, _⟩ := hn; simp +contextual [Pc.holds, Pc.exclusive]
  | setWrite l' v n k => simp only [Pc.next] at hn; (repeat' split at hn) <;> simp at hn <;>
      obtain ⟨rfl, _⟩ := hn <;> simp +contextual [Pc.holds, Pc.exclusive]
  | eraOpen p k => simp only [Pc.next] at hn; (repeat' split at hn) <;> simp at hn <;>
      obtain ⟨rfl, _⟩ := hn <;> (try split) <;> simp [Pc.holds, Pc.exclusive]
  | eraLock p l' k =>
    simp only [Pc.next] at hn
    split at hn
    · simp at hn
    · rename_i hx
      simp at hn
      obtain ⟨rfl, _⟩ := hn
      refine ⟨fun e => .inr ?_, fun e => .inr (hsub ?_)⟩ <;>
      · obtain rfl : l = l' := by simpa [Pc.holds, Pc.exclusive] using e
        simpa using hx
  | eraUnlink p l' k => simp only [Pc.next] at hn; (repeat' split at hn) <;> simp at hn <;>
      obtain ⟨rfl, _⟩ := hn <;> simp [Pc.holds, Pc.exclusive]
  | eraFinal p k => simp [Pc.next] at hn; obtain ⟨rfl, _⟩ := hn; simp [Pc.holds, Pc.exclusive]

/-- A thread that holds a lock does not wait. -/
theorem Pc.next_of_holds (pcs : List (Pc α)) {l : Loc} (hl : pc.holds l = true) : ∃ r, pc.next h pcs fs = some r := by
  cases pc with
  | getRead l' acc k => simp only [Pc.next]; (repeat' split) <;> exact ⟨_, rfl⟩
  | setTrunc l' v k => exact ⟨_, rfl⟩
  | setWrite l' v n k => simp only [Pc.next]; split <;> exact ⟨_, rfl⟩
  | eraUnlink p l' k => simp only [Pc.next]; (repeat' split) <;> exact ⟨_, rfl⟩
  | _ => simp [Pc.holds, Pc.exclusive] at hl

end

end Zarr.Threads
