import Verif.Props.Atomic
import Verif.Props.Terminate
import Verif.Props.ThreadBoxes
import Verif.Lemmas.Serial
import Verif.Props.Locality
/-!
# Boxes that are read and written at the same time and may share chunks: C116

C78 is about threads whose boxes have no chunk in common, and shows that writes are lost when they do.
Here the boxes may overlap in any way. What can be said then is that a chunk never holds anything but
what some of the writes, one after the other, make of it.
-/

namespace Zarr

open Spec

/-! ## Specification -/

/-- In the chunk at `pos`, `f'` is what some of the writes, made one after the other, make of `f`. -/
def Spec.SomeWrites {α : Type} (m : ArrayMetadata) (writes : List (List Nat × NdArr α)) (f f' : List Nat → α)
    (pos : List Nat) : Prop :=
  ∃ ws, (∀ w ∈ ws, w ∈ writes) ∧ ∀ g, Covers m.chunkShape pos g → f' g = Spec.update ws f g

/-- The chunk at `pos` is what some of the writes make of `f`. -/
def Spec.Mixed (env : Env) (h : Hier) (path : Str) (m : ArrayMetadata) (t : RsType)
    (writes : List (List Nat × NdArr (El t))) (f : List Nat → El t) (fs : Fs) (pos : List Nat) : Prop :=
  ∃ c f', (readChunk env h path m t pos fs).1 = .ok (some c) ∧ SomeWrites m writes f f' pos ∧
    ∀ g, Covers m.chunkShape pos g → c.data[linear m.order m.chunkShape (within m.chunkShape g)]? = some (f' g)

/-- What a call returns: writes succeed; a read returns an array of the shape of the box, and in every
chunk that meets the box the elements are what some of the writes make of `f`. -/
def Spec.Served (m : ArrayMetadata) {t : RsType} (writes : List (List Nat × NdArr (El t))) (f : List Nat → El t) :
    BoxOp t → BoxResult t → Prop
  | .write _ _, r => r = .wrote (.ok ())
  | .read b, r => ∃ a, r = .got (.ok a) ∧ a.shape = b.shape ∧ ∀ pos, OverlapsBoth m b pos →
      ∃ f', SomeWrites m writes f f' pos ∧
        ∀ i, Inside b.shape i → Covers m.chunkShape pos (shift b.offset i) → a.get i = f' (shift b.offset i)

namespace Threads

/-! ## Programs that keep an invariant whatever happens between their store calls -/

/-- Every store call keeps the invariant `I`, in whatever state with `I` it is made, and what the program
returns has `Q`. -/
def Prog.Steady {α : Type} (h : Hier) (I : Fs → Prop) (Q : Outcome α → Prop) : Prog α → Prop
  | .done r => Q r
  | .exists key k => ∀ fs, I fs → I (storeExists h key fs).2 ∧ (k (storeExists h key fs).1).Steady h I Q
  | .get key k => ∀ fs, I fs → I (storeGet h key fs).2 ∧ (k (storeGet h key fs).1).Steady h I Q
  | .set key v k => ∀ fs, I fs → I (storeSet h key v fs).2 ∧ (k (storeSet h key v fs).1).Steady h I Q
  | .erase key k => ∀ fs, I fs → I (storeErase h key fs).2 ∧ (k (storeErase h key fs).1).Steady h I Q

section
variable {α β : Type} {h : Hier} {I : Fs → Prop}

theorem Prog.Steady.mono {Q Q' : Outcome α → Prop} {p : Prog α} (hp : p.Steady h I Q) (hq : ∀ r, Q r → Q' r) :
    p.Steady h I Q' := by
  induction p with
  | done r => exact hq r hp
  | «exists» key k ih => exact fun fs hi => ⟨(hp fs hi).1, ih _ (hp fs hi).2⟩
  | get key k ih => exact fun fs hi => ⟨(hp fs hi).1, ih _ (hp fs hi).2⟩
  | set key v k ih => exact fun fs hi => ⟨(hp fs hi).1, ih _ (hp fs hi).2⟩
  | erase key k ih => exact fun fs hi => ⟨(hp fs hi).1, ih _ (hp fs hi).2⟩

/-- One after the other, when the first only returns values. -/
theorem Prog.Steady.bind {Q : α → Prop} {Q' : Outcome β → Prop} {p : Prog α} {f : α → Prog β}
    (hp : p.Steady h I fun r => ∃ a, r = .ok a ∧ Q a) (hf : ∀ a, Q a → (f a).Steady h I Q') :
    (p.bind f).Steady h I Q' := by
  induction p with
  | done r =>
    obtain ⟨a, rfl, ha⟩ := hp
    exact hf a ha
  | «exists» key k ih => exact fun fs hi => ⟨(hp fs hi).1, ih _ (hp fs hi).2⟩
  | get key k ih => exact fun fs hi => ⟨(hp fs hi).1, ih _ (hp fs hi).2⟩
  | set key v k ih => exact fun fs hi => ⟨(hp fs hi).1, ih _ (hp fs hi).2⟩
  | erase key k ih => exact fun fs hi => ⟨(hp fs hi).1, ih _ (hp fs hi).2⟩

theorem Prog.Steady.record {Q : Outcome α → Prop} {Q' : Outcome β → Prop} {p : Prog α} {f : Outcome α → β}
    (hp : p.Steady h I Q) (hq : ∀ r, Q r → Q' (.ok (f r))) : (p.record f).Steady h I Q' := by
  induction p with
  | done r => exact hq r hp
  | «exists» key k ih => exact fun fs hi => ⟨(hp fs hi).1, ih _ (hp fs hi).2⟩
  | get key k ih => exact fun fs hi => ⟨(hp fs hi).1, ih _ (hp fs hi).2⟩
  | set key v k ih => exact fun fs hi => ⟨(hp fs hi).1, ih _ (hp fs hi).2⟩
  | erase key k ih => exact fun fs hi => ⟨(hp fs hi).1, ih _ (hp fs hi).2⟩

/-- Programs that keep an invariant keep it together. -/
theorem steady_run {Q : Nat → Outcome α → Prop} {ts : List Nat} {s s' : ASys α} (hi : I s.fs)
    (hp : ∀ (i : Nat) p, s.progs[i]? = some p → p.Steady h I (Q i)) (hr : s.run h ts = some s') :
    I s'.fs ∧ s'.progs.length = s.progs.length ∧ ∀ (i : Nat) p, s'.progs[i]? = some p → p.Steady h I (Q i) := by
  induction ts generalizing s with
  | nil =>
    simp only [ASys.run, Option.some.injEq] at hr
    subst hr
    exact ⟨hi, rfl, hp⟩
  | cons t ts ih =>
    simp only [ASys.run, Option.bind_eq_some_iff] at hr
    obtain ⟨s1, h1, h2⟩ := hr
    simp only [ASys.advance, Option.bind_eq_some_iff, Option.map_eq_some_iff] at h1
    obtain ⟨p, e1, r, e2, rfl⟩ := h1
    have hs := hp t p e1
    have key : I r.2 ∧ r.1.Steady h I (Q t) := by
      cases p with
      | done x => simp [Prog.call] at e2
      | _ =>
        simp only [Prog.call, Option.some.injEq] at e2
        subst e2
        exact hs _ hi
    have hp' : ∀ (i : Nat) q, (s.progs.set t r.1)[i]? = some q → q.Steady h I (Q i) := by
      intro i q hq
      rw [List.getElem?_set] at hq
      split at hq
      · rename_i e
        subst e
        split at hq
        · simp only [Option.some.injEq] at hq
          subst hq
          exact key.2
        · simp at hq
      · exact hp i q hq
    obtain ⟨k1, k2, k3⟩ := ih key.1 hp' h2
    exact ⟨k1, by simpa using k2, k3⟩

/-! ## Programs of few calls -/

/-- At most one `get`. -/
def Prog.OneGet (key : Str) : Prog α → Prop
  | .done _ => True
  | .get k' k => k' = key ∧ ∀ r, ∃ x, k r = .done x
  | _ => False

/-- At most one `set`. -/
def Prog.OneSet (key : Str) : Prog α → Prop
  | .done _ => True
  | .set k' _ k => k' = key ∧ ∀ r, ∃ x, k r = .done x
  | _ => False

/-- At most a `get` and then a `set`. -/
def Prog.GetSet (key : Str) : Prog α → Prop
  | .get k' k => k' = key ∧ ∀ r, (k r).OneSet key
  | p => p.OneSet key

theorem storeGet_same (key : Str) (fs : Fs) : (storeGet h key fs).2 = fs := by
  have := (storeGet_ro h key).eq fs
  rw [this]

theorem Prog.OneGet.steady {key : Str} {p : Prog α} (hg : p.OneGet key) (hne : ∃ fs, I fs) :
    p.Steady h I fun r => ∃ fs, I fs ∧ r = (p.run h fs).1 := by
  cases p with
  | done r =>
    obtain ⟨fs, hfs⟩ := hne
    exact ⟨fs, hfs, rfl⟩
  | get k' k =>
    intro fs hi
    refine ⟨by rw [storeGet_same]; exact hi, ?_⟩
    obtain ⟨x, hx⟩ := hg.2 (storeGet h k' fs).1
    rw [hx]
    refine ⟨fs, hi, ?_⟩
    simp only [Prog.run]
    rw [hx]
    rfl
  | _ => exact hg.elim

theorem Prog.OneGet.bind {key : Str} {p : Prog α} {f : α → Prog β} (hg : p.OneGet key)
    (hf : ∀ a, ∃ x, f a = .done x) : (p.bind f).OneGet key := by
  have hd : ∀ r : Outcome α, ∃ x, (Prog.done r).bind f = .done x := by
    intro r
    cases r with
    | ok a => exact hf a
    | err e => exact ⟨_, rfl⟩
    | panic => exact ⟨_, rfl⟩
  cases p with
  | done r =>
    obtain ⟨x, hx⟩ := hd r
    rw [hx]; trivial
  | get k' k =>
    refine ⟨hg.1, fun r => ?_⟩
    obtain ⟨x, hx⟩ := hg.2 r
    simp only [hx]
    exact hd x
  | _ => exact hg.elim

theorem Prog.OneSet.bind {key : Str} {p : Prog α} {f : α → Prog β} (hg : p.OneSet key)
    (hf : ∀ a, ∃ x, f a = .done x) : (p.bind f).OneSet key := by
  have hd : ∀ r : Outcome α, ∃ x, (Prog.done r).bind f = .done x := by
    intro r
    cases r with
    | ok a => exact hf a
    | err e => exact ⟨_, rfl⟩
    | panic => exact ⟨_, rfl⟩
  cases p with
  | done r =>
    obtain ⟨x, hx⟩ := hd r
    rw [hx]; trivial
  | set k' v k =>
    refine ⟨hg.1, fun r => ?_⟩
    obtain ⟨x, hx⟩ := hg.2 r
    simp only [hx]
    exact hd x
  | _ => exact hg.elim

theorem Prog.OneSet.lift {key : Str} {o : Outcome α} {f : α → Prog β} (hf : ∀ a, (f a).OneSet key) :
    ((pLift o).bind f).OneSet key := by
  cases o with
  | ok a => exact hf a
  | err e => trivial
  | panic => trivial

theorem Prog.OneSet.getSet {key : Str} {p : Prog α} (hg : p.OneSet key) : p.GetSet key := by
  cases p <;> first | exact hg | exact hg.elim

theorem Prog.GetSet.lift {key : Str} {o : Outcome α} {f : α → Prog β} (hf : ∀ a, (f a).GetSet key) :
    ((pLift o).bind f).GetSet key := by
  cases o with
  | ok a => exact hf a
  | err e => trivial
  | panic => trivial

theorem Prog.OneGet.getSet {key : Str} {p : Prog α} {f : α → Prog β} (hg : p.OneGet key)
    (hf : ∀ a, (f a).OneSet key) : (p.bind f).GetSet key := by
  cases p with
  | done r =>
    cases r with
    | ok a => exact (hf a).getSet
    | err e => trivial
    | panic => trivial
  | get k' k =>
    refine ⟨hg.1, fun r => ?_⟩
    obtain ⟨x, hx⟩ := hg.2 r
    simp only [hx]
    cases x with
    | ok a => exact hf a
    | err e => trivial
    | panic => trivial
  | _ => exact hg.elim

end

section
variable {env : Env} {h : Hier} {path : Str} {m : ArrayMetadata} {t : RsType}

theorem oneGet_readChunk (pos : List Nat) : (readChunk env path m t pos).OneGet (chunkKey path m pos) := by
  show Prog.OneGet _ (Prog.bind _ _)
  cases assertInBounds m pos with
  | err e => trivial
  | panic => trivial
  | ok u =>
    refine ⟨rfl, fun r => ?_⟩
    cases r with
    | err e => exact ⟨_, rfl⟩
    | panic => exact ⟨_, rfl⟩
    | ok v =>
      cases v with
      | none => exact ⟨_, rfl⟩
      | some b =>
        show ∃ x, Prog.bind (pLift (readChunkBytes env.codecs env.native m t pos b)) _ = _
        cases readChunkBytes env.codecs env.native m t pos b <;> exact ⟨_, rfl⟩

theorem oneGet_readChunkInto (pos : List Nat) (buf : DataChunk t) :
    (readChunkInto env path m t pos buf).OneGet (chunkKey path m pos) := by
  show Prog.OneGet _ (Prog.bind _ _)
  cases assertInBounds m pos with
  | err e => trivial
  | panic => trivial
  | ok u =>
    refine ⟨rfl, fun r => ?_⟩
    cases r with
    | err e => exact ⟨_, rfl⟩
    | panic => exact ⟨_, rfl⟩
    | ok v =>
      cases v with
      | none => exact ⟨_, rfl⟩
      | some b =>
        show ∃ x, Prog.bind (pLift (readChunkIntoBytes env.codecs env.native m t pos b buf)) _ = _
        cases readChunkIntoBytes env.codecs env.native m t pos b buf <;> exact ⟨_, rfl⟩

theorem oneGet_readCoord (pos : List Nat) (buf : Option (DataChunk t)) :
    (readCoord env path m t pos buf).OneGet (chunkKey path m pos) := by
  cases buf with
  | none => exact (oneGet_readChunk pos).bind fun _ => ⟨_, rfl⟩
  | some b => exact (oneGet_readChunkInto pos b).bind fun _ => ⟨_, rfl⟩

theorem oneSet_writeChunk (c : DataChunk t) : (writeChunk env path m c).OneSet (chunkKey path m c.gridPosition) :=
  ⟨rfl, fun _ => ⟨_, rfl⟩⟩

theorem getSet_writeCoord (bbox : BBox) (fill : El t) (array : NdArr (El t)) (pos : List Nat)
    (existing : List (El t)) :
    (writeCoord env path m bbox fill array pos existing).GetSet (chunkKey path m pos) := by
  refine Prog.GetSet.lift fun _ => Prog.GetSet.lift fun _ => Prog.GetSet.lift fun _ => ?_
  split
  · exact ((oneSet_writeChunk _).bind fun _ => ⟨_, rfl⟩).getSet
  · refine (oneGet_readChunkInto _ _).getSet fun r => Prog.OneSet.lift fun _ => Prog.OneSet.lift fun _ =>
      Prog.OneSet.lift fun _ => ?_
    exact (oneSet_writeChunk _).bind fun _ => ⟨_, rfl⟩

theorem run_readCoord (pos : List Nat) (buf : Option (DataChunk t)) (fs : Fs) :
    (readCoord env path m t pos buf).run h fs = Zarr.readCoord env h path m t pos buf fs := by
  cases buf with
  | none => simp only [readCoord, Zarr.readCoord, Prog.run_bind, run_readChunk]; rfl
  | some b => simp only [readCoord, Zarr.readCoord, Prog.run_bind, run_readChunkInto]; rfl

theorem run_writeCoord (bbox : BBox) (fill : El t) (array : NdArr (El t)) (pos : List Nat) (ex : List (El t)) :
    (writeCoord env path m bbox fill array pos ex).run h = Zarr.writeCoord env h path m bbox fill array pos ex := by
  simp only [writeCoord, Zarr.writeCoord, writePartial, Zarr.writePartial, Prog.run_bind, run_ite,
    run_readChunkInto, run_writeChunk]
  rfl

/-! ## The invariant -/

/-- Reading a chunk depends on the contents of its file only. -/
theorem look_congr {fs fs' : Fs} {pos : List Nat} (hpl : Plain (h.loc (chunkKey path m pos))) (hwf : fs.WF)
    (hwf' : fs'.WF) (hc : fs.content (h.loc (chunkKey path m pos)) = fs'.content (h.loc (chunkKey path m pos))) :
    look env h path m t fs pos = look env h path m t fs' pos := by
  simp only [look, Zarr.readChunk, M.bind_apply, M.lift_apply]
  cases assertInBounds m pos with
  | err e => rfl
  | panic => rfl
  | ok u =>
    simp only [storeGet_eq hwf hpl, storeGet_eq hwf' hpl, hc]
    cases fs'.content (h.loc (chunkKey path m pos)) with
    | none => rfl
    | some b =>
      simp only [M.bind_apply, M.lift_apply]
      cases readChunkBytes env.codecs env.native m t pos b <;> rfl

/-- What holds at all times: the chunks in `P` are mixed, all other files are as in `fs0`. -/
structure MixInv (env : Env) (h : Hier) (path : Str) (m : ArrayMetadata) (t : RsType)
    (writes : List (List Nat × NdArr (El t))) (f : List Nat → El t) (P : List Nat → Prop) (fs0 fs : Fs) : Prop where
  wf : fs.WF
  mixed : ∀ pos, P pos → Mixed env h path m t writes f fs pos
  other : ∀ l, (∀ pos, P pos → l ≠ h.loc (chunkKey path m pos)) → fs.content l = fs0.content l

variable {writes : List (List Nat × NdArr (El t))} {f : List Nat → El t} {P : List Nat → Prop} {fs0 fs : Fs}

theorem stored_of_look {pos : List Nat} {c : DataChunk t} (hpl : Plain (h.loc (chunkKey path m pos))) (hwf : fs.WF)
    (hl : look env h path m t fs pos = .ok (some c)) : ∃ b, fs.get (h.loc (chunkKey path m pos)) = some (.file b) := by
  simp only [look, Zarr.readChunk, M.bind_apply, M.lift_apply] at hl
  cases ha : assertInBounds m pos with
  | err e => simp [ha] at hl
  | panic => simp [ha] at hl
  | ok u =>
    simp only [ha, storeGet_eq hwf hpl] at hl
    cases hc : fs.content (h.loc (chunkKey path m pos)) with
    | none => rw [hc] at hl; simp at hl
    | some b => exact ⟨b, Fs.content_eq_some.mp hc⟩

theorem writable_of_file {l : Loc} {b : Bytes} (hwf : fs.WF) (hb : fs.get l = some (.file b)) : Writable fs l := by
  refine ⟨fun x hx hne c hc => ?_, by rw [hb]; simp⟩
  rw [hwf.dir_of_prefix hx hne hb] at hc
  simp at hc

variable (hpl : ∀ pos, Plain (h.loc (chunkKey path m pos))) (hs : GoodSep m.separator)
  (hP : ∀ pos, P pos → pos.length = m.chunkShape.length)

include hpl hs hP in
/-- A `set` of bytes that some state with the invariant holds keeps the invariant. -/
theorem MixInv.set {pos : List Nat} {v : Bytes × Outcome Unit} {fs1 : Fs}
    (hi : MixInv env h path m t writes f P fs0 fs) (h1 : MixInv env h path m t writes f P fs0 fs1) (hpos : P pos)
    (hv : fs1.content (h.loc (chunkKey path m pos)) = some v.1) :
    (storeSet h (chunkKey path m pos) v fs).1 = v.2 ∧
      MixInv env h path m t writes f P fs0 (storeSet h (chunkKey path m pos) v fs).2 := by
  obtain ⟨c, f', e1, _⟩ := hi.mixed pos hpos
  obtain ⟨b, hb⟩ := stored_of_look (hpl pos) hi.wf e1
  obtain ⟨fs', e2, hwf', hget⟩ := (storeSet_spec v hi.wf (hpl pos)).1 (writable_of_file hi.wf hb)
  have hfr := (storeSet_frame hi.wf (hpl pos) e2).2
  rw [e2]
  have hc' : fs'.content (h.loc (chunkKey path m pos)) = some v.1 := by
    rw [Fs.content_eq_some, hget, setSpec, if_pos rfl]
  refine ⟨rfl, hwf', fun pos' hpos' => ?_, fun l hl => ?_⟩
  · by_cases he : pos' = pos
    · subst he
      obtain ⟨c, f', m1, m2⟩ := h1.mixed pos' hpos'
      refine ⟨c, f', ?_, m2⟩
      rw [← m1]
      exact look_congr (hpl pos') hwf' h1.wf (hc'.trans hv.symm)
    · obtain ⟨c, f', m1, m2⟩ := hi.mixed pos' hpos'
      refine ⟨c, f', ?_, m2⟩
      rw [← m1]
      refine look_congr (hpl pos') hwf' hi.wf (hfr _ fun e => he ?_)
      exact chunkKey_inj hs (by rw [hP _ hpos, hP _ hpos']) (by rw [e]; exact List.prefix_refl _)
  · rw [hfr l (hl pos hpos), hi.other l hl]

include hpl hs hP in
/-- A program that reads and then writes a chunk, if it keeps the invariant when it runs alone. -/
theorem Prog.GetSet.steady {α : Type} {pos : List Nat} {p : Prog α} (hg : p.GetSet (chunkKey path m pos))
    (hne : ∃ fs, MixInv env h path m t writes f P fs0 fs) (hpos : P pos)
    (hstep : ∀ fs, MixInv env h path m t writes f P fs0 fs → ∃ e fs', p.run h fs = (.ok e, fs') ∧
      MixInv env h path m t writes f P fs0 fs') :
    p.Steady h (MixInv env h path m t writes f P fs0) fun r => ∃ e, r = .ok e ∧ True := by
  -- the part after the `get`
  have one : ∀ q : Prog α, q.OneSet (chunkKey path m pos) → ∀ fs, MixInv env h path m t writes f P fs0 fs →
      (∃ e fs', q.run h fs = (.ok e, fs') ∧ MixInv env h path m t writes f P fs0 fs') →
      q.Steady h (MixInv env h path m t writes f P fs0) fun r => ∃ e, r = .ok e ∧ True := by
    rintro q hq fs hi ⟨e, fs', hrun, hi'⟩
    cases q with
    | done r =>
      simp only [Prog.run, M.lift_apply, Prod.mk.injEq] at hrun
      exact ⟨e, hrun.1, trivial⟩
    | set k' v k =>
      obtain ⟨rfl, hk⟩ := hq
      intro fs1 hi1
      obtain ⟨c, f', e1, _⟩ := hi.mixed pos hpos
      obtain ⟨b, hb⟩ := stored_of_look (hpl pos) hi.wf e1
      obtain ⟨fs2, e2, hwf2, hget⟩ := (storeSet_spec v hi.wf (hpl pos)).1 (writable_of_file hi.wf hb)
      obtain ⟨x, hx⟩ := hk v.2
      simp only [Prog.run, e2, hx, M.lift_apply, Prod.mk.injEq] at hrun
      obtain ⟨rfl, rfl⟩ := hrun
      obtain ⟨s1, s2⟩ := hi1.set hpl hs hP (v := v) hi' hpos
        (by rw [Fs.content_eq_some, hget, setSpec, if_pos rfl])
      rw [s1, hx]
      exact ⟨s2, e, rfl, trivial⟩
    | _ => exact hq.elim
  cases p with
  | get k' k =>
    intro fs hi
    refine ⟨by rw [storeGet_same]; exact hi, one _ (hg.2 _) fs hi ?_⟩
    obtain ⟨e, fs', hrun, hi'⟩ := hstep fs hi
    simp only [Prog.run, storeGet_same] at hrun
    exact ⟨e, fs', hrun, hi'⟩
  | _ =>
    obtain ⟨fs, hi⟩ := hne
    exact one _ hg fs hi (hstep fs hi)

/-! ## The loops -/

theorem update_append {α : Type} (ws ws' : List (List Nat × NdArr α)) (f : List Nat → α) :
    Spec.update (ws ++ ws') f = Spec.update ws' (Spec.update ws f) := by
  induction ws generalizing f with
  | nil => rfl
  | cons w ws ih =>
    obtain ⟨o, a⟩ := w
    exact ih _

theorem look_data (hsm : m.chunkShape.prod < 2 ^ 32) {pos : List Nat} {c : DataChunk t}
    (hl : look env h path m t fs pos = .ok (some c)) : c.data.length = m.chunkShape.prod := by
  rw [(look_some hl).2.2, Nat.mod_eq_of_lt hsm]

theorem steady_readCoord {pos : List Nat} (hpos : P pos) (hne : ∃ fs, MixInv env h path m t writes f P fs0 fs)
    (buf : Option (DataChunk t)) :
    (readCoord env path m t pos buf).Steady h (MixInv env h path m t writes f P fs0) fun r =>
      ∃ x, r = .ok x ∧ ∃ c f' fs, x = (true, some c) ∧ look env h path m t fs pos = .ok (some c) ∧
        SomeWrites m writes f f' pos ∧ ∀ g, Covers m.chunkShape pos g →
          c.data[linear m.order m.chunkShape (within m.chunkShape g)]? = some (f' g) := by
  refine ((oneGet_readCoord pos buf).steady hne).mono ?_
  rintro r ⟨fs, hi, rfl⟩
  obtain ⟨c, f', h1, h2, h3⟩ := hi.mixed pos hpos
  have h1' : look env h path m t fs pos = .ok (some c) := h1
  rw [run_readCoord, readCoord_eq, h1']
  exact ⟨_, rfl, c, f', fs, rfl, h1, h2, h3⟩

theorem steady_readLoop {bbox : BBox} (hk : ∀ k ∈ m.chunkShape, k ≠ 0) (hsm : m.chunkShape.prod < 2 ^ 32)
    (h1 : bbox.offset.length = bbox.shape.length) (h2 : m.chunkShape.length = bbox.shape.length)
    (hP : ∀ pos, P pos → pos.length = m.chunkShape.length)
    (hne : ∃ fs, MixInv env h path m t writes f P fs0 fs) (coords : List (List Nat)) (hc : ∀ pos ∈ coords, P pos)
    (arr : NdArr (El t)) (harr : arr.shape = bbox.shape) (buf : Option (DataChunk t)) :
    (readLoop env path m t bbox coords arr buf).Steady h (MixInv env h path m t writes f P fs0) fun r =>
      ∃ x, r = .ok x ∧ x.1.shape = bbox.shape ∧
        (∀ pos ∈ coords, ∃ f', SomeWrites m writes f f' pos ∧ ∀ i, Inside bbox.shape i →
          Covers m.chunkShape pos (shift bbox.offset i) → x.1.get i = f' (shift bbox.offset i)) ∧
        ∀ i, Inside bbox.shape i → (∀ pos ∈ coords, ¬ Covers m.chunkShape pos (shift bbox.offset i)) →
          x.1.get i = arr.get i := by
  induction coords generalizing arr buf with
  | nil => exact ⟨_, rfl, harr, by simp, fun _ _ _ => rfl⟩
  | cons pos rest ih =>
    have hpos := hc pos (by simp)
    refine (steady_readCoord hpos hne buf).bind ?_
    rintro _ ⟨c, f', fs, rfl, hl, hw, hd⟩
    simp only
    have hg := (look_some hl).2.1
    have h3 : c.gridPosition.length = bbox.shape.length := by rw [hg, hP _ hpos, h2]
    obtain ⟨arr1, e1⟩ := copyChunk_ok (m := m) (chunk := c) h1 h2 h3 harr (Nat.le_of_eq (look_data hsm hl).symm)
    obtain ⟨s1, s2⟩ := copyChunk_spec h1 h2 h3 harr e1
    rw [e1]
    refine Prog.Steady.mono (ih (fun p hp => hc p (by simp [hp])) arr1 s1 (some c)) ?_
    rintro _ ⟨x, rfl, x1, x2, x3⟩
    rw [hg] at s2
    refine ⟨x, rfl, x1, ?_, ?_⟩
    · intro pos' hp'
      by_cases hin : pos' ∈ rest
      · exact x2 pos' hin
      · have he : pos' = pos := by simpa [hin] using hp'
        subst he
        refine ⟨f', hw, fun i hi hcv => ?_⟩
        have hcv' := (covers_iff hk).mp hcv
        rw [x3 i hi fun p hp hcp => hin (by
          rw [((covers_iff hk).mp hcp).2.symm.trans hcv'.2] at hp
          exact hp)]
        have := (s2 i hi).1 hcv
        have hrel : rel (chunkOffset pos' m.chunkShape) (shift bbox.offset i)
            = within m.chunkShape (shift bbox.offset i) := by
          rw [← hcv'.2]
          exact rel_chunk
        rw [hrel, hd _ hcv] at this
        simpa using this.symm
    · intro i hi hn
      rw [x3 i hi fun p hp => hn p (by simp [hp])]
      exact (s2 i hi).2 (hn pos (by simp))

include hpl hs hP in
theorem steady_writeCoord {d : DataType} {offset : List Nat} {fill : El t} {array : NdArr (El t)} {pos : List Nat}
    (existing : List (El t)) (hb : Plain (segs h.base)) (hp : Plain (segs path))
    (hcodec : (codecOf env.codecs m.compressor).Lawful)
    (hcok : ∀ segs, ((codecOf env.codecs m.compressor).encode segs).2 = .ok ())
    (hl : m.shape.length = m.chunkShape.length) (hk : ∀ k ∈ m.chunkShape, k ≠ 0)
    (hd : effective m.dataType = some d) (hkind : kindOf d = kindOfRs t) (hsm : m.chunkShape.prod < 2 ^ 32)
    (hfill : effectiveFillValue env m t = .ok fill)
    (hw : (offset, array) ∈ writes) (hpos : P pos) (hov : OverlapsBoth m ⟨offset, array.shape⟩ pos)
    (hne : ∃ fs, MixInv env h path m t writes f P fs0 fs) :
    (writeCoord env path m ⟨offset, array.shape⟩ fill array pos existing).Steady h
      (MixInv env h path m t writes f P fs0) fun r => ∃ e, r = .ok e ∧ True := by
  refine (getSet_writeCoord _ fill array pos existing).steady hpl hs hP hne hpos fun fs hi => ?_
  obtain ⟨p, hp1, hp2, hp3⟩ := hov
  have hpl1 := (covers_iff hk).mp hp3
  have ho : offset.length = m.chunkShape.length := by have := InBox.length hp2; simp only at this; omega
  have ha : array.shape.length = m.chunkShape.length := by have := InBox.length hp2; simp only at this; omega
  obtain ⟨c, f', m1, m2, m3⟩ := hi.mixed pos hpos
  obtain ⟨b0, hb0⟩ := stored_of_look (hpl pos) hi.wf m1
  obtain ⟨e, fs', b, w1, w2, w3⟩ := writeCoord_ok (bbox := ⟨offset, array.shape⟩) (fill := fill) (array := array)
    (existing := existing) hi.wf hb hp hs hd hkind hsm hcok ho ha (hP _ hpos) rfl ⟨p, hp2, hp3⟩ ⟨_, m1⟩
    (writable_of_file hi.wf hb0)
  obtain ⟨s1, s2, ⟨v, s3, s4⟩, s5⟩ := writeCoord_spec (bbox := ⟨offset, array.shape⟩) hi.wf hb hp hs hcodec hl hk
    hfill ho ha (touches_of_overlap hk hl hp1 hp2 hp3) w1
  refine ⟨e, fs', by rw [run_writeCoord, w1], s1, fun pos' hpos' => ?_, fun l hlo => ?_⟩
  · by_cases he : pos' = pos
    · subst he
      classical
      refine ⟨⟨pos', v⟩, fun g => if InBox offset array.shape g then array.get (rel offset g) else f' g, s3, ?_, ?_⟩
      · obtain ⟨ws, k1, k2⟩ := m2
        refine ⟨ws ++ [(offset, array)], fun w hw' => ?_, fun g hg => ?_⟩
        · rcases List.mem_append.mp hw' with h' | h'
          · exact k1 w h'
          · rw [List.mem_singleton.mp h']; exact hw
        · rw [update_append]
          simp only [Spec.update, k2 g hg]
      · intro g hg
        have hg' := (covers_iff hk).mp hg
        have reads : ∀ x, Reads env h path m t fs' g x →
            v[linear m.order m.chunkShape (within m.chunkShape g)]? = some x := by
          rintro x (⟨c', r1, r2⟩ | ⟨r1, _⟩)
          · rw [hg'.2, s3] at r1
            simp only [Outcome.ok.injEq, Option.some.injEq] at r1
            subst r1
            exact r2
          · rw [hg'.2, s3] at r1
            simp at r1
        obtain ⟨q1, q2⟩ := s5 g hg'.1 hg'.2
        by_cases hin : InBox offset array.shape g
        · simp only [if_pos hin]
          exact reads _ (q1 hin)
        · simp only [if_neg hin]
          exact reads _ (q2 hin _ (.inl ⟨c, by rw [hg'.2]; exact m1, m3 g hg⟩))
    · obtain ⟨c', f'', n1, n2⟩ := hi.mixed pos' hpos'
      exact ⟨c', f'', (s2 pos' he).trans n1, n2⟩
  · rw [← hi.other l hlo]
    unfold Fs.content
    rw [w3 l, setSpec, if_neg (hlo pos hpos)]
    by_cases hc : l <+: h.loc (chunkKey path m pos) ∧ fs.get l = none
    · rw [if_pos hc, hc.2]
    · rw [if_neg hc]

include hpl hs hP in
theorem steady_writeLoop {d : DataType} {offset : List Nat} {fill : El t} {array : NdArr (El t)}
    (coords : List (List Nat))
    (existing : List (El t)) (hb : Plain (segs h.base)) (hp : Plain (segs path))
    (hcodec : (codecOf env.codecs m.compressor).Lawful)
    (hcok : ∀ segs, ((codecOf env.codecs m.compressor).encode segs).2 = .ok ())
    (hl : m.shape.length = m.chunkShape.length) (hk : ∀ k ∈ m.chunkShape, k ≠ 0)
    (hd : effective m.dataType = some d) (hkind : kindOf d = kindOfRs t) (hsm : m.chunkShape.prod < 2 ^ 32)
    (hfill : effectiveFillValue env m t = .ok fill)
    (hw : (offset, array) ∈ writes)
    (hc : ∀ pos ∈ coords, P pos ∧ OverlapsBoth m ⟨offset, array.shape⟩ pos)
    (hne : ∃ fs, MixInv env h path m t writes f P fs0 fs) :
    (writeLoop env path m ⟨offset, array.shape⟩ fill array coords existing).Steady h
      (MixInv env h path m t writes f P fs0) fun r => r = .ok () := by
  induction coords generalizing existing with
  | nil => exact rfl
  | cons pos rest ih =>
    exact (steady_writeCoord hpl hs hP existing hb hp hcodec hcok hl hk hd hkind hsm hfill hw
      (hc pos (by simp)).1 (hc pos (by simp)).2 hne).bind fun e _ => ih e fun p hp' => hc p (by simp [hp'])

/-! ## The calls -/

include hpl hs hP in
theorem steady_boxProg {d : DataType} {fill : El t} (c : BoxOp t) (hb : Plain (segs h.base)) (hp : Plain (segs path))
    (hcodec : (codecOf env.codecs m.compressor).Lawful)
    (hcok : ∀ segs, ((codecOf env.codecs m.compressor).encode segs).2 = .ok ())
    (hl : m.shape.length = m.chunkShape.length) (hn : m.shape ≠ []) (hk : ∀ k ∈ m.chunkShape, k ≠ 0)
    (hd : effective m.dataType = some d) (hkind : kindOf d = kindOfRs t) (hsm : m.chunkShape.prod < 2 ^ 32)
    (hfill : effectiveFillValue env m t = .ok fill) (hm : BoxMeetsArray m c.box)
    (hw : ∀ offset array, c = .write offset array → (offset, array) ∈ writes)
    (hc : ∀ pos, OverlapsBoth m c.box pos → P pos)
    (hne : ∃ fs, MixInv env h path m t writes f P fs0 fs) :
    (boxProg env path m c).Steady h (MixInv env h path m t writes f P fs0) fun r =>
      ∃ x, r = .ok x ∧ Served m writes f c x := by
  have hlen : c.box.offset.length = m.shape.length ∧ c.box.shape.length = m.shape.length := by
    obtain ⟨p, h1, h2⟩ := hm
    have := InBox.length h2
    have := Inside.length h1
    omega
  obtain ⟨it, hit⟩ := boundedCoordIter_exists (b := c.box) hlen.1 hk
  cases c with
  | write offset array =>
    refine Prog.Steady.record (Q := fun r => r = .ok ()) ?_ fun r hr => ⟨_, rfl, by rw [hr]; rfl⟩
    simp only [BoxOp.box] at hlen hit hm hc
    unfold writeNdarray
    rw [if_neg (by simpa using hlen.2), hfill]
    simp only
    rw [hit]
    exact steady_writeLoop hpl hs hP it.rest [] hb hp hcodec hcok hl hk hd hkind hsm hfill (hw _ _ rfl)
      (fun pos hpos => have ho := visited_overlap hl hn hk hm hit hpos; ⟨hc pos ho, ho⟩) hne
  | read b =>
    simp only [BoxOp.box] at hlen hit hm hc
    refine Prog.Steady.record (Q := fun r => ∃ a, r = .ok a ∧ a.shape = b.shape ∧ ∀ pos, OverlapsBoth m b pos →
      ∃ f', SomeWrites m writes f f' pos ∧ ∀ i, Inside b.shape i → Covers m.chunkShape pos (shift b.offset i) →
        a.get i = f' (shift b.offset i)) ?_ ?_
    · unfold readNdarray readNdarrayInto readNdarrayIntoWithBuffer
      rw [hfill]
      show Prog.Steady h _ _ (Prog.bind (if _ then _ else _) _)
      rw [if_neg (by simp [hlen.1, hlen.2, NdArr.fromElem]), if_neg (by simp [NdArr.fromElem]), hit]
      refine Prog.Steady.bind (Prog.Steady.mono (steady_readLoop (bbox := b) hk hsm (by omega) (by omega) hP hne
        it.rest (fun pos hpos => hc pos (visited_overlap hl hn hk hm hit hpos)) _ rfl none) fun r hr => hr) ?_
      rintro x ⟨x1, x2, _⟩
      refine ⟨x.1, rfl, x1, fun pos ho => x2 pos ?_⟩
      obtain ⟨p, o1, o2, o3⟩ := ho
      exact (mem_boundedCoordIter hl (by omega) hn hit).mpr (touches_of_overlap hk hl o1 o2 o3)
    · rintro r ⟨a, rfl, h1, h2⟩
      exact ⟨_, rfl, a, rfl, h1, h2⟩

include hpl hs hP in
theorem steady_boxThread {d : DataType} {fill : El t} (cs : List (BoxOp t)) (hb : Plain (segs h.base))
    (hp : Plain (segs path))
    (hcodec : (codecOf env.codecs m.compressor).Lawful)
    (hcok : ∀ segs, ((codecOf env.codecs m.compressor).encode segs).2 = .ok ())
    (hl : m.shape.length = m.chunkShape.length) (hn : m.shape ≠ []) (hk : ∀ k ∈ m.chunkShape, k ≠ 0)
    (hd : effective m.dataType = some d) (hkind : kindOf d = kindOfRs t) (hsm : m.chunkShape.prod < 2 ^ 32)
    (hfill : effectiveFillValue env m t = .ok fill) (hm : ∀ c ∈ cs, BoxMeetsArray m c.box)
    (hw : ∀ offset array, .write offset array ∈ cs → (offset, array) ∈ writes)
    (hc : ∀ c ∈ cs, ∀ pos, OverlapsBoth m c.box pos → P pos)
    (hne : ∃ fs, MixInv env h path m t writes f P fs0 fs) :
    (boxThread env path m cs).Steady h (MixInv env h path m t writes f P fs0) fun r =>
      ∃ rs, r = .ok rs ∧ rs.length = cs.length ∧
        ∀ (k : Nat) c x, cs[k]? = some c → rs[k]? = some x → Served m writes f c x := by
  induction cs with
  | nil => exact ⟨[], rfl, rfl, by simp⟩
  | cons c cs ih =>
    refine (steady_boxProg hpl hs hP c hb hp hcodec hcok hl hn hk hd hkind hsm hfill (hm c (by simp))
      (fun o a e => hw o a (by simp [e])) (hc c (by simp)) hne).bind fun x hx => ?_
    refine Prog.Steady.bind (ih (fun c hc' => hm c (by simp [hc'])) (fun o a ha => hw o a (by simp [ha]))
      fun c hc' => hc c (by simp [hc'])) ?_
    rintro rs ⟨r1, r2⟩
    refine ⟨x :: rs, rfl, by simp [r1], fun k c' y e1 e2 => ?_⟩
    cases k with
    | zero =>
      simp only [List.getElem?_cons_zero, Option.some.injEq] at e1 e2
      subst e1; subst e2
      exact hx
    | succ k => exact r2 k c' y (by simpa using e1) (by simpa using e2)

end

/-! ## The files a thread uses -/

section
variable {env : Env} {h : Hier} {path : Str} {m : ArrayMetadata} {t : RsType} {m0 : Mem} {S : Loc → Prop} {i : Nat}

/-- A thread with no files of its own. -/
abbrev Prog.SharesAll {α : Type} (h : Hier) (m0 : Mem) (S : Loc → Prop) (i : Nat) (p : Prog α) : Prop :=
  p.Shares h m0 (fun _ _ => False) S i

theorem Prog.SharesAll.bind {α β : Type} {p : Prog α} {f : α → Prog β} (hp : p.SharesAll h m0 S i)
    (hf : ∀ a, (f a).SharesAll h m0 S i) : (p.bind f).SharesAll h m0 S i :=
  Prog.Shares.bind hp hf

theorem shares_get {key : Str} (hp : Plain (h.loc key)) : (pGet key).SharesAll h m0 S i :=
  ⟨hp, fun _ h => h.elim, fun _ _ => trivial⟩

theorem shares_set {key : Str} {v : Bytes × Outcome Unit} (hp : Plain (h.loc key)) (hs : S (h.loc key)) :
    (pSet key v).SharesAll h m0 S i :=
  ⟨hp, .inr hs, trivial⟩

theorem shares_lift {α : Type} (o : Outcome α) : (pLift o).SharesAll h m0 S i := trivial

theorem shares_record {α β : Type} {p : Prog α} {f : Outcome α → β} (hp : p.SharesAll h m0 S i) :
    (p.record f).SharesAll h m0 S i := by
  induction p with
  | done r => trivial
  | «exists» key k ih => exact ⟨hp.1, hp.2.1, fun r hr => ih _ (hp.2.2 r hr)⟩
  | get key k ih => exact ⟨hp.1, hp.2.1, fun r hr => ih _ (hp.2.2 r hr)⟩
  | set key v k ih => exact ⟨hp.1, hp.2.1, ih _ hp.2.2⟩
  | erase key k ih => exact ⟨hp.1, hp.2.1, ih _ hp.2.2⟩

theorem shares_readChunk {pos : List Nat} (hpl : Plain (h.loc (chunkKey path m pos))) :
    (readChunk env path m t pos).SharesAll h m0 S i :=
  (shares_lift _).bind fun _ => (shares_get hpl).bind fun v => by
    cases v with
    | none => exact shares_lift _
    | some b => exact (shares_lift _).bind fun _ => shares_lift _

theorem shares_readChunkInto {pos : List Nat} {buf : DataChunk t} (hpl : Plain (h.loc (chunkKey path m pos))) :
    (readChunkInto env path m t pos buf).SharesAll h m0 S i :=
  (shares_lift _).bind fun _ => (shares_get hpl).bind fun v => by
    cases v with
    | none => exact shares_lift _
    | some b => exact (shares_lift _).bind fun _ => shares_lift _

theorem shares_readLoop {bbox : BBox} (coords : List (List Nat)) (arr : NdArr (El t)) (buf : Option (DataChunk t))
    (hpl : ∀ pos, Plain (h.loc (chunkKey path m pos))) :
    (readLoop env path m t bbox coords arr buf).SharesAll h m0 S i := by
  induction coords generalizing arr buf with
  | nil => exact shares_lift _
  | cons pos rest ih =>
    unfold readLoop
    refine Prog.SharesAll.bind ?_ fun r => ?_
    · cases buf with
      | none => exact (shares_readChunk (hpl pos)).bind fun _ => shares_lift _
      | some b => exact (shares_readChunkInto (hpl pos)).bind fun _ => shares_lift _
    · split
      · exact (shares_lift _).bind fun _ => ih _ _
      · exact ih _ _

theorem shares_readNdarray {bbox : BBox} (hpl : ∀ pos, Plain (h.loc (chunkKey path m pos))) :
    (readNdarray env path m t bbox).SharesAll h m0 S i := by
  refine (shares_lift _).bind fun fill => Prog.SharesAll.bind ?_ fun _ => shares_lift _
  unfold readNdarrayIntoWithBuffer
  split
  · exact shares_lift _
  split
  · exact shares_lift _
  exact (shares_lift _).bind fun _ => shares_readLoop _ _ _ hpl

theorem shares_writeCoord {bbox : BBox} {fill : El t} {array : NdArr (El t)} {pos : List Nat} {existing : List (El t)}
    (hpl : Plain (h.loc (chunkKey path m pos))) (hw : S (h.loc (chunkKey path m pos))) :
    (writeCoord env path m bbox fill array pos existing).SharesAll h m0 S i := by
  refine (shares_lift _).bind fun _ => (shares_lift _).bind fun _ => (shares_lift _).bind fun _ => ?_
  split
  · exact Prog.SharesAll.bind (shares_set hpl hw) fun _ => shares_lift _
  · refine (shares_readChunkInto hpl).bind fun r => (shares_lift _).bind fun _ => (shares_lift _).bind fun _ =>
      (shares_lift _).bind fun _ => ?_
    exact Prog.SharesAll.bind (shares_set hpl hw) fun _ => shares_lift _

theorem shares_writeLoop {bbox : BBox} {fill : El t} {array : NdArr (El t)} (coords : List (List Nat))
    (existing : List (El t)) (hpl : ∀ pos, Plain (h.loc (chunkKey path m pos)))
    (hw : ∀ pos ∈ coords, S (h.loc (chunkKey path m pos))) :
    (writeLoop env path m bbox fill array coords existing).SharesAll h m0 S i := by
  induction coords generalizing existing with
  | nil => exact shares_lift _
  | cons pos rest ih =>
    exact (shares_writeCoord (hpl pos) (hw pos (by simp))).bind fun e => ih e fun pos hp => hw pos (by simp [hp])

theorem shares_boxThread (cs : List (BoxOp t)) (hpl : ∀ pos, Plain (h.loc (chunkKey path m pos)))
    (hw : ∀ offset array, .write offset array ∈ cs → ∀ it, m.boundedCoordIter ⟨offset, array.shape⟩ = .ok it →
      ∀ pos ∈ it.rest, S (h.loc (chunkKey path m pos))) :
    (boxThread env path m cs).SharesAll h m0 S i := by
  induction cs with
  | nil => exact shares_lift _
  | cons c cs ih =>
    refine Prog.SharesAll.bind ?_ fun r => (ih fun o a ha => hw o a (by simp [ha])).bind fun rs => shares_lift _
    cases c with
    | read b => exact shares_record (shares_readNdarray hpl)
    | write offset array =>
      refine shares_record ?_
      unfold writeNdarray
      split
      · exact shares_lift _
      refine (shares_lift _).bind fun fill => ?_
      cases hit : m.boundedCoordIter ⟨offset, array.shape⟩ with
      | ok it => exact shares_writeLoop _ _ hpl (hw offset array (by simp) it hit)
      | err e => exact trivial
      | panic => exact trivial

end

/-! ## C116 -/

/-- The element at a point, after some writes, is the one that was there or one that a write put there. -/
theorem update_cases {α : Type} (ws : List (List Nat × NdArr α)) (f : List Nat → α) (g : List Nat) :
    Spec.update ws f g = f g ∨
      ∃ w ∈ ws, InBox w.1 w.2.shape g ∧ Spec.update ws f g = w.2.get (rel w.1 g) := by
  induction ws generalizing f with
  | nil => exact .inl rfl
  | cons w ws ih =>
    obtain ⟨o, a⟩ := w
    classical
    simp only [Spec.update]
    rcases ih (fun p => if InBox o a.shape p then a.get (rel o p) else f p) with h1 | ⟨w, h1, h2, h3⟩
    · by_cases hin : InBox o a.shape g
      · refine .inr ⟨(o, a), by simp, hin, ?_⟩
        rw [h1, if_pos hin]
      · left
        rw [h1, if_neg hin]
    · exact .inr ⟨w, by simp [h1], h2, h3⟩

/-- **C116 (elements).** Where some of the writes were made, an element is the one that was there at first
or one that a write put there; in particular it is the first one where no write has a box. -/
theorem C116_elements {α : Type} {m : ArrayMetadata} {writes : List (List Nat × NdArr α)} {f f' : List Nat → α}
    {pos g : List Nat} (hs : SomeWrites m writes f f' pos) (hg : Covers m.chunkShape pos g) :
    (f' g = f g ∨ ∃ w ∈ writes, InBox w.1 w.2.shape g ∧ f' g = w.2.get (rel w.1 g)) ∧
    ((∀ w ∈ writes, ¬ InBox w.1 w.2.shape g) → f' g = f g) := by
  obtain ⟨ws, h1, h2⟩ := hs
  have key : f' g = f g ∨ ∃ w ∈ writes, InBox w.1 w.2.shape g ∧ f' g = w.2.get (rel w.1 g) := by
    rw [h2 g hg]
    rcases update_cases ws f g with h3 | ⟨w, h3, h4, h5⟩
    · exact .inl h3
    · exact .inr ⟨w, h1 w h3, h4, h5⟩
  refine ⟨key, fun hn => ?_⟩
  rcases key with h3 | ⟨w, h3, h4, _⟩
  · exact h3
  · exact absurd h4 (hn w h3)

/-- **C116.** Threads read and write boxes of one array at the same time; the boxes may overlap and share
chunks in any way, and the system calls of the threads are interleaved in any way. The chunks they use
are stored, with the elements `f`. Then no call fails. What a read returns in one chunk, and what is in a
chunk when all threads have finished, is what some of the writes made one after the other make of the
chunk: a write is in it with all of its part of the chunk or not at all. No other file changes. The
threads do not wait forever and do not run forever. -/
theorem C116 (env : Env) (h : Hier) (path : Str) (m : ArrayMetadata) {t : RsType} (css : List (List (BoxOp t)))
    (fs : Fs) (f : List Nat → El t) (d : DataType) (fill : El t)
    (hwf : fs.WF) (hb : Plain (segs h.base)) (hp : Plain (segs path)) (hs : GoodSep m.separator)
    (hcodec : (codecOf env.codecs m.compressor).Lawful)
    (hcok : ∀ segs, ((codecOf env.codecs m.compressor).encode segs).2 = .ok ())
    (hl : m.shape.length = m.chunkShape.length) (hn : m.shape ≠ []) (hk : ∀ k ∈ m.chunkShape, k ≠ 0)
    (hd : effective m.dataType = some d) (hkind : kindOf d = kindOfRs t) (hsm : m.chunkShape.prod < 2 ^ 32)
    (hfill : effectiveFillValue env m t = .ok fill)
    (hbox : ∀ cs ∈ css, ∀ c ∈ cs, BoxMeetsArray m c.box)
    (hinit : ∀ cs ∈ css, ∀ c ∈ cs, ∀ pos, OverlapsBoth m c.box pos → ∃ ch,
      (Zarr.readChunk env h path m t pos fs).1 = .ok (some ch) ∧
      ∀ g, Covers m.chunkShape pos g →
        ch.data[linear m.order m.chunkShape (within m.chunkShape g)]? = some (f g)) :
    (∃ N, ∀ ts s, (Sys.initial fs (css.map (boxThread env path m))).run h ts = some s → ts.length ≤ N) ∧
    ∀ ts s, (Sys.initial fs (css.map (boxThread env path m))).run h ts = some s →
      ((∃ i, i < css.length ∧ s.result i = none) → ∃ j s', s.advance h j = some s') ∧
      (∀ (i : Nat) cs, css[i]? = some cs → ∀ r, s.result i = some r → ∃ rs, r = .ok rs ∧ rs.length = cs.length ∧
        ∀ (k : Nat) c x, cs[k]? = some c → rs[k]? = some x → Served m (boxWrites css.flatten) f c x) ∧
      ((∀ i, i < css.length → (s.result i).isSome) →
        (∀ cs ∈ css, ∀ c ∈ cs, ∀ pos, OverlapsBoth m c.box pos →
          Mixed env h path m t (boxWrites css.flatten) f s.fs pos) ∧
        ∀ l, (∀ cs ∈ css, ∀ c ∈ cs, ∀ pos, OverlapsBoth m c.box pos → l ≠ chunkLoc h path m.separator pos) →
          s.fs.content l = fs.content l) := by
  have hpl : ∀ pos, Plain (h.loc (chunkKey path m pos)) := plain_loc_chunk hb hp hs
  have hs' : m.separator = str!"/" ∨ '/' ∉ m.separator := hs.imp id (·.2)
  obtain ⟨⟨N, hN⟩, hprog⟩ := C80 h fs (css.map (boxThread env path m))
  refine ⟨⟨N, hN⟩, fun ts s hrun => ?_⟩
  let P : List Nat → Prop := fun pos => ∃ cs ∈ css, ∃ c ∈ cs, OverlapsBoth m c.box pos
  let S : Loc → Prop := fun l => ∃ pos, P pos ∧ l = h.loc (chunkKey path m pos)
  have hP : ∀ pos, P pos → pos.length = m.chunkShape.length := by
    rintro pos ⟨_, _, _, _, _, _, _, hc⟩
    exact (Covers.length hc).2
  have hI : MixInv env h path m t (boxWrites css.flatten) f P fs fs := by
    refine ⟨hwf, ?_, fun _ _ => rfl⟩
    rintro pos ⟨cs, h1, c, h2, h3⟩
    obtain ⟨ch, h4, h5⟩ := hinit cs h1 c h2 pos h3
    exact ⟨ch, f, h4, ⟨[], by simp, fun _ _ => rfl⟩, h5⟩
  have hlay : Layout fs (fun _ _ => False) S := by
    refine ⟨hwf, fun _ _ h => h.elim, fun _ _ _ _ h => h.elim, ?_, fun _ _ h => h.elim⟩
    rintro l ⟨pos, h1, rfl⟩
    obtain ⟨c, f', e1, _⟩ := hI.mixed pos h1
    exact stored_of_look (hpl pos) hwf e1
  have hsh : ∀ (i : Nat) p, (css.map (boxThread env path m))[i]? = some p →
      p.Shares h fs.content (fun _ _ => False) S i := by
    intro i p hi
    rw [List.getElem?_map] at hi
    obtain ⟨cs, h1, rfl⟩ := Option.map_eq_some_iff.mp hi
    have hmem := List.mem_of_getElem? h1
    exact shares_boxThread cs hpl fun o a ha it hit pos hpos =>
      ⟨pos, ⟨cs, hmem, _, ha, visited_overlap hl hn hk (hbox cs hmem _ ha) hit hpos⟩, rfl⟩
  have hmemW : ∀ (xs : List (BoxOp t)) o a, .write o a ∈ xs → (o, a) ∈ boxWrites xs := by
    intro xs o a
    induction xs with
    | nil => simp
    | cons x xs ih =>
      intro hx
      rcases List.mem_cons.mp hx with h1 | h1
      · subst h1; simp [boxWrites]
      · cases x <;> simp [boxWrites, ih h1]
  have hst : ∀ (i : Nat) p, (css.map (boxThread env path m))[i]? = some p →
      p.Steady h (MixInv env h path m t (boxWrites css.flatten) f P fs) fun r => ∀ cs, css[i]? = some cs →
        ∃ rs, r = .ok rs ∧ rs.length = cs.length ∧
          ∀ (k : Nat) c x, cs[k]? = some c → rs[k]? = some x → Served m (boxWrites css.flatten) f c x := by
    intro i p hi
    rw [List.getElem?_map] at hi
    obtain ⟨cs, h1, rfl⟩ := Option.map_eq_some_iff.mp hi
    have hmem := List.mem_of_getElem? h1
    refine Prog.Steady.mono (steady_boxThread hpl hs hP cs hb hp hcodec hcok hl hn hk hd hkind hsm hfill
      (hbox cs hmem) (fun o a ha => hmemW _ o a (List.mem_flatten.mpr ⟨cs, hmem, ha⟩))
      (fun c hc pos ho => ⟨cs, hmem, c, hc, ho⟩) ⟨fs, hI⟩) fun r hr cs' e => ?_
    rw [h1] at e
    simp only [Option.some.injEq] at e
    subst e
    exact hr
  obtain ⟨bs, hbs, hsim⟩ := (Sim.init hlay hsh).run hlay hrun
  obtain ⟨a, ha, hS⟩ := hsim ts.length s (by rw [List.take_length]; exact hrun)
  obtain ⟨q1, q2, q3⟩ := steady_run (I := MixInv env h path m t (boxWrites css.flatten) f P fs) hI hst ha
  have hlenA : a.progs.length = css.length := by rw [q2]; simp
  have hres : ∀ (i : Nat) r, s.result i = some r → s.pcs[i]? = some (.prog (.done r)) := by
    intro i r hr
    unfold Sys.result at hr
    split at hr
    · rename_i e
      simp only [Option.some.injEq] at hr
      rw [e, hr]
    · simp at hr
  refine ⟨fun ⟨i, h1, h2⟩ => (hprog ts s hrun).1 ⟨i, by simpa using h1, h2⟩, ?_, ?_⟩
  · intro i cs hi r hr
    have e := hres i r hr
    have hlt : i < a.progs.length := by rw [hS.len]; exact (List.getElem?_eq_some_iff.mp e).1
    have hq := List.getElem?_eq_getElem hlt
    have e2 := (hS.thr i _ _ e hq).2
    simp only at e2
    have := q3 i _ hq
    rw [e2] at this
    exact this cs hi
  · intro hall
    have hcon : s.fs.content = a.fs.content := by
      funext l
      refine hS.clean l fun i pc e => ?_
      have hlt : i < css.length := by rw [← hlenA, hS.len]; exact (List.getElem?_eq_some_iff.mp e).1
      obtain ⟨r, hr⟩ := Option.isSome_iff_exists.mp (hall i hlt)
      rw [hres i r hr] at e
      simp only [Option.some.injEq] at e
      subst e
      exact fun x => x
    refine ⟨fun cs h1 c h2 pos h3 => ?_, fun l hlo => ?_⟩
    · obtain ⟨ch, f', e1, e2⟩ := q1.mixed pos ⟨cs, h1, c, h2, h3⟩
      refine ⟨ch, f', ?_, e2⟩
      rw [← e1]
      exact look_congr (hpl pos) hS.change.wf q1.wf (congrFun hcon _)
    · rw [hcon]
      refine q1.other l ?_
      rintro pos ⟨cs, h1, c, h2, h3⟩
      have := hlo cs h1 c h2 pos h3
      rwa [← loc_chunkKey hs'] at this

/-! ### Example -/

/-- The example array with its second chunk stored: its elements are 258 and 7. -/
def demoMixFs : Fs := (Zarr.writeChunk Demo.env Demo.hier Demo.path Demo.arr Demo.chunk Demo.emptyFs).2

/-- One thread writes the first element of the chunk and reads the chunk, one writes the second, one
writes both, one reads the chunk. -/
def demoMix : List (List (BoxOp .u16)) :=
  [[.write [2] (demoCell 1), .read ⟨[2], [2]⟩], [.write [3] (demoCell 2)],
   [.write [2] ⟨[2], fun _ => 3#16⟩], [.read ⟨[2], [2]⟩]]

theorem demoMix_chunk (pos : List Nat) (cs : List (BoxOp .u16)) (hcs : cs ∈ demoMix) (c : BoxOp .u16) (hc : c ∈ cs)
    (ho : OverlapsBoth Demo.arr c.box pos) : pos = [1] := by
  have : ∃ n x, c.box = ⟨[n], [x]⟩ ∧ 2 ≤ n ∧ n + x ≤ 4 := by
    simp only [demoMix, List.mem_cons, List.not_mem_nil, or_false] at hcs
    rcases hcs with rfl | rfl | rfl | rfl <;> simp only [List.mem_cons, List.not_mem_nil, or_false] at hc
    · rcases hc with rfl | rfl
      · exact ⟨2, 1, rfl, by decide, by decide⟩
      · exact ⟨2, 2, rfl, by decide, by decide⟩
    · subst hc; exact ⟨3, 1, rfl, by decide, by decide⟩
    · subst hc; exact ⟨2, 2, rfl, by decide, by decide⟩
    · subst hc; exact ⟨2, 2, rfl, by decide, by decide⟩
  obtain ⟨n, x, e, h1, h2⟩ := this
  rw [e] at ho
  obtain ⟨k, rfl, h3, h4⟩ := demoBoxes_overlap _ _ _ ho
  have : k = 1 := by omega
  rw [this]

/-- They meet the hypotheses of C116: however the system calls are interleaved, no call fails, the first
element ends up as 258, 1 or 3 and the second as 7, 2 or 3. -/
example (ts : List Nat) (s : Sys (List (BoxResult .u16)))
    (hrun : (Sys.initial demoMixFs (demoMix.map (boxThread Demo.env Demo.path Demo.arr))).run Demo.hier ts = some s)
    (hall : ∀ i, i < 4 → (s.result i).isSome) :
    s.result 1 = some (.ok [.wrote (.ok ())]) ∧
    ∃ (c : DataChunk .u16) (x y : El .u16),
      (Zarr.readChunk Demo.env Demo.hier Demo.path Demo.arr .u16 [1] s.fs).1 = .ok (some c) ∧
      c.data[0]? = some x ∧ c.data[1]? = some y ∧
      (x = 258#16 ∨ x = 1#16 ∨ x = 3#16) ∧ (y = 7#16 ∨ y = 2#16 ∨ y = 3#16) := by
  obtain ⟨_, hC⟩ := C116 Demo.env Demo.hier Demo.path Demo.arr demoMix demoMixFs
    (fun g => if g = [2] then 258#16 else 7#16) (.uint .B2 .big) 0#16 (storeSet_wf Demo.emptyFs_wf (by decide))
    (by decide) (by decide) (.inl rfl) rawCodec_lawful (fun _ => rfl) rfl (by decide) (by decide) rfl rfl (by decide) rfl
    (by
      simp only [demoMix, List.forall_mem_cons, List.not_mem_nil, false_imp_iff, implies_true, and_true]
      exact ⟨⟨demoBoxes_meets 2 1 (by decide) (by decide), demoBoxes_meets 2 2 (by decide) (by decide)⟩,
        demoBoxes_meets 3 1 (by decide) (by decide), demoBoxes_meets 2 2 (by decide) (by decide),
        demoBoxes_meets 2 2 (by decide) (by decide)⟩)
    (by
      intro cs hcs c hc pos ho
      rw [demoMix_chunk pos cs hcs c hc ho]
      refine ⟨Demo.chunk, by decide +kernel, fun g hg => ?_⟩
      match g, hg with
      | [x], hg =>
        simp only [Covers, Demo.arr] at hg
        have : x = 2 ∨ x = 3 := by omega
        rcases this with rfl | rfl <;> rfl)
  obtain ⟨_, k1, k2⟩ := hC ts s hrun
  refine ⟨?_, ?_⟩
  · obtain ⟨r, hr⟩ := Option.isSome_iff_exists.mp (hall 1 (by decide))
    obtain ⟨rs, rfl, h1, h2⟩ := k1 1 [.write [3] (demoCell 2)] rfl r hr
    match rs, h1, h2 with
    | [x], _, h2 =>
      have : x = .wrote (.ok ()) := h2 0 _ x rfl rfl
      rw [hr, this]
  · obtain ⟨c, f', h1, h2, h3⟩ := (k2 hall).1 [.read ⟨[2], [2]⟩] (by simp [demoMix]) (.read ⟨[2], [2]⟩) (by simp) [1]
      ⟨[2], by simp [Inside, Demo.arr], by simp [InBox, BoxOp.box], by simp [Covers, Demo.arr]⟩
    have c2 : Covers Demo.arr.chunkShape [1] [2] := by simp [Covers, Demo.arr]
    have c3 : Covers Demo.arr.chunkShape [1] [3] := by simp [Covers, Demo.arr]
    have e2 := h3 [2] c2
    have e3 := h3 [3] c3
    have i2 : linear Demo.arr.order Demo.arr.chunkShape (within Demo.arr.chunkShape [2]) = 0 := by decide
    have i3 : linear Demo.arr.order Demo.arr.chunkShape (within Demo.arr.chunkShape [3]) = 1 := by decide
    rw [i2] at e2
    rw [i3] at e3
    refine ⟨c, _, _, h1, e2, e3, ?_, ?_⟩
    · rcases (C116_elements h2 c2).1 with h | ⟨w, hw, hb, h⟩
      · left; rw [h]; rfl
      · right
        simp only [demoMix, List.flatten_cons, List.flatten_nil, List.cons_append, List.nil_append, boxWrites,
          List.mem_cons, List.not_mem_nil, or_false] at hw
        rcases hw with rfl | rfl | rfl
        · left; rw [h]; rfl
        · simp [InBox, demoCell] at hb
        · right; rw [h]
    · rcases (C116_elements h2 c3).1 with h | ⟨w, hw, hb, h⟩
      · left; rw [h]; rfl
      · right
        simp only [demoMix, List.flatten_cons, List.flatten_nil, List.cons_append, List.nil_append, boxWrites,
          List.mem_cons, List.not_mem_nil, or_false] at hw
        rcases hw with rfl | rfl | rfl
        · simp [InBox, demoCell] at hb
        · left; rw [h]; rfl
        · right; rw [h]

end Threads
end Zarr
