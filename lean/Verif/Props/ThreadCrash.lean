import Verif.Lemmas.Sessions
import Verif.Props.CrashCalls
/-!
# A process with several threads dies: C103
-/

namespace Zarr

open Spec

/-! ## Specification -/

/-- The calls that have returned, one thread after the other. -/
def Spec.finishedCalls (css : List (List WCall)) (counts : List Nat) : List WCall :=
  (List.zipWith (fun cs n => cs.take n) css counts).flatten

namespace Wide

/-- How many calls of each thread have returned. -/
def Sessions.counts {α : Type} (s : Sessions α) : List Nat := s.threads.map fun σ => σ.returned.length

/-- A call that has begun and has not returned. -/
def Sessions.Pending {α : Type} (s : Sessions α) (css : List (List WCall)) (c : WCall) : Prop :=
  ∃ (i : Nat) (cs : List WCall) (σ : Session α), css[i]? = some cs ∧ s.threads[i]? = some σ ∧ σ.current.isSome ∧
    cs[σ.returned.length]? = some c

/-! ## A call changes nothing twice -/

section
variable {α β : Type} {h : Hier} {env : Env} {md : List Str → ArrayMetadata}

theorem of_bind (p : Threads.Prog α) (f : α → Threads.Prog β) :
    Prog.of (p >>= f) = (Prog.of p).bind fun a => Prog.of (f a) := by
  rw [Threads.Prog.bind_def]
  induction p with
  | done r => cases r <;> rfl
  | «exists» key k ih => simp only [Threads.Prog.bind, Prog.of, Prog.bind, ih]
  | get key k ih => simp only [Threads.Prog.bind, Prog.of, Prog.bind, ih]
  | set key v k ih => simp only [Threads.Prog.bind, Prog.of, Prog.bind, ih]
  | erase key k ih => simp only [Threads.Prog.bind, Prog.of, Prog.bind, ih]

theorem of_record (p : Threads.Prog α) (f : Outcome α → β) : Prog.of (p.record f) = (Prog.of p).record f := by
  induction p with
  | done r => rfl
  | «exists» key k ih => simp only [Threads.Prog.record, Prog.of, Prog.record, ih]
  | get key k ih => simp only [Threads.Prog.record, Prog.of, Prog.record, ih]
  | set key v k ih => simp only [Threads.Prog.record, Prog.of, Prog.record, ih]
  | erase key k ih => simp only [Threads.Prog.record, Prog.of, Prog.record, ih]

/-- A program that changes nothing. -/
theorem once_of_reads {N V : Loc → Prop} {P : Prog α} (hu : P.Uses h N V fun _ => False) (A : Loc → Prop) :
    P.Once h A := by
  induction P with
  | done r => trivial
  | «exists» key k ih => exact fun r => ih r (hu.2.2 r)
  | get key k ih => exact fun r => ih r (hu.2.2 r)
  | set key v k ih => exact hu.2.1.elim
  | erase key k ih => exact hu.2.1.elim
  | erasePrefix key k ih => exact hu.2.1.elim
  | listDir key k ih => exact fun r => ih r (hu.2.2 r)

/-- Reading first. -/
theorem once_then {p : Threads.Prog α} {f : α → Threads.Prog β} {A : Loc → Prop}
    (hp : (Prog.of p).Once h fun _ => False) (hf : ∀ a, (Prog.of (f a)).Once h A) : (Prog.of (p >>= f)).Once h A := by
  rw [of_bind]
  exact hp.bind hf (fun _ h => h.elim) (fun _ h => h) fun _ h => h.elim

theorem once_ite {p q : Threads.Prog α} {A : Loc → Prop} {c : Prop} [Decidable c] (hp : (Prog.of p).Once h A)
    (hq : (Prog.of q).Once h A) : (Prog.of (if c then p else q)).Once h A := by
  split
  · exact hp
  · exact hq

theorem once_exists {key : Str} {A : Loc → Prop} : (Prog.of (Threads.pExists key)).Once h A := fun _ => trivial
theorem once_get {key : Str} {A : Loc → Prop} : (Prog.of (Threads.pGet key)).Once h A := fun _ => trivial
theorem once_lift {r : Outcome α} {A : Loc → Prop} : (Prog.of (Threads.pLift r)).Once h A := trivial
theorem once_pure {r : α} {A : Loc → Prop} : (Prog.of (pure r)).Once h A := trivial
theorem once_set {key : Str} {v : Bytes × Outcome Unit} {A : Loc → Prop} (h1 : Plain (h.loc key)) (h2 : A (h.loc key)) :
    (Prog.of (Threads.pSet key v)).Once h A := ⟨h1, h2, fun _ => trivial⟩
theorem once_erase {key : Str} {A : Loc → Prop} (h1 : Plain (h.loc key)) (h2 : A (h.loc key)) :
    (Prog.of (Threads.pErase key)).Once h A := ⟨h1, h2, fun _ => trivial⟩

/-- The rest of a program after the choice of metadata key. -/
theorem once_key {p : Str} {f : Str → Threads.Prog α} {A : Loc → Prop}
    (ha : (Prog.of (f (arrayMetadataKey h.entry p))).Once h A)
    (hg : (Prog.of (f (groupMetadataKey h.entry p))).Once h A) :
    (Prog.of (Threads.nodeMetadataKey h p >>= f)).Once h A := by
  intro r
  cases r with
  | err e => trivial
  | panic => trivial
  | ok a =>
    cases a with
    | true => exact ha
    | false =>
      intro r
      cases r with
      | err e => trivial
      | panic => trivial
      | ok a =>
        cases a with
        | true => exact hg
        | false => trivial

section
variable {path : Str} {m : ArrayMetadata} {t : RsType}

theorem once_readChunkInto {pos : List Nat} {buf : DataChunk t} {A : Loc → Prop} :
    (Prog.of (Threads.readChunkInto env path m t pos buf)).Once h A :=
  once_then once_lift fun _ => once_then once_get fun v => by
    cases v with
    | none => exact once_pure
    | some b => exact once_then once_lift fun _ => once_pure

theorem once_writeCoord {bbox : BBox} {fill : El t} {array : NdArr (El t)} {pos : List Nat} {existing : List (El t)}
    (hpl : Plain (h.loc (chunkKey path m pos))) :
    (Prog.of (Threads.writeCoord env path m bbox fill array pos existing)).Once h
      fun l => l = h.loc (chunkKey path m pos) := by
  refine once_then once_lift fun _ => once_then once_lift fun _ => once_then once_lift fun _ => once_ite ?_ ?_
  · rw [of_bind]
    exact (once_set hpl (A := fun l => l = h.loc (chunkKey path m pos)) rfl).bind (B := fun _ => False)
      (fun _ => trivial) (fun _ h => h) (fun _ h => h.elim) fun _ _ h => h
  · refine once_then once_readChunkInto fun r => once_then once_lift fun _ => once_then once_lift fun _ =>
      once_then once_lift fun _ => ?_
    rw [of_bind]
    exact (once_set hpl (A := fun l => l = h.loc (chunkKey path m pos)) rfl).bind (B := fun _ => False)
      (fun _ => trivial) (fun _ h => h) (fun _ h => h.elim) fun _ _ h => h

theorem once_writeLoop {bbox : BBox} {fill : El t} {array : NdArr (El t)} (coords : List (List Nat))
    (existing : List (El t)) (hpl : ∀ pos, Plain (h.loc (chunkKey path m pos))) (hnd : coords.Nodup)
    (hinj : ∀ pos ∈ coords, ∀ pos' ∈ coords, h.loc (chunkKey path m pos) = h.loc (chunkKey path m pos') → pos = pos') :
    (Prog.of (Threads.writeLoop env path m bbox fill array coords existing)).Once h
      fun l => ∃ pos ∈ coords, l = h.loc (chunkKey path m pos) := by
  induction coords generalizing existing with
  | nil => exact once_pure
  | cons pos rest ih =>
    rw [List.nodup_cons] at hnd
    unfold Threads.writeLoop
    rw [of_bind]
    refine (once_writeCoord (hpl pos)).bind (B := fun l => ∃ pos ∈ rest, l = h.loc (chunkKey path m pos))
      (fun e => ih e hnd.2 fun p hp q hq => hinj p (by simp [hp]) q (by simp [hq])) ?_ ?_ ?_
    · rintro l rfl; exact ⟨pos, by simp, rfl⟩
    · rintro l ⟨p, hp, rfl⟩; exact ⟨p, by simp [hp], rfl⟩
    · rintro l rfl ⟨p, hp, e⟩
      have := hinj pos (by simp) p (by simp [hp]) e
      subst this
      exact hnd.1 hp

end

/-- No position is visited twice. -/
theorem visited_nodup {m : ArrayMetadata} {b : BBox} (hf : BoxMeetsChunks m b) : (visited m b).Nodup := by
  obtain ⟨p, h1, h2⟩ := hf.meets
  have := Zarr.InBox.length h2
  have := Inside.length h1
  obtain ⟨it, xs, h1, h2, h3, _⟩ := C16_partial m b hf.dims hf.pos hf.some (by omega) (by omega)
  unfold visited
  rw [h1]
  simp only
  rw [← yields_iff.mp h2]
  refine h3.imp fun {a b} hlt he => ?_
  subst he
  exact List.lt_irrefl a hlt

/-- A call changes only what is below its roots, and nothing twice. -/
theorem once_call {c : WCall} (hb : Plain (segs h.base)) (hsfx : GoodSuffix h.entry)
    (hdot : '.' ∉ stripDot h.entry.metadataKeySuffix) (hs : ∀ q, GoodSep (md q).separator) (hok : c.Fits h md) :
    (callProg env h md c).Once h fun l => c.changes = true ∧ Under (rootsOf h md c) l := by
  by_cases hch : c.changes = false
  · refine once_of_reads (N := fun _ => True) (V := fun _ => True) ?_ _
    exact uses_call hb hsfx hdot hs hok (fun _ _ => trivial) (fun _ _ => .inl trivial) (by simp [hch]) fun _ h => h.elim
  have docs : ∀ q, OrdinaryPath h q → Plain (h.loc (arrayMetadataKey h.entry q)) ∧
      Plain (h.loc (groupMetadataKey h.entry q)) ∧ h.loc (arrayMetadataKey h.entry q) = docLoc h str!"array" q ∧
      h.loc (groupMetadataKey h.entry q) = docLoc h str!"group" q := by
    intro q hq
    refine ⟨?_, ?_, loc_arrayKey hsfx hq.plain, loc_groupKey hsfx hq.plain⟩
    · rw [loc_arrayKey hsfx hq.plain]; exact plain_docLoc hb hq.plain (by simp)
    · rw [loc_groupKey hsfx hq.plain]; exact plain_docLoc hb hq.plain (by simp)
  have hend : ∀ {γ δ : Type} {P : Prog γ} {f : γ → δ} {A : Loc → Prop}, P.Once h A →
      (P.bind fun r => .done (.ok (f r))).Once h A := fun hp =>
    hp.bind (B := fun _ => False) (fun _ => trivial) (fun _ h => h) (fun _ h => h.elim) fun _ _ h => h
  have hroot : ∀ {r}, r ∈ rootsOf h md c → c.changes = true ∧ Under (rootsOf h md c) r := fun hr =>
    ⟨by simpa using hch, _, hr, List.prefix_rfl⟩
  cases c with
  | listNodes p => exact absurd rfl hch
  | call c =>
    cases c with
    | readBox p t b => exact absurd rfl hch
    | writeBox p t o a =>
      refine Prog.Once.record (once_ite once_lift (once_then once_lift fun fill => ?_))
      cases hit : (md (segs p)).boundedCoordIter ⟨o, a.shape⟩ with
      | err e => exact trivial
      | panic => exact trivial
      | ok it =>
        have hv : visited (md (segs p)) ⟨o, a.shape⟩ = it.rest := by unfold visited; rw [hit]
        have hlen := fun pos hp => (visited_spec hok.2 (pos := pos) hp).2
        have hnd := visited_nodup hok.2
        rw [hv] at hlen hnd
        refine (once_writeLoop it.rest [] (plain_loc_chunk hb hok.1.plain (hs _)) hnd fun x hx y hy e =>
          Threads.chunkKey_inj (hs _) ((hlen x hx).trans (hlen y hy).symm) (by rw [e]; exact List.prefix_rfl)).mono ?_
        rintro l ⟨pos, hp, rfl⟩
        exact hroot (List.mem_map.mpr ⟨pos, mem_visited hit hp, rfl⟩)
    | call c =>
      cases c with
      | nodeExists p => exact absurd rfl hch
      | arrayExists p => exact absurd rfl hch
      | getArrayMetadata p => exact absurd rfl hch
      | listAttributes p => exact absurd rfl hch
      | readChunk p t pos => exact absurd rfl hch
      | createGroup p =>
        obtain ⟨h1, h2, h3, h4⟩ := docs p hok
        refine hend (by
          rw [of_record]
          refine Prog.Once.record (once_then once_exists fun _ => once_ite once_lift (once_then once_exists fun _ =>
            once_ite once_pure (once_set h2 ?_)))
          rw [h4]; exact hroot (by simp [rootsOf, docRoots]))
      | createArray p m =>
        obtain ⟨h1, h2, h3, h4⟩ := docs p hok
        refine hend (by
          rw [of_record]
          refine Prog.Once.record (once_then once_exists fun _ => once_ite once_lift (once_then once_exists fun _ =>
            once_ite once_lift (once_set h1 ?_)))
          rw [h3]; exact hroot (by simp [rootsOf, docRoots]))
      | setAttributes p b =>
        obtain ⟨h1, h2, h3, h4⟩ := docs p hok
        refine hend (by
          rw [of_record]
          refine Prog.Once.record (once_key ?_ ?_)
          · refine once_then once_get fun _ => once_then once_lift fun _ => once_then once_lift fun _ =>
              once_then once_lift fun _ => once_ite (once_set h1 ?_) once_pure
            rw [h3]; exact hroot (by simp [rootsOf, docRoots])
          · refine once_then once_get fun _ => once_then once_lift fun _ => once_then once_lift fun _ =>
              once_then once_lift fun _ => once_ite (once_set h2 ?_) once_pure
            rw [h4]; exact hroot (by simp [rootsOf, docRoots]))
      | writeChunk p t c =>
        refine hend (by
          rw [of_record]
          exact Prog.Once.record (once_set (plain_loc_chunk hb hok.1.plain (hs _) _) (hroot (by simp [rootsOf]))))
      | deleteChunk p pos =>
        refine hend (by
          rw [of_record]
          exact Prog.Once.record (once_erase (plain_loc_chunk hb hok.1.plain (hs _) _) (hroot (by simp [rootsOf]))))
      | remove p =>
        obtain ⟨h1, h2, h3, h4⟩ := docs p hok
        have hd : h.loc (dataPathKey p) = dataLoc h p := loc_dataKey h p
        refine Prog.Once.record ?_
        refine Prog.Once.bind (P := .erase _ .done) (A := fun l => l = docLoc h str!"group" p)
          (B := fun l => l = docLoc h str!"array" p ∨ dataLoc h p <+: l) ⟨h2, h4, fun _ => trivial⟩ (fun _ => ?_) ?_ ?_ ?_
        · refine Prog.Once.bind (P := .erase _ .done) (A := fun l => l = docLoc h str!"array" p)
            (B := fun l => dataLoc h p <+: l) ⟨h1, h3, fun _ => trivial⟩ (fun _ => ?_) (fun _ e => .inl e)
            (fun _ e => .inr e) ?_
          · refine Prog.Once.bind (P := .erasePrefix _ .done) (A := fun l => dataLoc h p <+: l)
              (B := fun _ => False) ⟨?_, ?_, fun _ => trivial⟩ (fun _ => trivial) (fun _ e => e) (fun _ e => e.elim)
              fun _ _ e => e
            · rw [hd]; exact plain_dataLoc hb (OrdinaryPath.plain hok)
            · rw [hd]; exact fun _ e => e
          · rintro l rfl
            exact docLoc_not_data
        · rintro l rfl; exact hroot (by simp [rootsOf, docRoots])
        · rintro l (rfl | hl)
          · exact hroot (by simp [rootsOf, docRoots])
          · exact ⟨rfl, _, by simp [rootsOf], hl⟩
        · rintro l rfl (e | e)
          · exact docLoc_array_ne_group e.symm
          · exact docLoc_not_data e

/-! ## The calls of the threads -/

theorem runAll_calls (cs : List WCall) (fs : Fs) :
    runAll h (cs.map (callProg env h md)) fs = ((wResults env h md cs fs).map .ok, wState env h md cs fs) := by
  induction cs generalizing fs with
  | nil => rfl
  | cons c cs ih => simp only [List.map_cons, runAll, run_call, ih, wResults, wState]

theorem wResults_length (cs : List WCall) (fs : Fs) : (wResults env h md cs fs).length = cs.length := by
  induction cs generalizing fs with
  | nil => rfl
  | cons c cs ih => simp only [wResults, List.length_cons, ih]

theorem wResults_take (cs : List WCall) (n : Nat) (fs : Fs) :
    wResults env h md (cs.take n) fs = (wResults env h md cs fs).take n := by
  induction cs generalizing n fs with
  | nil => simp [wResults]
  | cons c cs ih =>
    cases n with
    | zero => rfl
    | succ n => simp only [List.take_succ_cons, wResults, ih]

/-- What call `k` of thread `i` may change. -/
def changedBy (h : Hier) (md : List Str → ArrayMetadata) (css : List (List WCall)) (i k : Nat) (l : Loc) : Prop :=
  ∃ cs c, css[i]? = some cs ∧ cs[k]? = some c ∧ c.changes = true ∧ Under (rootsOf h md c) l

theorem isolated (css : List (List WCall)) (fs : Fs) (hwf : fs.WF)
    (hnm : fs.Named) (hb : Plain (segs h.base)) (hsfx : GoodSuffix h.entry)
    (hdot : '.' ∉ stripDot h.entry.metadataKeySuffix) (hs : ∀ q, GoodSep (md q).separator)
    (hok : ∀ cs ∈ css, ∀ c ∈ cs, c.Fits h md ∧ c.Open h md fs)
    (hsep : ∀ (i j : Nat) cs cs', css[i]? = some cs → css[j]? = some cs' → i ≠ j → ∀ c ∈ cs, ∀ c' ∈ cs',
      c.changes = true → ∀ a b, c.Touches md a → c'.Touches md b → ¬ a.Meets b) :
    Isolated h fs (css.map (·.map (callProg env h md))) (fun i => threadRoots h md (css.getD i []))
      (fun i => threadWrites h md (css.getD i [])) (changedBy h md css) := by
  have hcs : ∀ i, i < css.length → css[i]? = some (css.getD i []) := by
    intro i hi
    rw [List.getElem?_eq_getElem hi, List.getD_eq_getElem?_getD, List.getElem?_eq_getElem hi]; rfl
  have hkind : ∀ i, i < css.length → ∀ r ∈ threadRoots h md (css.getD i []),
      ∃ c ∈ css.getD i [], RootKind h md c r ∧ c.Open h md fs := by
    intro i hi r hr
    obtain ⟨c, h1, h2⟩ := List.mem_flatMap.mp hr
    have := hok _ (List.mem_of_getElem? (hcs i hi)) c h1
    exact ⟨c, h1, rootKind this.1 h2, this.2⟩
  have hprog : ∀ (i k : Nat) (ps : List (Prog WResult)) (P : Prog WResult),
      (css.map (·.map (callProg env h md)))[i]? = some ps → ps[k]? = some P →
      ∃ cs c, css[i]? = some cs ∧ cs[k]? = some c ∧ P = callProg env h md c := by
    intro i k ps P hps hP
    rw [List.getElem?_map] at hps
    obtain ⟨cs, h1, rfl⟩ := Option.map_eq_some_iff.mp hps
    rw [List.getElem?_map] at hP
    obtain ⟨c, h2, rfl⟩ := Option.map_eq_some_iff.mp hP
    exact ⟨cs, c, h1, h2, rfl⟩
  refine ⟨hwf, hnm, ?_, ?_, fun i _ => threadWrites_sub, ?_, ?_, ?_, ?_, ?_⟩
  · intro i hi r hr
    obtain ⟨c, _, h2, _⟩ := hkind i (by simpa using hi) r hr
    exact h2.ne_nil
  · intro i hi r hr
    obtain ⟨c, _, h2, _⟩ := hkind i (by simpa using hi) r hr
    exact h2.plain hb hs
  · intro i j hi hj hij w hw r hr
    simp only [List.length_map] at hi hj
    obtain ⟨c, h1, h2⟩ := List.mem_flatMap.mp hw
    obtain ⟨h1, hch⟩ := List.mem_filter.mp h1
    obtain ⟨c', h3, h4, _⟩ := hkind j hj r hr
    exact roots_apart hs (rootKind (hok _ (List.mem_of_getElem? (hcs i hi)) c h1).1 h2) h4 hch
      (hsep i j _ _ (hcs i hi) (hcs j hj) hij c h1 c' h3 hch)
  · rintro i hi l ⟨hu, r, hr, hl⟩ b
    obtain ⟨c, _, h2, h3⟩ := hkind i (by simpa using hi) r hr
    exact h2.open hs h3 hl (fun e => hu ⟨r, hr, e ▸ List.prefix_rfl⟩) b
  · intro i k ps P hps hP
    obtain ⟨cs, c, h1, h2, rfl⟩ := hprog i k ps P hps hP
    have e : css.getD i [] = cs := by rw [List.getD_eq_getElem?_getD, h1]; rfl
    simp only [e]
    have hc := List.mem_of_getElem? h2
    refine uses_call hb hsfx hdot hs (hok cs (List.mem_of_getElem? h1) c hc).1 ?_ ?_ ?_ fun l hl => hl.mono threadWrites_sub
    · exact fun r hr => ⟨r, List.mem_flatMap.mpr ⟨c, hc, hr⟩, List.prefix_rfl⟩
    · intro p hp
      by_cases hu : Under (threadRoots h md cs) (implicitLoc h p)
      · exact .inl hu
      · exact .inr ⟨hu, _, List.mem_flatMap.mpr ⟨c, hc, hp⟩, List.prefix_append _ _⟩
    · exact fun hch r hr => ⟨r, List.mem_flatMap.mpr ⟨c, List.mem_filter.mpr ⟨hc, hch⟩, hr⟩, List.prefix_rfl⟩
  · intro i k ps P hps hP
    obtain ⟨cs, c, h1, h2, rfl⟩ := hprog i k ps P hps hP
    exact (once_call hb hsfx hdot hs (hok cs (List.mem_of_getElem? h1) c (List.mem_of_getElem? h2)).1).mono
      fun l hl => ⟨cs, c, h1, h2, hl⟩
  · rintro i k l hi ⟨cs, c, h1, h2, h3, r, h4, h5⟩
    have e : css.getD i [] = cs := by rw [List.getD_eq_getElem?_getD, h1]; rfl
    simp only [e]
    exact ⟨r, List.mem_flatMap.mpr ⟨c, List.mem_filter.mpr ⟨List.mem_of_getElem? h2, h3⟩, h4⟩, h5⟩

/-- The files when the process dies. -/
theorem crash_files (css : List (List WCall)) (fs : Fs) (hwf : fs.WF)
    (hnm : fs.Named) (hb : Plain (segs h.base)) (hsfx : GoodSuffix h.entry)
    (hdot : '.' ∉ stripDot h.entry.metadataKeySuffix) (hs : ∀ q, GoodSep (md q).separator)
    (hok : ∀ cs ∈ css, ∀ c ∈ cs, c.Fits h md ∧ c.Open h md fs)
    (hsep : ∀ (i j : Nat) cs cs', css[i]? = some cs → css[j]? = some cs' → i ≠ j → ∀ c ∈ cs, ∀ c' ∈ cs',
      c.changes = true → ∀ a b, c.Touches md a → c'.Touches md b → ¬ a.Meets b)
    (ts : List Nat) (s : Sessions WResult)
    (hrun : (Sessions.initial fs css.length).run h (css.map (·.map (callProg env h md))) ts = some s) :
    s.fs.WF ∧ (wState env h md (finishedCalls css s.counts) fs).WF ∧ s.threads.length = css.length ∧
    (∀ (i : Nat) cs σ, css[i]? = some cs → s.threads[i]? = some σ →
      σ.returned = ((wResults env h md cs fs).take σ.returned.length).map .ok) ∧
    ∀ l, s.fs.content l = (wState env h md (finishedCalls css s.counts) fs).content l ∨
      ∃ c, s.Pending css c ∧ c.changes = true ∧ (∃ r ∈ rootsOf h md c, RootKind h md c r ∧ r <+: l) ∧
        (s.fs.content l = (c.run env h md (wState env h md (finishedCalls css s.counts) fs)).2.content l ∨
          ∃ v n, (c.run env h md (wState env h md (finishedCalls css s.counts) fs)).2.content l = some v ∧
            s.fs.content l = some (v.take n)) := by
  have S := isolated (env := env) css fs hwf hnm hb hsfx hdot hs hok hsep
  have I := SInv.run S (SInv.init S) ts (by simpa using hrun)
  have hlen : s.threads.length = css.length := by simpa using I.len
  have htake : ∀ (cs : List WCall) (k : Nat), (cs.map (callProg env h md)).take k = (cs.take k).map (callProg env h md) :=
    fun cs k => List.map_take.symm
  let qss : List (List (Prog WResult)) :=
    (List.zipWith (fun cs n => cs.take n) css s.counts).map (·.map (callProg env h md))
  have hq : ∀ (i : Nat) cs σ, css[i]? = some cs → s.threads[i]? = some σ →
      qss[i]? = some ((cs.take σ.returned.length).map (callProg env h md)) := by
    intro i cs σ h1 h2
    simp only [qss, List.getElem?_map, List.getElem?_zipWith, Sessions.counts, h1, h2, Option.map_some]
  have hbase : (runAll h ((tagged 0 qss).map Prod.snd) fs).2 = wState env h md (finishedCalls css s.counts) fs := by
    rw [tagged_snd]
    simp only [qss, ← List.map_flatten, runAll_calls]
    rfl
  obtain ⟨M1, M2⟩ := mixed S (tagged 0 qss) (by
    intro e he
    obtain ⟨qs, i, h1, h2, h3⟩ := mem_tagged he
    have hi : i < qss.length := by rw [List.getElem?_eq_some_iff] at h2; exact h2.1
    have hic : i < css.length := by
      simp only [qss, List.length_map, List.length_zipWith] at hi
      omega
    have hcs := List.getElem?_eq_getElem hic
    have hth := List.getElem?_eq_getElem (l := s.threads) (i := i) (by omega)
    rw [hq i _ _ hcs hth] at h2
    simp only [Option.some.injEq] at h2
    subst h2
    refine ⟨(css[i]).map (callProg env h md), by rw [h1, Nat.zero_add, List.getElem?_map, hcs]; rfl, ?_⟩
    obtain ⟨c, hc, hc2⟩ := List.mem_map.mp h3
    exact List.mem_map.mpr ⟨c, List.mem_of_mem_take hc, hc2⟩) fs (fun _ => fs) fun i hi => S.alike hi
  rw [hbase] at M1 M2
  have hbw : (wState env h md (finishedCalls css s.counts) fs).WF := by
    by_cases h0 : 0 < css.length
    · obtain ⟨f, T, _⟩ := M1 0 (by simpa using h0)
      exact T.wf
    · rw [List.eq_nil_of_length_eq_zero (by omega : css.length = 0)]
      exact hwf
  refine ⟨I.wf, hbw, hlen, ?_, ?_⟩
  · intro i cs σ h1 h2
    have D := I.done i _ σ (by rw [List.getElem?_map, h1]; rfl) h2
    have := D.returned
    rw [htake, runAll_calls, wResults_take] at this
    exact this
  · intro l
    by_cases hl : ∃ i, i < css.length ∧ Under (threadWrites h md (css.getD i [])) l
    · obtain ⟨i, hi, hu⟩ := hl
      have hcs := List.getElem?_eq_getElem hi
      have hth := List.getElem?_eq_getElem (l := s.threads) (i := i) (by omega)
      have D := I.done i _ _ (by rw [List.getElem?_map, hcs]; rfl) hth
      have hi' : i < (css.map (·.map (callProg env h md))).length := by simpa using hi
      have hur := hu.mono threadWrites_sub
      have ha := M1 i hi'
      have hown := own_tagged 0 i qss
      rw [Nat.zero_add, hq i _ _ hcs hth, Option.getD_some] at hown
      rw [hown, ← htake] at ha
      generalize s.threads[i] = σ at *
      cases hcur : σ.current with
      | none => exact .inl (by rw [(D.idle hcur).content hur, ha.content hur])
      | some pc =>
        obtain ⟨P, hP, m, A, K, hsh, hAC, hCC, hG⟩ := D.busy pc hcur
        obtain ⟨g1, g2, g3⟩ := hG l hur
        by_cases hC : changedBy h md css i σ.returned.length l
        · have hP' := hP
          rw [List.getElem?_map] at hP'
          obtain ⟨c, hc, rfl⟩ := Option.map_eq_some_iff.mp hP'
          obtain ⟨cs', c', h1, h2, h3, r, h4, h5⟩ := hC
          rw [hcs] at h1
          simp only [Option.some.injEq] at h1
          subst h1
          rw [hc] at h2
          simp only [Option.some.injEq] at h2
          subst h2
          have hmem := List.mem_of_getElem? hc
          have hfit := (hok _ (List.mem_of_getElem? hcs) c hmem).1
          have hrun2 := (ha.run (S.ne i hi') (S.sub i hi') (S.uses i _ _ _ (by rw [List.getElem?_map, hcs]; rfl) hP)).2.content hur
          rw [run_call (fs := wState env h md (finishedCalls css s.counts) fs)] at hrun2
          have hend := K.torn (S.ne i hi') (S.sub i hi') I.wf I.named hsh hur g1 g2
          rw [← hrun2, ← ha.content hur] at hend
          refine hend.imp id fun hend => ⟨c, ⟨i, _, σ, hcs, hth, by rw [hcur]; rfl, hc⟩, h3, ⟨r, h4, rootKind hfit h4, h5⟩, ?_⟩
          exact hend
        · exact .inl (by rw [g3 hC, ha.content hur])
    · have hno : ∀ i, i < (css.map (·.map (callProg env h md))).length → ¬ Under (threadWrites h md (css.getD i [])) l :=
        fun i hi hu => hl ⟨i, by simpa using hi, hu⟩
      exact .inl (by rw [I.frame l hno, M2 l hno])

end

/-- **C103.** Several threads of a process use one hierarchy, each making any calls one after the other; no
thread makes a call about something that another thread changes. The process dies at any moment. Then the
filesystem is a tree; every call that has returned has returned what it returns when its thread is alone;
and every file holds what it holds after just these calls, made one thread after the other, unless a
call that has begun and not returned concerns it: then it may also hold what this call leaves, or a prefix of that. So the
metadata, the attributes and the chunks that no such call concerns read as after the calls that have
returned. -/
theorem C103 (env : Env) (h : Hier) (md : List Str → ArrayMetadata) (css : List (List WCall)) (fs : Fs) (hwf : fs.WF)
    (hnm : fs.Named) (hb : Plain (segs h.base)) (hsfx : GoodSuffix h.entry)
    (hdot : '.' ∉ stripDot h.entry.metadataKeySuffix) (hs : ∀ q, GoodSep (md q).separator)
    (hok : ∀ cs ∈ css, ∀ c ∈ cs, c.Fits h md ∧ c.Open h md fs)
    (hsep : ∀ (i j : Nat) cs cs', css[i]? = some cs → css[j]? = some cs' → i ≠ j → ∀ c ∈ cs, ∀ c' ∈ cs',
      c.changes = true → ∀ a b, c.Touches md a → c'.Touches md b → ¬ a.Meets b)
    (ts : List Nat) (s : Sessions WResult)
    (hrun : (Sessions.initial fs css.length).run h (css.map (·.map (callProg env h md))) ts = some s) :
    let base := wState env h md (finishedCalls css s.counts) fs
    s.fs.WF ∧ s.threads.length = css.length ∧
    (∀ (i : Nat) cs σ, css[i]? = some cs → s.threads[i]? = some σ →
      σ.returned = ((wResults env h md cs fs).take σ.returned.length).map .ok) ∧
    (∀ l, s.fs.content l = base.content l ∨
      ∃ c, s.Pending css c ∧ c.changes = true ∧ (∃ r, c.Place h md r ∧ r <+: l) ∧
        (s.fs.content l = (c.run env h md base).2.content l ∨
          ∃ v n, (c.run env h md base).2.content l = some v ∧ s.fs.content l = some (v.take n))) ∧
    (∀ q, OrdinaryPath h q →
      (∀ c, s.Pending css c → c.changes = true → ∀ a, c.Touches md a → ¬ a.Meets (.docs (segs q))) →
      (getArrayMetadata env h q s.fs).1 = (getArrayMetadata env h q base).1 ∧
      (listAttributes env h q s.fs).1 = (listAttributes env h q base).1) ∧
    (∀ q t pos, OrdinaryPath h q → pos.length = (md (segs q)).shape.length →
      (∀ c, s.Pending css c → c.changes = true → ∀ a, c.Touches md a → ¬ a.Meets (.chunk (segs q) pos)) →
      (readChunk env h q (md (segs q)) t pos s.fs).1 = (readChunk env h q (md (segs q)) t pos base).1) := by
  intro base
  obtain ⟨w, wb, hlen, h1, h2⟩ := crash_files css fs hwf hnm hb hsfx hdot hs hok hsep ts s hrun
  have hdocs : ∀ q, OrdinaryPath h q →
      (∀ c, s.Pending css c → c.changes = true → ∀ a, c.Touches md a → ¬ a.Meets (.docs (segs q))) →
      s.fs.content (docLoc h str!"array" q) = base.content (docLoc h str!"array" q) ∧
      s.fs.content (docLoc h str!"group" q) = base.content (docLoc h str!"group" q) := by
    intro q hq hno
    constructor
    · rcases h2 (docLoc h str!"array" q) with e | ⟨c, hp, hch, ⟨r, _, hr, hl⟩, _⟩
      · exact e
      · exact absurd hl (roots_apart hs hr (.array (c := .call (.call (.getArrayMetadata q))) hq rfl) hch
          fun a b ha hb' => by cases hb'; exact hno c hp hch a ha).1
    · rcases h2 (docLoc h str!"group" q) with e | ⟨c, hp, hch, ⟨r, _, hr, hl⟩, _⟩
      · exact e
      · exact absurd hl (roots_apart hs hr (.group (c := .call (.call (.getArrayMetadata q))) hq rfl) hch
          fun a b ha hb' => by cases hb'; exact hno c hp hch a ha).1
  refine ⟨w, hlen, h1, fun l => ?_, fun q hq hno => ?_, fun q t pos hq hpos hno => ?_⟩
  · refine (h2 l).imp id ?_
    rintro ⟨c, hp, hch, ⟨r, _, hr, hl⟩, he⟩
    refine ⟨c, hp, hch, ⟨r, ?_, hl⟩, he⟩
    rcases place_of_root hs hr with hr | ⟨hd, _⟩
    · exact hr
    · exfalso
      cases c with
      | listNodes p => cases hch
      | call c =>
        cases c with
        | readBox p t b => cases hch
        | writeBox p t o a => cases hd
        | call c => cases c <;> first | (cases hch; done) | (cases hd; done)
  · obtain ⟨e1, e2⟩ := hdocs q hq hno
    exact ⟨getArrayMetadata_congr wb w hb hsfx hq.plain e1, listAttributes_congr wb w hb hsfx hq.plain e1 e2⟩
  · apply readChunk_congr
    have hpl := plain_loc_chunk (m := md (segs q)) hb hq.plain (hs _) pos
    have e : s.fs.content (h.loc (chunkKey q (md (segs q)) pos)) = base.content (h.loc (chunkKey q (md (segs q)) pos)) := by
      rcases h2 (h.loc (chunkKey q (md (segs q)) pos)) with e | ⟨c, hp, hch, ⟨r, _, hr, hl⟩, _⟩
      · exact e
      · exact absurd hl (roots_apart hs hr (.chunk (c := .call (.call (.readChunk q t pos))) pos hq hpos rfl) hch
          fun a b ha hb' => by cases hb'; exact hno c hp hch a ha).1
    rw [storeGet_eq w hpl, storeGet_eq wb hpl, e]

/-! ### A concrete case -/

/-- Thread 0 has deleted the document of the array but no chunk yet, thread 1 has written three of the four bytes of a chunk,
thread 2 has listed the nodes, and thread 3 is writing the document of its group. -/
def crashSchedule : List Nat :=
  List.replicate 5 0 ++ List.replicate 7 1 ++ List.replicate 5 2 ++ List.replicate 10 3 ++ List.replicate 7 0 ++
    List.replicate 5 1

/-- The process dies then. -/
def crashDemo : Option (Sessions WResult) :=
  (Sessions.initial demoFs demoCalls.length).run Demo.hier
    (demoCalls.map (·.map (callProg Demo.envJ Demo.hier fun _ => Demo.arr))) crashSchedule

set_option maxRecDepth 20000 in
theorem crashDemo_runs : crashDemo.map (fun s =>
    decide (s.counts = [0, 0, 1, 0]) && s.threads.map (fun σ => σ.current.isSome) == [true, true, false, true] &&
    (s.fs.content (docLoc Demo.hier str!"array" Demo.path)).isNone &&
    (s.fs.content (chunkLoc Demo.hier Demo.path str!"/" [1])).isSome &&
    decide ((s.fs.content (chunkLoc Demo.hier str!"/b/b" str!"/" [1])).map List.length = some 3) &&
    decide ((s.fs.content (docLoc Demo.hier str!"group" str!"/a/a")).map List.length = some 3)) = some true := by
  decide +kernel

/-- Three calls are torn; the group beside them reads as before. -/
example : ∃ s, crashDemo = some s ∧ s.counts = [0, 0, 1, 0] ∧
    s.fs.content (docLoc Demo.hier str!"array" Demo.path) = none ∧
    (s.fs.content (chunkLoc Demo.hier Demo.path str!"/" [1])).isSome ∧
    (s.fs.content (chunkLoc Demo.hier str!"/b/b" str!"/" [1])).map List.length = some 3 ∧
    (listAttributes Demo.envJ Demo.hier str!"/b" s.fs).1 = .ok [] := by
  cases hr : crashDemo with
  | none => have := crashDemo_runs; rw [hr] at this; cases this
  | some s =>
    have ht := crashDemo_runs
    rw [hr] at ht
    simp only [Option.map_some, Option.some.injEq, Bool.and_eq_true, decide_eq_true_eq] at ht
    obtain ⟨⟨⟨⟨⟨h1, _⟩, h2⟩, h3⟩, h4⟩, _⟩ := ht
    refine ⟨s, rfl, h1, Option.isNone_iff_eq_none.mp h2, h3, h4, ?_⟩
    obtain ⟨_, _, _, _, h5, _⟩ := C103 Demo.envJ Demo.hier (fun _ => Demo.arr) demoCalls demoFs demoFs_wf.1 demoFs_wf.2
      (by decide) (by unfold GoodSuffix; decide) (by decide) (fun _ => .inl rfl)
      (fun cs h1 c h2 => ⟨demoCalls_fits cs h1 c h2, demoCalls_open cs h1 c h2⟩) demoCalls_sep _ s hr
    rw [(h5 str!"/b" (Demo.ordinaryPath (by decide)) ?_).2, h1]
    · decide +kernel
    · rintro c ⟨i, cs, σ, hcs, _, _, hc⟩ hch a ha
      have hm : c ∈ demoCalls.flatten := List.mem_flatten.mpr ⟨cs, List.mem_of_getElem? hcs, List.mem_of_getElem? hc⟩
      simp [demoCalls] at hm
      rcases hm with rfl | rfl | rfl | rfl | rfl | rfl | rfl <;> first | (cases hch; done) | skip
      · rcases ha with rfl | rfl <;> simp [Area.Meets] <;> decide
      · cases ha; simp [Area.Meets]
      · cases ha; simp [Area.Meets]; decide

end Wide

end Zarr
