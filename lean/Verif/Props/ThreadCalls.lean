import Verif.Props.Threads
import Verif.Props.Refine
import Verif.Props.Total
/-!
# Concurrent API calls on a hierarchy: C76 and C77
-/

namespace Zarr

open Spec

/-! ## Specification -/

/-- What a call is about: a node or a chunk. -/
inductive Spec.Cell where
  | node (p : List Str)
  | chunk (p : List Str) (pos : List Nat)
deriving DecidableEq

/-- The node or chunk a call is about; removal is about more than one. -/
def Spec.HCall.cell : HCall → Option Cell
  | .createGroup p | .createArray p _ | .setAttributes p _ | .nodeExists p | .arrayExists p
  | .getArrayMetadata p | .listAttributes p => some (.node (segs p))
  | .writeChunk p _ c => some (.chunk (segs p) c.gridPosition)
  | .deleteChunk p pos | .readChunk p _ pos => some (.chunk (segs p) pos)
  | .remove _ => none

/-- A call that can change something. -/
def Spec.HCall.changes : HCall → Bool
  | .createGroup _ | .createArray _ _ | .setAttributes _ _ | .writeChunk _ _ _ | .deleteChunk _ _ | .remove _ => true
  | _ => false

/-- The call has an ordinary path and, if it is about a chunk, a grid position of the right dimension. -/
def Spec.HCall.Fits (h : Hier) (md : List Str → ArrayMetadata) : HCall → Prop
  | .createGroup p | .createArray p _ | .setAttributes p _ | .nodeExists p | .arrayExists p
  | .getArrayMetadata p | .listAttributes p | .remove p => OrdinaryPath h p
  | .writeChunk p _ c => OrdinaryPath h p ∧ c.gridPosition.length = (md (segs p)).shape.length
  | .deleteChunk p pos | .readChunk p _ pos => OrdinaryPath h p ∧ pos.length = (md (segs p)).shape.length

theorem Spec.HCall.Ok.fits {env : Env} {h : Hier} {md : List Str → ArrayMetadata} {c : HCall} (hc : c.Ok env h md) :
    c.Fits h md := by
  cases c with
  | createArray p m => exact hc.1
  | setAttributes p b => exact hc.1
  | writeChunk p t c => exact ⟨hc.1, inBounds_length hc.2.1.bounds⟩
  | deleteChunk p pos => exact ⟨hc.1, inBounds_length hc.2⟩
  | readChunk p t pos => exact ⟨hc.1, inBounds_length hc.2.bounds⟩
  | _ => exact hc

/-- The abstract hierarchy after a history of calls. -/
def Spec.absState : List HCall → AbsHier → AbsHier
  | [], a => a
  | c :: cs, a => absState cs (c.abs a).2

/-- The filesystem after a history of calls. -/
def Spec.hState (env : Env) (h : Hier) (md : List Str → ArrayMetadata) : List HCall → Fs → Fs
  | [], fs => fs
  | c :: cs, fs => hState env h md cs (c.run env h md fs).2

namespace Threads

/-- A call as a program of store calls; removal is left out. -/
def HCall.prog (env : Env) (h : Hier) (md : List Str → ArrayMetadata) : HCall → Option (Prog HResult)
  | .createGroup p => some ((createGroup env h p).record .unit)
  | .createArray p m => some ((createArray env h p m).record .unit)
  | .setAttributes p b => some ((setAttributes env h p b).record .unit)
  | .remove _ => none
  | .writeChunk p _ c => some ((writeChunk env p (md (segs p)) c).record .unit)
  | .deleteChunk p pos => some ((deleteChunk p (md (segs p)) pos).record .bool)
  | .nodeExists p => some ((nodeExists h p).record .bool)
  | .arrayExists p => some ((arrayExists env h p).record .bool)
  | .getArrayMetadata p => some ((getArrayMetadata env h p).record fun r =>
      .metadata (r >>= fun m => .ok ({ m with attributes := [] }, objGet m.attributes)))
  | .listAttributes p => some ((listAttributes env h p).record fun r => .attrs (r >>= fun o => .ok (objGet o)))
  | .readChunk p t pos => some ((readChunk env p (md (segs p)) t pos).record fun r =>
      .data (r >>= fun o => .ok (o.map fun c => ⟨t, c.data⟩)))

/-- A thread that makes calls one after the other and collects their results. -/
def threadProg (env : Env) (h : Hier) (md : List Str → ArrayMetadata) : List HCall → Option (Prog (List HResult))
  | [] => some (pure [])
  | c :: cs =>
    match HCall.prog env h md c, threadProg env h md cs with
    | some p, some q => some (p >>= fun r => q >>= fun rs => pure (r :: rs))
    | _, _ => none

section
variable {env : Env} {h : Hier} {md : List Str → ArrayMetadata}

/-- The program of a call does what the call does. -/
theorem run_call {c : HCall} {p : Prog HResult} (hp : HCall.prog env h md c = some p) (fs : Fs) :
    p.run h fs = (.ok (c.run env h md fs).1, (c.run env h md fs).2) := by
  cases c <;> simp only [HCall.prog, Option.some.injEq, reduceCtorEq] at hp <;> subst hp <;> rw [Prog.run_record]
  · rw [run_createGroup]; simp only [HCall.run]
  · rw [run_createArray]; simp only [HCall.run]
  · rw [run_setAttributes]; simp only [HCall.run]
  · rw [run_writeChunk]; simp only [HCall.run]
  · rw [run_deleteChunk]; simp only [HCall.run]
  · rw [run_nodeExists]; simp only [HCall.run]
  · rw [run_arrayExists]; simp only [HCall.run]
  · rw [run_getArrayMetadata]; simp only [HCall.run]
  · rw [run_listAttributes]; simp only [HCall.run]
  · rw [run_readChunk]; simp only [HCall.run, observe]

theorem run_thread {cs : List HCall} {p : Prog (List HResult)} (hp : threadProg env h md cs = some p) (fs : Fs) :
    p.run h fs = (.ok (hResults env h md cs fs), hState env h md cs fs) := by
  induction cs generalizing p fs with
  | nil =>
    simp only [threadProg, Option.some.injEq] at hp
    subst hp; rfl
  | cons c cs ih =>
    unfold threadProg at hp
    split at hp
    · rename_i p1 p2 e1 e2
      simp only [Option.some.injEq] at hp
      subst hp
      rw [Prog.run_bind, M.bind_apply, run_call e1]
      simp only [Prog.run_bind, M.bind_apply, ih e2]
      rfl
    · simp at hp

/-! ## The files a call uses -/

/-- The files of the node or chunk. -/
def filesOf (h : Hier) (md : List Str → ArrayMetadata) : HCall → Loc → Prop
  | .createGroup p, l | .createArray p _, l | .setAttributes p _, l | .nodeExists p, l | .arrayExists p, l
  | .getArrayMetadata p, l | .listAttributes p, l => l = docLoc h str!"array" p ∨ l = docLoc h str!"group" p
  | .writeChunk p _ c, l => l = h.loc (chunkKey p (md (segs p)) c.gridPosition)
  | .deleteChunk p pos, l | .readChunk p _ pos, l => l = h.loc (chunkKey p (md (segs p)) pos)
  | .remove _, _ => False

/-- The files a call that changes nothing reads. -/
def readsOf (h : Hier) (md : List Str → ArrayMetadata) (c : HCall) (l : Loc) : Prop :=
  filesOf h md c l ∨ ∃ p, OrdinaryPath h p ∧ l = implicitLoc h p

theorem Prog.Uses.bind {α β : Type} {R W : Loc → Prop} {p : Prog α} {f : α → Prog β} (hp : p.Uses h R W)
    (hf : ∀ a, (f a).Uses h R W) : (p >>= f).Uses h R W := by
  rw [Prog.bind_def]
  induction p with
  | done r => cases r <;> first | exact hf _ | trivial
  | «exists» key k ih => exact ⟨hp.1, hp.2.1, fun r => ih r (hp.2.2 r)⟩
  | get key k ih => exact ⟨hp.1, hp.2.1, fun r => ih r (hp.2.2 r)⟩
  | set key v k ih => exact ⟨hp.1, hp.2.1, fun r => ih r (hp.2.2 r)⟩
  | erase key k ih => exact ⟨hp.1, hp.2.1, fun r => ih r (hp.2.2 r)⟩

theorem Prog.Uses.record {α β : Type} {R W : Loc → Prop} {p : Prog α} {f : Outcome α → β} (hp : p.Uses h R W) :
    (p.record f).Uses h R W := by
  induction p with
  | done r => trivial
  | «exists» key k ih => exact ⟨hp.1, hp.2.1, fun r => ih r (hp.2.2 r)⟩
  | get key k ih => exact ⟨hp.1, hp.2.1, fun r => ih r (hp.2.2 r)⟩
  | set key v k ih => exact ⟨hp.1, hp.2.1, fun r => ih r (hp.2.2 r)⟩
  | erase key k ih => exact ⟨hp.1, hp.2.1, fun r => ih r (hp.2.2 r)⟩

theorem Prog.Uses.ite {α : Type} {R W : Loc → Prop} {b : Prop} [Decidable b] {p q : Prog α} (hp : p.Uses h R W)
    (hq : q.Uses h R W) : (if b then p else q).Uses h R W := by
  split
  · exact hp
  · exact hq

section
variable {R W : Loc → Prop}

theorem uses_exists {key : Str} (h1 : Plain (h.loc key)) (h2 : R (h.loc key) ∨ W (h.loc key)) :
    (pExists key).Uses h R W := ⟨h1, h2, fun _ => trivial⟩
theorem uses_get {key : Str} (h1 : Plain (h.loc key)) (h2 : R (h.loc key) ∨ W (h.loc key)) :
    (pGet key).Uses h R W := ⟨h1, h2, fun _ => trivial⟩
theorem uses_set {key : Str} {v : Bytes × Outcome Unit} (h1 : Plain (h.loc key)) (h2 : W (h.loc key)) :
    (pSet key v).Uses h R W := ⟨h1, h2, fun _ => trivial⟩
theorem uses_erase {key : Str} (h1 : Plain (h.loc key)) (h2 : W (h.loc key)) :
    (pErase key).Uses h R W := ⟨h1, h2, fun _ => trivial⟩
theorem uses_lift {α : Type} (r : Outcome α) : (pLift r).Uses h R W := trivial
theorem uses_pure {α : Type} (r : α) : (pure r : Prog α).Uses h R W := trivial

variable {p : Str} (hA : Plain (h.loc (arrayMetadataKey h.entry p))) (hG : Plain (h.loc (groupMetadataKey h.entry p)))
  (hAr : R (h.loc (arrayMetadataKey h.entry p)) ∨ W (h.loc (arrayMetadataKey h.entry p)))
  (hGr : R (h.loc (groupMetadataKey h.entry p)) ∨ W (h.loc (groupMetadataKey h.entry p)))
include hA hAr

theorem uses_getArrayMetadata : (getArrayMetadata env h p).Uses h R W :=
  (uses_get hA hAr).bind fun _ => (uses_lift _).bind fun _ => uses_lift _

include hG hGr

theorem uses_createGroup (hw : W (h.loc (groupMetadataKey h.entry p))) : (createGroup env h p).Uses h R W :=
  (uses_exists hA hAr).bind fun _ => .ite (uses_lift _) ((uses_exists hG hGr).bind fun _ => .ite (uses_pure _) (uses_set hG hw))

theorem uses_createArray (m : ArrayMetadata) (hw : W (h.loc (arrayMetadataKey h.entry p))) :
    (createArray env h p m).Uses h R W :=
  (uses_exists hG hGr).bind fun _ => .ite (uses_lift _) ((uses_exists hA hAr).bind fun _ => .ite (uses_lift _) (uses_set hA hw))

/-- The rest of a program after the choice of metadata key. -/
theorem uses_key {α : Type} {f : Str → Prog α} (ha : (f (arrayMetadataKey h.entry p)).Uses h R W)
    (hg : (f (groupMetadataKey h.entry p)).Uses h R W) : (nodeMetadataKey h p >>= f).Uses h R W := by
  refine ⟨hA, hAr, fun r => ?_⟩
  cases r with
  | err e => trivial
  | panic => trivial
  | ok a =>
    cases a with
    | true => exact ha
    | false =>
      refine ⟨hG, hGr, fun r => ?_⟩
      cases r with
      | err e => trivial
      | panic => trivial
      | ok a =>
        cases a with
        | true => exact hg
        | false => trivial

theorem uses_listAttributes : (listAttributes env h p).Uses h R W :=
  uses_key hA hG hAr hGr
    ((uses_get hA hAr).bind fun _ => (uses_lift _).bind fun _ => (uses_lift _).bind fun _ => uses_lift _)
    ((uses_get hG hGr).bind fun _ => (uses_lift _).bind fun _ => (uses_lift _).bind fun _ => uses_lift _)

theorem uses_setAttributes (b : JsonObject) (hwa : W (h.loc (arrayMetadataKey h.entry p)))
    (hwg : W (h.loc (groupMetadataKey h.entry p))) : (setAttributes env h p b).Uses h R W :=
  uses_key hA hG hAr hGr
    ((uses_get hA hAr).bind fun _ => (uses_lift _).bind fun _ => (uses_lift _).bind fun _ => (uses_lift _).bind fun _ =>
      .ite (uses_set hA hwa) (uses_pure _))
    ((uses_get hG hGr).bind fun _ => (uses_lift _).bind fun _ => (uses_lift _).bind fun _ => (uses_lift _).bind fun _ =>
      .ite (uses_set hG hwg) (uses_pure _))

theorem uses_nodeExists (hI : Plain (h.loc (setExtension (setExtension (groupMetadataKey h.entry p) []) [])))
    (hIr : R (h.loc (setExtension (setExtension (groupMetadataKey h.entry p) []) []))) :
    (nodeExists h p).Uses h R W :=
  (uses_exists hA hAr).bind fun _ => .ite (uses_pure _) ((uses_exists hG hGr).bind fun _ =>
    .ite (uses_pure _) (uses_exists hI (.inl hIr)))

theorem uses_arrayExists (hI : Plain (h.loc (setExtension (setExtension (groupMetadataKey h.entry p) []) [])))
    (hIr : R (h.loc (setExtension (setExtension (groupMetadataKey h.entry p) []) []))) :
    (arrayExists env h p).Uses h R W := by
  refine (uses_nodeExists hA hG hAr hGr hI hIr).bind fun _ => .ite ?_ (uses_pure _)
  refine (uses_getArrayMetadata hA hAr).record.bind fun r => ?_
  cases r <;> trivial

end

theorem uses_readChunk {R W : Loc → Prop} {p : Str} {m : ArrayMetadata} {t : RsType} {pos : List Nat}
    (h1 : Plain (h.loc (chunkKey p m pos))) (h2 : R (h.loc (chunkKey p m pos)) ∨ W (h.loc (chunkKey p m pos))) :
    (readChunk env p m t pos).Uses h R W := by
  refine (uses_lift _).bind fun _ => (uses_get h1 h2).bind fun v => ?_
  cases v with
  | none => trivial
  | some b => exact (uses_lift _).bind fun _ => uses_pure _

/-- A call reads and changes only its files. -/
theorem uses_call {c : HCall} {p : Prog HResult} (hb : Plain (segs h.base)) (hsfx : GoodSuffix h.entry)
    (hdot : '.' ∉ stripDot h.entry.metadataKeySuffix)
    (hs : ∀ q, GoodSep (md q).separator) (hok : c.Fits h md) (hp : HCall.prog env h md c = some p) {R W : Loc → Prop}
    (hR : c.changes = false → ∀ l, readsOf h md c l → R l) (hW : c.changes = true → ∀ l, filesOf h md c l → W l) :
    p.Uses h R W := by
  have docs : ∀ q, OrdinaryPath h q → Plain (h.loc (arrayMetadataKey h.entry q)) ∧
      Plain (h.loc (groupMetadataKey h.entry q)) ∧ h.loc (arrayMetadataKey h.entry q) = docLoc h str!"array" q ∧
      h.loc (groupMetadataKey h.entry q) = docLoc h str!"group" q ∧
      Plain (h.loc (setExtension (setExtension (groupMetadataKey h.entry q) []) [])) ∧
      h.loc (setExtension (setExtension (groupMetadataKey h.entry q) []) []) = implicitLoc h q := by
    intro q hq
    have e : h.loc (setExtension (setExtension (groupMetadataKey h.entry q) []) []) = implicitLoc h q := by
      rw [Hier.loc, segs_implicitKey hsfx hdot hq.plain]; rfl
    refine ⟨?_, ?_, loc_arrayKey hsfx hq.plain, loc_groupKey hsfx hq.plain, ?_, e⟩
    · rw [loc_arrayKey hsfx hq.plain]; exact plain_docLoc hb hq.plain (by simp)
    · rw [loc_groupKey hsfx hq.plain]; exact plain_docLoc hb hq.plain (by simp)
    · rw [e]; exact hb.append (Plain.append (by decide) hq.plain)
  cases c with
  | remove q => simp [HCall.prog] at hp
  | createGroup q =>
    simp only [HCall.prog, Option.some.injEq] at hp
    subst hp
    obtain ⟨h1, h2, h3, h4, _⟩ := docs q hok
    have hwa := hW rfl _ (.inl h3)
    have hwg := hW rfl _ (.inr h4)
    exact (uses_createGroup h1 h2 (.inr hwa) (.inr hwg) hwg).record
  | createArray q m =>
    simp only [HCall.prog, Option.some.injEq] at hp
    subst hp
    obtain ⟨h1, h2, h3, h4, _⟩ := docs q hok
    have hwa := hW rfl _ (.inl h3)
    have hwg := hW rfl _ (.inr h4)
    exact (uses_createArray h1 h2 (.inr hwa) (.inr hwg) m hwa).record
  | setAttributes q b =>
    simp only [HCall.prog, Option.some.injEq] at hp
    subst hp
    obtain ⟨h1, h2, h3, h4, _⟩ := docs q hok
    have hwa := hW rfl _ (.inl h3)
    have hwg := hW rfl _ (.inr h4)
    exact (uses_setAttributes h1 h2 (.inr hwa) (.inr hwg) b hwa hwg).record
  | writeChunk q t c =>
    simp only [HCall.prog, Option.some.injEq] at hp
    subst hp
    exact Prog.Uses.record (uses_set (plain_loc_chunk hb hok.1.plain (hs _) _) (hW rfl _ rfl))
  | deleteChunk q pos =>
    simp only [HCall.prog, Option.some.injEq] at hp
    subst hp
    exact Prog.Uses.record (uses_erase (plain_loc_chunk hb hok.1.plain (hs _) _) (hW rfl _ rfl))
  | nodeExists q =>
    simp only [HCall.prog, Option.some.injEq] at hp
    subst hp
    obtain ⟨h1, h2, h3, h4, h5, h6⟩ := docs q hok
    exact (uses_nodeExists h1 h2 (.inl (hR rfl _ (.inl (.inl h3)))) (.inl (hR rfl _ (.inl (.inr h4)))) h5
      (hR rfl _ (.inr ⟨q, hok, h6⟩))).record
  | arrayExists q =>
    simp only [HCall.prog, Option.some.injEq] at hp
    subst hp
    obtain ⟨h1, h2, h3, h4, h5, h6⟩ := docs q hok
    exact (uses_arrayExists h1 h2 (.inl (hR rfl _ (.inl (.inl h3)))) (.inl (hR rfl _ (.inl (.inr h4)))) h5
      (hR rfl _ (.inr ⟨q, hok, h6⟩))).record
  | getArrayMetadata q =>
    simp only [HCall.prog, Option.some.injEq] at hp
    subst hp
    obtain ⟨h1, h2, h3, h4, _⟩ := docs q hok
    exact (uses_getArrayMetadata h1 (.inl (hR rfl _ (.inl (.inl h3))))).record
  | listAttributes q =>
    simp only [HCall.prog, Option.some.injEq] at hp
    subst hp
    obtain ⟨h1, h2, h3, h4, _⟩ := docs q hok
    exact (uses_listAttributes h1 h2 (.inl (hR rfl _ (.inl (.inl h3)))) (.inl (hR rfl _ (.inl (.inr h4))))).record
  | readChunk q t pos =>
    simp only [HCall.prog, Option.some.injEq] at hp
    subst hp
    exact Prog.Uses.record (uses_readChunk (plain_loc_chunk hb hok.1.plain (hs _) _) (.inl (hR rfl _ (.inl rfl))))

theorem uses_thread {cs : List HCall} {p : Prog (List HResult)} (hb : Plain (segs h.base)) (hsfx : GoodSuffix h.entry)
    (hdot : '.' ∉ stripDot h.entry.metadataKeySuffix)
    (hs : ∀ q, GoodSep (md q).separator) (hok : ∀ c ∈ cs, c.Fits h md) (hp : threadProg env h md cs = some p)
    {R W : Loc → Prop} (hR : ∀ c ∈ cs, c.changes = false → ∀ l, readsOf h md c l → R l)
    (hW : ∀ c ∈ cs, c.changes = true → ∀ l, filesOf h md c l → W l) : p.Uses h R W := by
  induction cs generalizing p with
  | nil =>
    simp only [threadProg, Option.some.injEq] at hp
    subst hp; trivial
  | cons c cs ih =>
    unfold threadProg at hp
    split at hp
    · rename_i p1 p2 e1 e2
      simp only [Option.some.injEq] at hp
      subst hp
      refine (uses_call hb hsfx hdot hs (hok c (by simp)) e1 (hR c (by simp)) (hW c (by simp))).bind fun _ => ?_
      exact (ih (fun c hc => hok c (by simp [hc])) e2 (fun c hc => hR c (by simp [hc]))
        (fun c hc => hW c (by simp [hc]))).bind fun _ => uses_pure _
    · simp at hp

/-- The files of a call belong to the hierarchy. -/
theorem filesOf_fileLoc {c : HCall} (hok : c.Fits h md) {l : Loc} (hl : filesOf h md c l) : FileLoc h md l := by
  cases c <;> simp only [filesOf] at hl
  case writeChunk p t c => subst hl; exact .chunk p _ hok.1 hok.2
  case deleteChunk p pos => subst hl; exact .chunk p _ hok.1 hok.2
  case readChunk p t pos => subst hl; exact .chunk p _ hok.1 hok.2
  all_goals
    rcases hl with rfl | rfl
    · exact .array _ hok
    · exact .group _ hok

theorem chunkLoc_inj {p q : Str} {pos pos' : List Nat} (hs : ∀ q, GoodSep (md q).separator) (hp : OrdinaryPath h p)
    (hq : OrdinaryPath h q)
    (he : h.loc (chunkKey p (md (segs p)) pos) = h.loc (chunkKey q (md (segs q)) pos')) :
    segs p = segs q ∧ pos = pos' := by
  have h1 : segs p = segs q := by
    unfold Hier.loc at he
    have he := List.append_cancel_left he
    rw [segs_chunkKey, segs_chunkKey] at he
    simp only [List.cons.injEq, true_and] at he
    obtain ⟨s, t, e, hc⟩ := chunkTail_like (md (segs p)).separator pos (hs _)
    obtain ⟨s', t', e', hc'⟩ := chunkTail_like (md (segs q)).separator pos' (hs _)
    rw [e, e'] at he
    rcases List.append_eq_append_iff.mp he with ⟨u, h1, h2⟩ | ⟨u, h1, h2⟩
    · cases u with
      | nil => simpa using h1.symm
      | cons x xs =>
        simp only [List.cons_append, List.cons.injEq] at h2
        exact absurd (h2.1 ▸ hc) (hq x (by rw [h1]; simp)).chunk
    · cases u with
      | nil => simpa using h1
      | cons x xs =>
        simp only [List.cons_append, List.cons.injEq] at h2
        exact absurd (h2.1 ▸ hc') (hp x (by rw [h1]; simp)).chunk
  refine ⟨h1, ?_⟩
  unfold Hier.loc at he
  have he := List.append_cancel_left he
  rw [segs_chunkKey, segs_chunkKey, h1] at he
  simp only [List.cons.injEq, true_and] at he
  exact chunkTail_injective (hs _) (List.append_cancel_left he)

theorem filesOf_node {c : HCall} {q : List Str} (hc : c.cell = some (.node q)) :
    ∃ p, segs p = q ∧ ∀ l, filesOf h md c l ↔ (l = docLoc h str!"array" p ∨ l = docLoc h str!"group" p) := by
  cases c <;> simp only [HCall.cell, Option.some.injEq, Cell.node.injEq, reduceCtorEq] at hc <;>
    exact ⟨_, hc, fun _ => Iff.rfl⟩

theorem filesOf_chunk {c : HCall} {q : List Str} {pos : List Nat} (hok : c.Fits h md) (hc : c.cell = some (.chunk q pos)) :
    ∃ p, OrdinaryPath h p ∧ segs p = q ∧ ∀ l, filesOf h md c l ↔ l = h.loc (chunkKey p (md (segs p)) pos) := by
  cases c <;> simp only [HCall.cell, Option.some.injEq, Cell.chunk.injEq, reduceCtorEq] at hc <;>
    obtain ⟨h1, h2⟩ := hc <;> subst h2 <;> exact ⟨_, hok.1, h1, fun _ => Iff.rfl⟩

/-- Calls with a file in common are about the same node or chunk. -/
theorem cell_of_files {c c' : HCall} (hs : ∀ q, GoodSep (md q).separator) (hok : c.Fits h md)
    (hok' : c'.Fits h md) {l : Loc} (h1 : filesOf h md c l) (h2 : filesOf h md c' l) : c.cell = c'.cell := by
  cases hc : c.cell with
  | none => cases c <;> simp [HCall.cell] at hc; exact h1.elim
  | some x =>
    cases hc' : c'.cell with
    | none => cases c' <;> simp [HCall.cell] at hc'; exact h2.elim
    | some y =>
      cases x with
      | node q =>
        obtain ⟨p, rfl, e⟩ := filesOf_node (h := h) (md := md) hc
        cases y with
        | node q' =>
          obtain ⟨p', rfl, e'⟩ := filesOf_node (h := h) (md := md) hc'
          rcases (e l).mp h1 with rfl | rfl <;> rcases (e' _).mp h2 with h3 | h3
          · rw [docLoc_injective h3]
          · exact absurd h3 docLoc_array_ne_group
          · exact absurd h3.symm docLoc_array_ne_group
          · rw [docLoc_injective h3]
        | chunk q' pos =>
          obtain ⟨p', hp', rfl, e'⟩ := filesOf_chunk hok' hc'
          have h4 := (e' l).mp h2
          rcases (e l).mp h1 with rfl | rfl <;> exact absurd h4 docLoc_ne_chunk
      | chunk q pos =>
        obtain ⟨p, hp, rfl, e⟩ := filesOf_chunk hok hc
        have h3 := (e l).mp h1
        cases y with
        | node q' =>
          obtain ⟨p', rfl, e'⟩ := filesOf_node (h := h) (md := md) hc'
          rcases (e' l).mp h2 with h4 | h4 <;> rw [h3] at h4 <;> exact absurd h4.symm docLoc_ne_chunk
        | chunk q' pos' =>
          obtain ⟨p', hp', rfl, e'⟩ := filesOf_chunk hok' hc'
          have h4 := (e' l).mp h2
          rw [h3] at h4
          obtain ⟨h5, h6⟩ := chunkLoc_inj hs hp hp' h4
          rw [h5, h6]

/-- No file of the hierarchy stands where a node without documents would be found. -/
theorem implicit_not_file (hs : ∀ q, GoodSep (md q).separator) {p : Str} (hp : OrdinaryPath h p) :
    ¬ FileLoc h md (implicitLoc h p) := by
  intro hf
  have hx : segs (p ++ '/' :: str!"x") = segs p ++ [str!"x"] := by
    rw [segs_append_sep, segs_single str!"x" (by decide) (by decide) (by decide)]
  have hord : OrdinaryPath h (p ++ '/' :: str!"x") := by
    intro s hs
    rw [hx] at hs
    rcases List.mem_append.mp hs with hs | hs
    · exact hp s hs
    · simp only [List.mem_singleton] at hs
      subst hs
      refine ⟨by decide, ?_, ?_, ?_⟩
      · rintro (h1 | ⟨d, r, h1, _⟩)
        · exact absurd h1 (by decide)
        · simp at h1
      · intro h1; have := h1.length_le; simp at this
      · intro h1; have := h1.length_le; simp at this
  obtain ⟨i, x, e1, e2⟩ := docLoc_split h str!"group" (p ++ '/' :: str!"x")
  rw [hx] at e1
  have hi : i = str!"meta" :: str!"root" :: segs p := by
    have e3 : (str!"meta" :: str!"root" :: segs p) ++ [str!"x"] = i ++ [x] := e1
    exact (List.append_inj' e3 rfl).1.symm
  have he := FileLoc.antichain hs hf (.group _ hord) (by
    rw [e2, hi]
    exact ⟨[_], by rw [implicitLoc, List.append_assoc, List.append_assoc]; rfl⟩)
  rw [e2, hi] at he
  have := congrArg List.length he
  simp [implicitLoc] at this

/-- A filesystem with the same files holds the same hierarchy. -/
theorem Holds.congr {a : AbsHier} {fs fs' : Fs} (hb : Plain (segs h.base)) (hs : ∀ q, GoodSep (md q).separator)
    (hh : Holds env h md a fs) (hwf : fs'.WF) (hc : Clear h md fs') (he : ∀ l, fs'.content l = fs.content l) :
    Holds env h md a fs' := by
  refine ⟨hwf, hc, fun p hp => ?_, fun p t pos hp hk => ?_⟩
  · rw [arrayDoc, groupDoc, he, he]; exact hh.docs p hp
  · rw [observe_of_content hh.wf hwf hb hp.plain (hs _) (he _)]; exact hh.data p t pos hp hk

/-- A history of calls keeps the correspondence. -/
theorem holds_state {a : AbsHier} {fs : Fs} (hj : env.json.Lawful) (hb : Plain (segs h.base))
    (hsfx : GoodSuffix h.entry) (hdot : '.' ∉ stripDot h.entry.metadataKeySuffix)
    (hs : ∀ q, GoodSep (md q).separator) (hh : Holds env h md a fs) (calls : List HCall)
    (hok : ∀ c ∈ calls, c.Ok env h md) : Holds env h md (absState calls a) (hState env h md calls fs) := by
  induction calls generalizing a fs with
  | nil => exact hh
  | cons c cs ih => exact ih (step hj hb hsfx hdot hs hh c (hok c (by simp))).2 fun c hc => hok c (by simp [hc])

theorem hState_append (xs ys : List HCall) (fs : Fs) :
    hState env h md (xs ++ ys) fs = hState env h md ys (hState env h md xs fs) := by
  induction xs generalizing fs with
  | nil => rfl
  | cons x xs ih => exact ih _

theorem absState_append (xs ys : List HCall) (a : AbsHier) : absState (xs ++ ys) a = absState ys (absState xs a) := by
  induction xs generalizing a with
  | nil => rfl
  | cons x xs ih => exact ih _

theorem runAll_threads {css : List (List HCall)} {ps : List (Prog (List HResult))}
    (hp : css.map (threadProg env h md) = ps.map some) (fs : Fs) :
    (runAll h ps fs).2 = hState env h md css.flatten fs := by
  induction css generalizing ps fs with
  | nil => cases ps <;> simp at hp; rfl
  | cons c css ih =>
    cases ps with
    | nil => simp at hp
    | cons p ps =>
      simp only [List.map_cons, List.cons.injEq] at hp
      rw [List.flatten_cons, hState_append, runAll, run_thread hp.1, ih hp.2]

/-- The threads of C76 as an instance of C75. -/
theorem threads_run {css : List (List HCall)} {ps : List (Prog (List HResult))} {fs : Fs} (hwf : fs.WF)
    (hb : Plain (segs h.base)) (hsfx : GoodSuffix h.entry)
    (hdot : '.' ∉ stripDot h.entry.metadataKeySuffix) (hs : ∀ q, GoodSep (md q).separator)
    (hfits : ∀ cs ∈ css, ∀ c ∈ cs, c.Fits h md)
    (hfree : ∀ cs ∈ css, ∀ c ∈ cs, c.changes = true → ∀ l, filesOf h md c l → Writable fs l)
    (hp : css.map (threadProg env h md) = ps.map some)
    (hsep : ∀ (i j : Nat) cs cs', css[i]? = some cs → css[j]? = some cs' → i ≠ j → ∀ c ∈ cs, ∀ c' ∈ cs',
      c.changes = true → c.cell ≠ c'.cell) :
    ∃ N, ∀ ts s, (Sys.initial fs ps).run h ts = some s →
      ts.length ≤ N ∧ s.fs.WF ∧ (∀ l, FileLoc h md l → Writable fs l → Writable s.fs l) ∧
      (∀ (i : Nat) cs, css[i]? = some cs → ∀ r, s.result i = some r → r = .ok (hResults env h md cs fs)) ∧
      (∀ i, i < css.length → s.result i = none → ∃ s', s.advance h i = some s') ∧
      ((∀ i, i < css.length → (s.result i).isSome) →
        (∀ i, i < css.length → s.result i = (runAll h ps fs).1[i]?) ∧
        ∀ l, s.fs.content l = (hState env h md css.flatten fs).content l) := by
  let R : Nat → Loc → Prop := fun i l => ∃ cs c, css[i]? = some cs ∧ c ∈ cs ∧ c.changes = false ∧ readsOf h md c l
  let W : Nat → Loc → Prop := fun i l => ∃ cs c, css[i]? = some cs ∧ c ∈ cs ∧ c.changes = true ∧ filesOf h md c l
  have hget : ∀ (i : Nat) cs, css[i]? = some cs → ∀ c ∈ cs, c.Fits h md :=
    fun i cs hi => hfits cs (List.mem_of_getElem? hi)
  have hfile : ∀ i l, W i l → FileLoc h md l := by
    rintro i l ⟨cs, c, h1, h2, _, h4⟩
    exact filesOf_fileLoc (hget i cs h1 c h2) h4
  have hlen : css.length = ps.length := by simpa using congrArg List.length hp
  have hpi : ∀ (i : Nat) p, ps[i]? = some p → ∃ cs, css[i]? = some cs ∧ threadProg env h md cs = some p := by
    intro i p hi
    have h1 : (css.map (threadProg env h md))[i]? = (ps.map some)[i]? := by rw [hp]
    simp only [List.getElem?_map, hi, Option.map_some, Option.map_eq_some_iff] at h1
    exact h1
  have hpi' : ∀ (i : Nat) cs, css[i]? = some cs → ∃ p, ps[i]? = some p ∧ threadProg env h md cs = some p := by
    intro i cs hi
    have h1 : (css.map (threadProg env h md))[i]? = (ps.map some)[i]? := by rw [hp]
    simp only [List.getElem?_map, hi, Option.map_some] at h1
    obtain ⟨p, h2, h3⟩ := Option.map_eq_some_iff.mp h1.symm
    exact ⟨p, h2, h3.symm⟩
  have huse : ∀ (i : Nat) p, ps[i]? = some p → p.Uses h (R i) (W i) := by
    intro i p hi
    obtain ⟨cs, h1, h2⟩ := hpi i p hi
    exact uses_thread hb hsfx hdot hs (hget i cs h1) h2 (fun c hc hch l hl => ⟨cs, c, h1, hc, hch, hl⟩)
      (fun c hc hch l hl => ⟨cs, c, h1, hc, hch, hl⟩)
  have hfreeW : ∀ i l, W i l → Writable fs l := by
    rintro i l ⟨cs, c, h1, h2, h3, h4⟩
    exact hfree cs (List.mem_of_getElem? h1) c h2 h3 l h4
  have hsepW : ∀ i j a b, W i a → W j b → a <+: b → a = b ∧ i = j := by
    intro i j a b ha hb hpre
    have e := FileLoc.antichain hs (hfile i a ha) (hfile j b hb) hpre
    refine ⟨e, ?_⟩
    obtain ⟨cs, c, h1, h2, h3, h4⟩ := ha
    obtain ⟨cs', c', h1', h2', h3', h4'⟩ := hb
    by_cases hij : i = j
    · exact hij
    · exact absurd (cell_of_files hs (hget i cs h1 c h2) (hget j cs' h1' c' h2') h4 (e ▸ h4'))
        (hsep i j cs cs' h1 h1' hij c h2 c' h2' h3)
  have hread : ∀ i j a, W i a → R j a → i = j := by
    rintro i j a ⟨cs, c, h1, h2, h3, h4⟩ ⟨cs', c', h1', h2', h3', h4'⟩
    by_cases hij : i = j
    · exact hij
    · rcases h4' with h4' | ⟨p, hp, rfl⟩
      · exact absurd (cell_of_files hs (hget i cs h1 c h2) (hget j cs' h1' c' h2') h4 h4')
          (hsep i j cs cs' h1 h1' hij c h2 c' h2' h3)
      · exact absurd (filesOf_fileLoc (hget i cs h1 c h2) h4) (implicit_not_file hs hp)
  obtain ⟨N, hN⟩ := C75 h fs ps R W hwf huse hfreeW hsepW hread
  refine ⟨N, fun ts s hrun => ?_⟩
  obtain ⟨k1, _, k3, k4, k5, k6⟩ := hN ts s hrun
  have hi := (Inv.init hwf huse).run hfreeW hsepW hread hrun
  refine ⟨k5, k3, ?_, ?_, ?_, ?_⟩
  · intro l hl hw
    exact hi.free l hw fun i a ha => ⟨fun hpre => FileLoc.antichain hs (hfile i a ha) hl hpre,
      fun hpre => (FileLoc.antichain hs hl (hfile i a ha) hpre).symm⟩
  · intro i cs hi r hr
    obtain ⟨p, h1, h2⟩ := hpi' i cs hi
    rw [(k1 i p r h1 hr).1, run_thread h2]
  · intro i hi hr
    exact k4 i _ (List.getElem?_eq_getElem (hlen ▸ hi)) hr
  · intro hall
    obtain ⟨j1, j2⟩ := k6 (fun i hi => hall i (hlen ▸ hi))
    exact ⟨fun i hi => j1 i (hlen ▸ hi), fun l => by rw [j2 l, runAll_threads hp]⟩

theorem hResults_append (xs ys : List HCall) (fs : Fs) :
    hResults env h md (xs ++ ys) fs = hResults env h md xs fs ++ hResults env h md ys (hState env h md xs fs) := by
  induction xs generalizing fs with
  | nil => rfl
  | cons x xs ih => rw [List.cons_append, hResults, ih]; rfl

/-- The results of the programs run one after the other are those of the calls. -/
theorem runAll_results {css : List (List HCall)} {ps : List (Prog (List HResult))}
    (hp : css.map (threadProg env h md) = ps.map some) (fs : Fs) :
    ∃ rs : List (List HResult), (runAll h ps fs).1 = rs.map .ok ∧ rs.length = css.length ∧
      rs.flatten = hResults env h md css.flatten fs := by
  induction css generalizing ps fs with
  | nil => cases ps <;> simp at hp; exact ⟨[], rfl, rfl, rfl⟩
  | cons c css ih =>
    cases ps with
    | nil => simp at hp
    | cons p ps =>
      simp only [List.map_cons, List.cons.injEq] at hp
      obtain ⟨rs, h1, h2, h3⟩ := ih hp.2 (hState env h md c fs)
      refine ⟨hResults env h md c fs :: rs, ?_, by simp [h2], ?_⟩
      · simp only [runAll, run_thread hp.1, h1, List.map_cons]
      · rw [List.flatten_cons, List.flatten_cons, hResults_append, h3]

end

/-- **C76.** Several threads use one hierarchy at the same time, each making any calls one after the other
(all calls of C70 except removal), interleaved in any way. If no thread makes a call about a node or a
chunk that another thread changes, then every thread gets the results that it gets alone, on a map from
paths to nodes and from paths and grid positions to chunks; no thread waits for another or runs forever;
and when all have finished, calls made later get the results they get after the threads' calls were made
one thread after the other. -/
theorem C76 (env : Env) (h : Hier) (md : List Str → ArrayMetadata) (before : List HCall) (css : List (List HCall))
    (ps : List (Prog (List HResult))) (fs : Fs) (hwf : fs.WF)
    (hj : env.json.Lawful) (hb : Plain (segs h.base)) (hsfx : GoodSuffix h.entry)
    (hdot : '.' ∉ stripDot h.entry.metadataKeySuffix) (hs : ∀ q, GoodSep (md q).separator)
    (hf : FreshDir h fs) (hbefore : ∀ c ∈ before, c.Ok env h md) (hok : ∀ cs ∈ css, ∀ c ∈ cs, c.Ok env h md)
    (hp : css.map (threadProg env h md) = ps.map some)
    (hsep : ∀ (i j : Nat) cs cs', css[i]? = some cs → css[j]? = some cs' → i ≠ j → ∀ c ∈ cs, ∀ c' ∈ cs',
      c.changes = true → c.cell ≠ c'.cell) :
    ∃ N, ∀ ts s, (Sys.initial (hState env h md before fs) ps).run h ts = some s →
      ts.length ≤ N ∧
      (∀ (i : Nat) cs, css[i]? = some cs → ∀ r, s.result i = some r →
        r = .ok (absResults cs (absState before AbsHier.empty))) ∧
      (∀ i, i < css.length → s.result i = none → ∃ s', s.advance h i = some s') ∧
      ((∀ i, i < css.length → (s.result i).isSome) → ∀ later, (∀ c ∈ later, c.Ok env h md) →
        hResults env h md later s.fs = absResults later (absState (before ++ css.flatten) AbsHier.empty)) := by
  have hh := holds_state hj hb hsfx hdot hs (.fresh (md := md) hb hs hwf hf) before hbefore
  generalize hst : hState env h md before fs = fs1 at hh ⊢
  have hokf : ∀ cs ∈ css, ∀ c ∈ cs, c.Fits h md := fun cs h1 c h2 => (hok cs h1 c h2).fits
  obtain ⟨N, hN⟩ := threads_run hh.wf hb hsfx hdot hs hokf
    (fun cs h1 c h2 _ l hl => hh.clear l (filesOf_fileLoc (hokf cs h1 c h2) hl)) hp hsep
  refine ⟨N, fun ts s hrun => ?_⟩
  obtain ⟨k1, k2, k3, k4, k5, k6⟩ := hN ts s hrun
  refine ⟨k1, ?_, k5, ?_⟩
  · intro i cs hi r hr
    rw [k4 i cs hi r hr, results_of_holds hj hb hsfx hdot hs hh cs (hok cs (List.mem_of_getElem? hi))]
  · intro hall later hlater
    have hseq := holds_state hj hb hsfx hdot hs hh css.flatten (fun c hc => by
      obtain ⟨cs, h1, h2⟩ := List.mem_flatten.mp hc
      exact hok cs h1 c h2)
    rw [absState_append]
    exact results_of_holds hj hb hsfx hdot hs (Holds.congr hb hs hseq k2 (fun l hl => k3 l hl (hh.clear l hl))
      (k6 hall).2) later hlater

/-- Every file of the node or chunk that the call changes can be written. -/
def Unblocked (h : Hier) (md : List Str → ArrayMetadata) (c : HCall) (fs : Fs) : Prop :=
  c.changes = true → ∀ l, filesOf h md c l → Writable fs l

/-- **C77 (partial).** Calls made by several threads at the same time, interleaved in any way, have the
results they have when they are made one after the other in some order, and leave the same files. Here:
if no thread makes a call about a node or chunk that another thread changes, whatever else the
filesystem holds, with any compressors and whether the calls succeed or fail; the order is thread after
thread. Missing: calls about the same node or chunk (see `C77_violated`); removal is in C93. -/
theorem C77_partial (env : Env) (h : Hier) (md : List Str → ArrayMetadata) (css : List (List HCall))
    (ps : List (Prog (List HResult))) (fs : Fs) (hwf : fs.WF) (hb : Plain (segs h.base)) (hsfx : GoodSuffix h.entry)
    (hdot : '.' ∉ stripDot h.entry.metadataKeySuffix) (hs : ∀ q, GoodSep (md q).separator)
    (hfits : ∀ cs ∈ css, ∀ c ∈ cs, c.Fits h md ∧ Unblocked h md c fs)
    (hp : css.map (threadProg env h md) = ps.map some)
    (hsep : ∀ (i j : Nat) cs cs', css[i]? = some cs → css[j]? = some cs' → i ≠ j → ∀ c ∈ cs, ∀ c' ∈ cs',
      c.changes = true → c.cell ≠ c'.cell) (ts : List Nat) (s : Sys (List HResult))
    (hrun : (Sys.initial fs ps).run h ts = some s) (hall : ∀ i, i < css.length → (s.result i).isSome) :
    ∃ rs : List (List HResult), rs.length = css.length ∧ (∀ i, i < css.length → s.result i = rs[i]?.map .ok) ∧
      hResults env h md css.flatten fs = rs.flatten ∧
      ∀ l, s.fs.content l = (hState env h md css.flatten fs).content l := by
  obtain ⟨N, hN⟩ := threads_run hwf hb hsfx hdot hs (fun cs h1 c h2 => (hfits cs h1 c h2).1)
    (fun cs h1 c h2 => (hfits cs h1 c h2).2) hp hsep
  obtain ⟨_, _, _, _, _, k6⟩ := hN ts s hrun
  obtain ⟨j1, j2⟩ := k6 hall
  obtain ⟨rs, r1, r2, r3⟩ := runAll_results hp fs
  refine ⟨rs, r2, fun i hi => ?_, r3.symm, j2⟩
  rw [j1 i hi, r1, List.getElem?_map]

/-! ### A concrete case -/

/-- One thread stores a chunk and an unrelated value, one stores and reads another value, one looks for
a third. -/
def demoStore : List (Prog (Option Bytes)) :=
  [.set str!"u" ([1#8, 2#8], .ok ()) fun _ => .done (.ok none), .set str!"v" ([3#8], .ok ()) fun _ => pGet str!"v",
   pGet str!"w"]

/-- The programs meet the hypotheses of C75; the second thread reads what it stored, the third nothing,
whatever the schedule. -/
example : ∃ N, ∀ ts s, (Sys.initial Demo.emptyFs demoStore).run Demo.hier ts = some s →
    (∀ r, s.result 1 = some r → r = .ok (some [3#8])) ∧ (∀ r, s.result 2 = some r → r = .ok none) ∧
    ts.length ≤ N := by
  obtain ⟨N, hN⟩ := C75 Demo.hier Demo.emptyFs demoStore
    (fun i l => i = 2 ∧ l = Demo.hier.loc str!"w")
    (fun i l => (i = 0 ∧ l = Demo.hier.loc str!"u") ∨ (i = 1 ∧ l = Demo.hier.loc str!"v")) Demo.emptyFs_wf
    (by
      intro i p hi
      match i with
      | 0 => cases Option.some.inj hi; exact ⟨by decide, .inl ⟨rfl, rfl⟩, fun _ => trivial⟩
      | 1 =>
        cases Option.some.inj hi
        exact ⟨by decide, .inr ⟨rfl, rfl⟩, fun _ => uses_get (by decide) (.inr (.inr ⟨rfl, rfl⟩))⟩
      | 2 => cases Option.some.inj hi; exact uses_get (by decide) (.inl ⟨rfl, rfl⟩)
      | i + 3 => simp [demoStore] at hi)
    (by rintro i l (⟨_, rfl⟩ | ⟨_, rfl⟩) <;> exact Demo.writable_empty (by decide))
    (by
      rintro i j a b (⟨rfl, rfl⟩ | ⟨rfl, rfl⟩) (⟨rfl, rfl⟩ | ⟨rfl, rfl⟩) hp
      · exact ⟨rfl, rfl⟩
      · exact absurd hp (by decide)
      · exact absurd hp (by decide)
      · exact ⟨rfl, rfl⟩)
    (by
      rintro i j a (⟨rfl, rfl⟩ | ⟨rfl, rfl⟩) ⟨_, h⟩
      · exact absurd h (by decide)
      · exact absurd h (by decide))
  refine ⟨N, fun ts s hrun => ?_⟩
  obtain ⟨h1, _, _, _, h5, _⟩ := hN ts s hrun
  refine ⟨fun r hr => ?_, fun r hr => ?_, h5⟩
  · rw [(h1 1 _ r rfl hr).1]; decide +kernel
  · rw [(h1 2 _ r rfl hr).1]; decide +kernel

/-- One thread writes and reads a chunk, one creates a group and sets attributes, one reads the metadata
of the array and deletes another chunk. -/
def demoThreads : List (List HCall) :=
  [[.writeChunk Demo.path .u16 Demo.chunk, .readChunk str!"a/b" .u16 [1]],
   [.createGroup str!"/a", .setAttributes str!"/a" Demo.newAttrs, .listAttributes str!"a"],
   [.getArrayMetadata str!"/a/b", .deleteChunk Demo.path [2]]]

theorem demoThreads_ok : ∀ cs ∈ demoThreads, ∀ c ∈ cs, c.Ok Demo.envJ Demo.hier fun _ => Demo.arr := by
  have h : ∀ c ∈ demoThreads.flatten, c ∈ Demo.history := by
    simp [demoThreads, Demo.history]
  exact fun cs h1 c h2 => Demo.history_ok c (h c (List.mem_flatten.mpr ⟨cs, h1, h2⟩))

theorem demoThreads_sep (i j : Nat) (cs cs' : List HCall) (hi : demoThreads[i]? = some cs)
    (hj : demoThreads[j]? = some cs') (hij : i ≠ j) (c : HCall) (hc : c ∈ cs) (c' : HCall) (hc' : c' ∈ cs') :
    c.changes = true → c.cell ≠ c'.cell := by
  have hall : ∀ x ∈ [0, 1, 2], ∀ y ∈ [0, 1, 2], x ≠ y → ∀ c ∈ demoThreads.getD x [], ∀ c' ∈ demoThreads.getD y [],
      c.changes = true → c.cell ≠ c'.cell := by
    simp [demoThreads, HCall.changes, HCall.cell, Demo.chunk]
    decide
  have hx : ∀ (k : Nat) ds, demoThreads[k]? = some ds → k ∈ [0, 1, 2] := by
    intro k ds hk
    have := (List.getElem?_eq_some_iff.mp hk).1
    simp [demoThreads] at this
    simp; omega
  have hg : ∀ (k : Nat) ds, demoThreads[k]? = some ds → demoThreads.getD k [] = ds := by
    intro k ds hk; rw [List.getD_eq_getElem?_getD, hk]; rfl
  exact hall i (hx i cs hi) j (hx j cs' hj) hij c (hg i cs hi ▸ hc) c' (hg j cs' hj ▸ hc')

/-- After an array was created, the threads meet the hypotheses of C76, and these are their results. -/
example : ∃ ps N, demoThreads.map (threadProg Demo.envJ Demo.hier fun _ => Demo.arr) = ps.map some ∧
    ∀ ts s, (Sys.initial (hState Demo.envJ Demo.hier (fun _ => Demo.arr) [.createArray Demo.path Demo.arr]
        Demo.emptyFs) ps).run Demo.hier ts = some s →
      ts.length ≤ N ∧
      (∀ r, s.result 0 = some r → r = .ok [.unit (.ok ()), .data (.ok (some ⟨.u16, Demo.chunk.data⟩))]) ∧
      (∀ r, s.result 1 = some r → r = .ok [.unit (.ok ()), .unit (.ok ()),
        .attrs (.ok (Attrs.update (fun _ => none) Demo.newAttrs))]) ∧
      (∀ r, s.result 2 = some r → r = .ok [.metadata (.ok (Demo.arr, fun _ => none)), .bool (.ok true)]) := by
  obtain ⟨N, hN⟩ := C76 Demo.envJ Demo.hier (fun _ => Demo.arr) [.createArray Demo.path Demo.arr] demoThreads
    (demoThreads.filterMap (threadProg Demo.envJ Demo.hier fun _ => Demo.arr)) Demo.emptyFs Demo.emptyFs_wf
    jsonText_lawful (by decide) (by unfold GoodSuffix; decide) (by decide) (fun _ => .inl rfl) Demo.fresh
    (by intro c hc; exact Demo.history_ok c (by simp at hc; simp [hc, Demo.history]))
    demoThreads_ok rfl demoThreads_sep
  refine ⟨demoThreads.filterMap (threadProg Demo.envJ Demo.hier fun _ => Demo.arr), N, rfl, fun ts s hrun => ?_⟩
  obtain ⟨h1, h2, _⟩ := hN ts s hrun
  exact ⟨h1, fun r hr => h2 0 _ rfl r hr, fun r hr => h2 1 _ rfl r hr, fun r hr => h2 2 _ rfl r hr⟩

/-- They meet the hypotheses of C77 in an empty filesystem, where the array does not exist. -/
example (ts : List Nat) (s : Sys (List HResult))
    (hrun : (Sys.initial Demo.emptyFs (demoThreads.filterMap
      (threadProg Demo.envJ Demo.hier fun _ => Demo.arr))).run Demo.hier ts = some s)
    (hall : ∀ i, i < 3 → (s.result i).isSome) :
    ∃ rs : List (List HResult), rs.length = 3 ∧ (∀ i, i < 3 → s.result i = rs[i]?.map .ok) ∧
      hResults Demo.envJ Demo.hier (fun _ => Demo.arr) demoThreads.flatten Demo.emptyFs = rs.flatten := by
  obtain ⟨rs, h1, h2, h3, _⟩ := C77_partial Demo.envJ Demo.hier (fun _ => Demo.arr) demoThreads _ Demo.emptyFs
    Demo.emptyFs_wf (by decide) (by unfold GoodSuffix; decide) (by decide) (fun _ => .inl rfl)
    (fun cs h1 c h2 => ⟨(demoThreads_ok cs h1 c h2).fits, fun _ l hl => Demo.writable_empty (by
      obtain ⟨x, r, hx, _⟩ := FileLoc.below (filesOf_fileLoc (demoThreads_ok cs h1 c h2).fits hl)
      rw [hx]; simp [Demo.hier])⟩) rfl demoThreads_sep ts s hrun hall
  exact ⟨rs, h1, h2, h3⟩

/-! ### Violations -/

/-- A thread finished with the only result of one successful call. -/
def okUnit : Option (Outcome (List HResult)) → Bool
  | some (.ok [.unit (.ok _)]) => true
  | _ => false

theorem okUnit_iff {r : Option (Outcome (List HResult))} : okUnit r = true ↔ r = some (.ok [.unit (.ok ())]) := by
  constructor
  · intro h
    unfold okUnit at h
    split at h
    · rfl
    · cases h
  · rintro rfl; rfl

/-- The threads of the examples: each makes one call. -/
def demoProgs (cs : List HCall) : List (Prog (List HResult)) :=
  cs.filterMap fun c => threadProg Demo.envJ Demo.hier (fun _ => Demo.arr) [c]

theorem run_of_test {s₀ : Sys α} {h : Hier} {ts : List Nat} {f : Sys α → Bool}
    (ht : ((s₀.run h ts).map f) = some true) : ∃ s, s₀.run h ts = some s ∧ f s = true := by
  cases hr : s₀.run h ts with
  | none => rw [hr] at ht; cases ht
  | some s => rw [hr] at ht; exact ⟨s, rfl, Option.some.inj ht⟩

/-- Which of two calls made one after the other succeed. -/
def bothOk (cs : List HCall) (fs : Fs) : Bool :=
  okUnit (some (.ok ((hResults Demo.envJ Demo.hier (fun _ => Demo.arr) cs fs).take 1))) &&
  okUnit (some (.ok ((hResults Demo.envJ Demo.hier (fun _ => Demo.arr) cs fs).drop 1)))

/-- The schedule of the first violation: each thread looks whether the other kind of node exists, then
one writes its metadata, then the other. -/
def raceTs : List Nat := [0, 0, 1, 1] ++ List.replicate 44 0 ++ List.replicate 178 1

set_option maxRecDepth 20000 in
theorem race_runs : ((Sys.initial Demo.emptyFs (demoProgs [.createGroup str!"/a", .createArray str!"/a" Demo.arr])).run
    Demo.hier raceTs).map (fun s => okUnit (s.result 0) && okUnit (s.result 1)) = some true := by decide +kernel

set_option maxRecDepth 20000 in
theorem race_serial : bothOk [.createGroup str!"/a", .createArray str!"/a" Demo.arr] Demo.emptyFs = false ∧
    bothOk [.createArray str!"/a" Demo.arr, .createGroup str!"/a"] Demo.emptyFs = false := by decide +kernel

/-- **C77 (violated).** Two threads that call `create_group` and `create_array` for one path both
succeed, although in either order the second call fails. -/
theorem C77_violated :
    ∃ (c d : HCall) (ps : List (Prog (List HResult))) (ts : List Nat) (s : Sys (List HResult)),
      [[c], [d]].map (threadProg Demo.envJ Demo.hier fun _ => Demo.arr) = ps.map some ∧
      (Sys.initial Demo.emptyFs ps).run Demo.hier ts = some s ∧
      s.result 0 = some (.ok [.unit (.ok ())]) ∧ s.result 1 = some (.ok [.unit (.ok ())]) ∧
      hResults Demo.envJ Demo.hier (fun _ => Demo.arr) [c, d] Demo.emptyFs ≠ [.unit (.ok ()), .unit (.ok ())] ∧
      hResults Demo.envJ Demo.hier (fun _ => Demo.arr) [d, c] Demo.emptyFs ≠ [.unit (.ok ()), .unit (.ok ())] := by
  obtain ⟨s, h1, h2⟩ := run_of_test race_runs
  rw [Bool.and_eq_true, okUnit_iff, okUnit_iff] at h2
  refine ⟨.createGroup str!"/a", .createArray str!"/a" Demo.arr, _, raceTs, s, rfl, h1, h2.1, h2.2, ?_, ?_⟩
  · intro e
    have := race_serial.1
    rw [bothOk, e] at this
    cases this
  · intro e
    have := race_serial.2
    rw [bothOk, e] at this
    cases this

/-- The filesystem of the second violation: one group. -/
def demoGroup : Fs := (Zarr.createGroup Demo.envJ Demo.hier str!"/a" Demo.emptyFs).2

/-- The schedule of the second violation: both threads read the metadata before either writes it. -/
def lostTs : List Nat := List.replicate 39 0 ++ List.replicate 39 1 ++ List.replicate 43 0 ++ List.replicate 43 1

/-- The attribute names at `/a`. -/
def attrNames (fs : Fs) : Option (List Str) :=
  match (Zarr.listAttributes Demo.envJ Demo.hier str!"/a" fs).1 with
  | .ok o => some (o.map (·.1))
  | _ => none

set_option maxRecDepth 20000 in
theorem lost_runs : ((Sys.initial demoGroup (demoProgs [.setAttributes str!"/a" [(str!"x", .int 1)],
      .setAttributes str!"/a" [(str!"y", .int 2)]])).run Demo.hier lostTs).map
    (fun s => okUnit (s.result 0) && okUnit (s.result 1) && attrNames s.fs == some [str!"y"]) = some true := by
  decide +kernel

/-- **C77 (violated, again).** Two threads set one attribute each at one group. Both calls succeed and
the first attribute is lost; in either order both attributes are there afterwards. -/
theorem C77_violated_attributes :
    ∃ (c d : HCall) (ps : List (Prog (List HResult))) (ts : List Nat) (s : Sys (List HResult)),
      [[c], [d]].map (threadProg Demo.envJ Demo.hier fun _ => Demo.arr) = ps.map some ∧
      (Sys.initial demoGroup ps).run Demo.hier ts = some s ∧
      s.result 0 = some (.ok [.unit (.ok ())]) ∧ s.result 1 = some (.ok [.unit (.ok ())]) ∧
      attrNames s.fs = some [str!"y"] ∧
      attrNames (hState Demo.envJ Demo.hier (fun _ => Demo.arr) [c, d] demoGroup) = some [str!"x", str!"y"] ∧
      attrNames (hState Demo.envJ Demo.hier (fun _ => Demo.arr) [d, c] demoGroup) = some [str!"y", str!"x"] := by
  obtain ⟨s, h1, h2⟩ := run_of_test lost_runs
  simp only [Bool.and_eq_true, okUnit_iff, beq_iff_eq] at h2
  exact ⟨.setAttributes str!"/a" [(str!"x", .int 1)], .setAttributes str!"/a" [(str!"y", .int 2)], _, lostTs, s, rfl, h1, h2.1.1, h2.1.2, h2.2, by decide +kernel, by decide +kernel⟩

end Threads

end Zarr
