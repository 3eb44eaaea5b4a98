import Verif.Model.Threads
import Verif.Lemmas.Store
/-!
# Programs and threads
-/

namespace Zarr.Threads

namespace Prog
variable {α β : Type}

theorem bind_def (p : Prog α) (f : α → Prog β) : (p >>= f) = p.bind f := rfl

/-- Running a sequence of programs. -/
theorem run_bind (h : Hier) (p : Prog α) (f : α → Prog β) :
    (p >>= f).run h = p.run h >>= fun a => (f a).run h := by
  apply M.ext
  intro fs
  rw [bind_def]
  induction p generalizing fs with
  | done r =>
    cases r <;> rfl
  | «exists» key k ih => simp only [bind, run]; rw [ih]; rfl
  | get key k ih => simp only [bind, run]; rw [ih]; rfl
  | set key v k ih => simp only [bind, run]; rw [ih]; rfl
  | erase key k ih => simp only [bind, run]; rw [ih]; rfl

theorem run_record (h : Hier) (f : Outcome α → β) (p : Prog α) (fs : Fs) :
    (p.record f).run h fs = (.ok (f (p.run h fs).1), (p.run h fs).2) := by
  induction p generalizing fs with
  | done r => rfl
  | «exists» key k ih => exact ih _ _
  | get key k ih => exact ih _ _
  | set key v k ih => exact ih _ _
  | erase key k ih => exact ih _ _

theorem run_pure (h : Hier) (a : α) : (pure a : Prog α).run h = pure a := rfl

end Prog

section
variable {α : Type} (h : Hier)

@[simp] theorem run_pLift (r : Outcome α) : (pLift r).run h = M.lift r := rfl
@[simp] theorem run_pExists (key : Str) : (pExists key).run h = storeExists h key := rfl
@[simp] theorem run_pGet (key : Str) : (pGet key).run h = storeGet h key := rfl
@[simp] theorem run_pSet (key : Str) (v : Bytes × Outcome Unit) : (pSet key v).run h = storeSet h key v := rfl
@[simp] theorem run_pErase (key : Str) : (pErase key).run h = storeErase h key := rfl

theorem run_ite {c : Prop} [Decidable c] (a b : Prog α) :
    (if c then a else b).run h = if c then a.run h else b.run h := by split <;> rfl

variable (env : Env)

/-! The programs are the calls of `Model/Store.lean` and `Model/Ndarray.lean`. -/

theorem run_getArrayMetadata (p : Str) : (getArrayMetadata env h p).run h = Zarr.getArrayMetadata env h p := by
  simp only [getArrayMetadata, Prog.run_bind]; rfl

theorem run_nodeMetadataKey (p : Str) : (nodeMetadataKey h p).run h = Zarr.nodeMetadataKey h p := by
  simp only [nodeMetadataKey, Prog.run_bind, run_ite]; rfl

theorem run_listAttributes (p : Str) : (listAttributes env h p).run h = Zarr.listAttributes env h p := by
  simp only [listAttributes, Prog.run_bind, run_nodeMetadataKey]; rfl

theorem run_setAttributes (p : Str) (b : JsonObject) :
    (setAttributes env h p b).run h = Zarr.setAttributes env h p b := by
  simp only [setAttributes, Prog.run_bind, run_nodeMetadataKey, run_ite]; rfl

theorem run_createGroup (p : Str) : (createGroup env h p).run h = Zarr.createGroup env h p := by
  simp only [createGroup, Prog.run_bind, run_ite]; rfl

theorem run_createArray (p : Str) (m : ArrayMetadata) : (createArray env h p m).run h = Zarr.createArray env h p m := by
  simp only [createArray, Prog.run_bind, run_ite]; rfl

theorem run_nodeExists (p : Str) : (nodeExists h p).run h = Zarr.nodeExists h p := by
  simp only [nodeExists, Prog.run_bind, run_ite]; rfl

theorem run_arrayExists (p : Str) : (arrayExists env h p).run h = Zarr.arrayExists env h p := by
  have e := run_getArrayMetadata h env p
  unfold arrayExists Zarr.arrayExists
  rw [Prog.run_bind, run_nodeExists]
  generalize getArrayMetadata env h p = g at e ⊢
  generalize Zarr.getArrayMetadata env h p = g' at e ⊢
  generalize Zarr.nodeExists h p = n
  subst e
  apply M.ext
  intro fs
  rw [M.bind_apply, M.bind_apply]
  obtain ⟨r, fs'⟩ := n fs
  cases r with
  | err e => rfl
  | panic => rfl
  | ok b =>
    cases b with
    | false => rfl
    | true =>
      simp only [if_true, Prog.run_bind, M.bind_apply, Prog.run_record]
      show _ = (match g.run h fs' with
        | (.ok _, x) => ((.ok true : Outcome Bool), x)
        | (.err _, x) => (.ok false, x)
        | (.panic, x) => (.panic, x))
      generalize g.run h fs' = x
      obtain ⟨r, fs''⟩ := x
      cases r <;> rfl

theorem run_readChunk (p : Str) (m : ArrayMetadata) (t : RsType) (pos : List Nat) :
    (readChunk env p m t pos).run h = Zarr.readChunk env h p m t pos := by
  simp only [readChunk, Zarr.readChunk, Prog.run_bind, run_pLift, run_pGet]
  congr 1; funext _; congr 1; funext v
  cases v with
  | none => rfl
  | some b => simp only [Prog.run_bind]; rfl

theorem run_readChunkInto (p : Str) (m : ArrayMetadata) (t : RsType) (pos : List Nat) (buf : DataChunk t) :
    (readChunkInto env p m t pos buf).run h = Zarr.readChunkInto env h p m t pos buf := by
  simp only [readChunkInto, Zarr.readChunkInto, Prog.run_bind, run_pLift, run_pGet]
  congr 1; funext _; congr 1; funext v
  cases v with
  | none => rfl
  | some b => simp only [Prog.run_bind]; rfl

theorem run_writeChunk (p : Str) (m : ArrayMetadata) {t : RsType} (c : DataChunk t) :
    (writeChunk env p m c).run h = Zarr.writeChunk env h p m c := rfl

theorem run_deleteChunk (p : Str) (m : ArrayMetadata) (pos : List Nat) :
    (deleteChunk p m pos).run h = Zarr.deleteChunk h p m pos := rfl

theorem run_readLoop (p : Str) (m : ArrayMetadata) (t : RsType) (bbox : BBox) (ps : List (List Nat))
    (arr : NdArr (El t)) (buf : Option (DataChunk t)) :
    (readLoop env p m t bbox ps arr buf).run h = Zarr.readLoop env h p m t bbox ps arr buf := by
  induction ps generalizing arr buf with
  | nil => rfl
  | cons pos rest ih =>
    have e : (readCoord env p m t pos buf).run h = Zarr.readCoord env h p m t pos buf := by
      cases buf with
      | none => simp only [readCoord, Zarr.readCoord, Prog.run_bind, run_readChunk]; rfl
      | some b => simp only [readCoord, Zarr.readCoord, Prog.run_bind, run_readChunkInto]; rfl
    simp only [readLoop, Zarr.readLoop, Prog.run_bind, e]
    congr 1; funext r
    obtain ⟨b, c⟩ := r
    cases b with
    | false => exact ih _ _
    | true =>
      cases c with
      | none => exact ih _ _
      | some c =>
        simp only [Prog.run_bind, run_pLift]
        congr 1; funext a
        exact ih _ _

theorem run_readNdarray (p : Str) (m : ArrayMetadata) (t : RsType) (bbox : BBox) :
    (readNdarray env p m t bbox).run h = Zarr.readNdarray env h p m t bbox := by
  simp only [readNdarray, Zarr.readNdarray, readNdarrayInto, Zarr.readNdarrayInto, readNdarrayIntoWithBuffer,
    Zarr.readNdarrayIntoWithBuffer, Prog.run_bind, run_ite, run_readLoop]
  rfl

theorem run_writeLoop (p : Str) (m : ArrayMetadata) {t : RsType} (bbox : BBox) (fill : El t) (array : NdArr (El t))
    (ps : List (List Nat)) (ex : List (El t)) :
    (writeLoop env p m bbox fill array ps ex).run h = Zarr.writeLoop env h p m bbox fill array ps ex := by
  induction ps generalizing ex with
  | nil => rfl
  | cons pos rest ih =>
    have e : (writeCoord env p m bbox fill array pos ex).run h = Zarr.writeCoord env h p m bbox fill array pos ex := by
      simp only [writeCoord, Zarr.writeCoord, writePartial, Zarr.writePartial, Prog.run_bind, run_ite,
        run_readChunkInto, run_writeChunk]
      rfl
    simp only [writeLoop, Zarr.writeLoop, Prog.run_bind, e, ih]

theorem run_writeNdarray (p : Str) (m : ArrayMetadata) {t : RsType} (offset : List Nat) (array : NdArr (El t)) :
    (writeNdarray env p m offset array).run h = Zarr.writeNdarray env h p m offset array := by
  simp only [writeNdarray, Zarr.writeNdarray, Prog.run_bind, run_ite, run_writeLoop]
  rfl

end

end Zarr.Threads
