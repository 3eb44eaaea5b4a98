import Verif.Model.Store
/-! Calls that do not change the filesystem. -/

namespace Zarr

/-- The call leaves the state as it was, whatever it returns. -/
def M.ReadOnly {σ α : Type} (x : M σ α) : Prop := ∀ s, (x s).2 = s

namespace M

theorem ReadOnly.read {σ α : Type} (f : σ → Outcome α) : ReadOnly (M.read f) := fun _ => rfl
theorem ReadOnly.lift {σ α : Type} (o : Outcome α) : ReadOnly (M.lift o : M σ α) := fun _ => rfl
theorem ReadOnly.pure {σ α : Type} (a : α) : ReadOnly (Pure.pure a : M σ α) := fun _ => rfl

theorem ReadOnly.bind {σ α β : Type} {x : M σ α} {f : α → M σ β} (hx : ReadOnly x)
    (hf : ∀ a, ReadOnly (f a)) : ReadOnly (x >>= f) := by
  intro s
  rw [bind_apply]
  have h := hx s
  revert h
  cases x s with
  | mk r s' =>
    intro h
    simp only at h
    subst h
    cases r with
    | ok a => exact hf a s'
    | err e => rfl
    | panic => rfl

theorem ReadOnly.ite {σ α : Type} {c : Prop} [Decidable c] {x y : M σ α} (hx : ReadOnly x)
    (hy : ReadOnly y) : ReadOnly (if c then x else y) := by
  split <;> assumption

theorem ReadOnly.eq {σ α : Type} {x : M σ α} (hx : ReadOnly x) (s : σ) : x s = ((x s).1, s) :=
  Prod.ext rfl (hx s)

end M

open M

theorem storeExists_ro (h : Hier) (key : Str) : ReadOnly (storeExists h key) := ReadOnly.read _
theorem storeGet_ro (h : Hier) (key : Str) : ReadOnly (storeGet h key) := ReadOnly.read _
theorem storeUri_ro (h : Hier) (key : Str) : ReadOnly (storeUri h key) := ReadOnly.read _
theorem storeListDir_ro (h : Hier) (key : Str) : ReadOnly (storeListDir h key) := ReadOnly.read _

theorem getArrayMetadata_ro (env : Env) (h : Hier) (path : Str) : ReadOnly (getArrayMetadata env h path) :=
  (storeGet_ro _ _).bind fun _ => (ReadOnly.lift _).bind fun _ => ReadOnly.lift _

theorem nodeExists_ro (h : Hier) (path : Str) : ReadOnly (nodeExists h path) :=
  (storeExists_ro _ _).bind fun _ => ReadOnly.ite (ReadOnly.pure _)
    ((storeExists_ro _ _).bind fun _ => ReadOnly.ite (ReadOnly.pure _) (storeExists_ro _ _))

theorem arrayExists_ro (env : Env) (h : Hier) (path : Str) : ReadOnly (arrayExists env h path) := by
  refine (nodeExists_ro _ _).bind fun b => ReadOnly.ite ?_ (ReadOnly.pure _)
  intro s
  simp only
  rw [(getArrayMetadata_ro env h path).eq s]
  cases (getArrayMetadata env h path s).1 <;> rfl

theorem readChunk_ro (env : Env) (h : Hier) (path : Str) (m : ArrayMetadata) (t : RsType) (pos : List Nat) :
    ReadOnly (readChunk env h path m t pos) := by
  refine (ReadOnly.lift _).bind fun _ => (storeGet_ro _ _).bind fun v => ?_
  cases v with
  | none => exact ReadOnly.pure _
  | some b => exact (ReadOnly.lift _).bind fun _ => ReadOnly.pure _

theorem readChunkInto_ro (env : Env) (h : Hier) (path : Str) (m : ArrayMetadata) (t : RsType) (pos : List Nat)
    (buf : DataChunk t) : ReadOnly (readChunkInto env h path m t pos buf) := by
  refine (ReadOnly.lift _).bind fun _ => (storeGet_ro _ _).bind fun v => ?_
  cases v with
  | none => exact ReadOnly.pure _
  | some b => exact (ReadOnly.lift _).bind fun _ => ReadOnly.pure _

theorem nodeMetadataKey_ro (h : Hier) (path : Str) : ReadOnly (nodeMetadataKey h path) :=
  (storeExists_ro _ _).bind fun _ => ReadOnly.ite (ReadOnly.pure _)
    ((storeExists_ro _ _).bind fun _ => ReadOnly.ite (ReadOnly.pure _) (ReadOnly.lift _))

theorem listAttributes_ro (env : Env) (h : Hier) (path : Str) : ReadOnly (listAttributes env h path) :=
  (nodeMetadataKey_ro _ _).bind fun _ => (storeGet_ro _ _).bind fun _ => (ReadOnly.lift _).bind fun _ =>
    (ReadOnly.lift _).bind fun _ => ReadOnly.lift _

theorem listNodes_ro (env : Env) (h : Hier) (path : Str) : ReadOnly (listNodes env h path) :=
  (storeListDir_ro _ _).bind fun _ => ReadOnly.lift _

theorem getAttributesRaw_ro (env : Env) (h : Hier) (key : Str) : ReadOnly (getAttributesRaw env h key) :=
  ReadOnly.read _

theorem openHier_ro (env : Env) (base : Str) : ReadOnly (openHier env base) :=
  (ReadOnly.read _).bind fun _ => ReadOnly.lift _

end Zarr
