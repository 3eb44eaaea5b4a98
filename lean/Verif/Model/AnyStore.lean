import Verif.Model.Walk
/-!
# Any store

The calls of the API are implemented for every type that implements the store traits (storage.rs:33-82, 144, 309, 360),
not only for `FilesystemHierarchy`. Here they run on an arbitrary implementation of the traits. `uri` is left out. -/

namespace Zarr.Any

/-- An implementation of `ReadableStore`, `ListableStore` and `WriteableStore` (storage.rs:33-82). A reader is read to
its end; the closure of `set` is the bytes it writes and its result. `list` and `list_prefix` are not used by the
calls. -/
structure Store (σ : Type) where
  /-- `exists` (storage.rs:37). -/
  has : Str → σ → Outcome Bool × σ
  /-- `get` (storage.rs:39). -/
  get : Str → σ → Outcome (Option Bytes) × σ
  /-- `set` (storage.rs:71-75). -/
  set : Str → Bytes × Outcome Unit → σ → Outcome Unit × σ
  /-- `erase` (storage.rs:78). -/
  erase : Str → σ → Outcome Bool × σ
  /-- `erase_prefix` (storage.rs:81). -/
  erasePrefix : Str → σ → Outcome Bool × σ
  /-- `list_dir` (storage.rs:65). -/
  listDir : Str → σ → Outcome (List Str × List Str) × σ

/-- Run a program of store calls (see `Model/Walk.lean`). -/
def Store.run {σ α : Type} (S : Store σ) : Wide.Prog α → σ → Outcome α × σ
  | .done r, s => (r, s)
  | .exists key k, s => S.run (k (S.has key s).1) (S.has key s).2
  | .get key k, s => S.run (k (S.get key s).1) (S.get key s).2
  | .set key v k, s => S.run (k (S.set key v s).1) (S.set key v s).2
  | .erase key k, s => S.run (k (S.erase key s).1) (S.erase key s).2
  | .erasePrefix key k, s => S.run (k (S.erasePrefix key s).1) (S.erasePrefix key s).2
  | .listDir pre k, s => S.run (k (S.listDir pre s).1) (S.listDir pre s).2

/-- `FilesystemHierarchy` (filesystem.rs:193-312). -/
def filesystem (h : Hier) : Store Fs where
  has := storeExists h
  get := storeGet h
  set := storeSet h
  erase := storeErase h
  erasePrefix := storeErasePrefix h
  listDir := storeListDir h

end Zarr.Any
