import Verif.Model.Crash
/-!
# Crashes inside the calls of the hierarchy API

The states of the filesystem between the system calls of one API call. `erase_prefix` is taken apart
into the removals of its loop here. -/

namespace Zarr

/-- One turn of the loop in `erase_prefix` (filesystem.rs:298-308): `remove_dir`, which fails unless
the directory is empty, or `remove_file`. -/
def Fs.rmEntry (l : Loc) (fs : Fs) : Outcome Fs :=
  match fs.get l with
  | none => .err .notFound
  | some (.file _) => .ok (fs.del l)
  | some .dir => if (fs.children l).isEmpty then .ok (fs.del l) else .err .other

/-- The loop in `erase_prefix` (filesystem.rs:298-308) for the entries that `WalkDir` yields. -/
def Fs.rmEntries : List Loc → Fs → Outcome Unit × Fs
  | [], fs => (.ok (), fs)
  | l :: ls, fs =>
    match fs.rmEntry l with
    | .ok fs' => Fs.rmEntries ls fs'
    | .err e => (.err e, fs)
    | .panic => (.panic, fs)

/-- What `WalkDir::new(l).contents_first(true)` (filesystem.rs:298) yields: the entries at and below
`l`, each once and after everything below it. The order of siblings is that of the directory, which
can be any. -/
structure ContentsFirst (fs : Fs) (l : Loc) (es : List Loc) : Prop where
  nodup : es.Nodup
  mem : ∀ x, x ∈ es ↔ l <+: x ∧ fs.get x ≠ none
  after : ∀ pre x post, es = pre ++ x :: post → ∀ y ∈ es, x <+: y → y ≠ x → y ∈ pre

/-- The states of `erase` (filesystem.rs:282-292): it makes one change. -/
def eraseStates (h : Hier) (key : Str) (fs : Fs) : List Fs := [fs, (storeErase h key fs).2]

/-- `s` is a state of `erase_prefix` (filesystem.rs:294-312): some entries were removed. -/
def ErasePrefixState (h : Hier) (key : Str) (fs s : Fs) : Prop :=
  s = fs ∨ ∃ t l es n, getPath h.base key = .ok t ∧ fs.locate (segs t) = .ok l ∧ ContentsFirst fs l es ∧
    (Fs.rmEntries (es.take n) fs).2 = s

/-- `s` is a state of `remove` (storage.rs:444-454). -/
def RemoveState (h : Hier) (path : Str) (fs s : Fs) : Prop :=
  let fs1 := (storeErase h (groupMetadataKey h.entry path) fs).2
  let fs2 := (storeErase h (arrayMetadataKey h.entry path) fs1).2
  s ∈ eraseStates h (groupMetadataKey h.entry path) fs ∨
  (∃ b, (storeErase h (groupMetadataKey h.entry path) fs).1 = .ok b) ∧
    (s ∈ eraseStates h (arrayMetadataKey h.entry path) fs1 ∨
    (∃ b, (storeErase h (arrayMetadataKey h.entry path) fs1).1 = .ok b) ∧
      ErasePrefixState h (dataPathKey path) fs2 s)

/-- The states of a call that goes on with `k` if a read returned `Ok`, and returns otherwise. -/
def onOk {α : Type} (r : Outcome α) (fs : Fs) (k : α → List Fs) : List Fs :=
  match r with
  | .ok a => k a
  | .err _ => [fs]
  | .panic => [fs]

/-- The states of `create_group` (storage.rs:400-420). -/
def createGroupStates (env : Env) (h : Hier) (path : Str) (fs : Fs) : List Fs :=
  onOk (storeExists h (arrayMetadataKey h.entry path) fs).1 fs fun a =>
    if a then [fs]
    else onOk (storeExists h (groupMetadataKey h.entry path) fs).1 fs fun g =>
      if g then [fs]
      else setStates h (groupMetadataKey h.entry path) (env.json.print GroupMetadata.default.toJson) fs

/-- The states of `create_array` (storage.rs:422-442). -/
def createArrayStates (env : Env) (h : Hier) (path : Str) (m : ArrayMetadata) (fs : Fs) : List Fs :=
  onOk (storeExists h (groupMetadataKey h.entry path) fs).1 fs fun g =>
    if g then [fs]
    else onOk (storeExists h (arrayMetadataKey h.entry path) fs).1 fs fun a =>
      if a then [fs]
      else setStates h (arrayMetadataKey h.entry path) (arrayMetadataText env m).1 fs

/-- The states of `set_attributes` (storage.rs:361-398). -/
def setAttributesStates (env : Env) (h : Hier) (path : Str) (attributes : JsonObject) (fs : Fs) : List Fs :=
  onOk (nodeMetadataKey h path fs).1 fs fun key =>
  onOk (storeGet h key fs).1 fs fun v =>
  onOk (Outcome.ofOption .notFound v) fs fun b =>
  onOk (Outcome.ofOption .json (env.json.parse b)) fs fun j =>
  onOk j.asObj fs fun existing =>
    if mergedDoc existing attributes ≠ existing then
      setStates h key (env.json.print (.obj (mergedDoc existing attributes))) fs
    else [fs]

/-- The states of `write_chunk` (storage.rs:456-470). -/
def writeChunkStates (env : Env) (h : Hier) (path : Str) (m : ArrayMetadata) {t : RsType} (c : DataChunk t)
    (fs : Fs) : List Fs :=
  setStates h (chunkKey path m c.gridPosition) (writeChunkBytes env.codecs env.native m c).1 fs

/-- The states of `delete_chunk` (storage.rs:472-480). -/
def deleteChunkStates (h : Hier) (path : Str) (m : ArrayMetadata) (pos : List Nat) (fs : Fs) : List Fs :=
  eraseStates h (chunkKey path m pos) fs

end Zarr
