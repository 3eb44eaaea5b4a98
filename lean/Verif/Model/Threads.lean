import Verif.Model.Ndarray
/-!
# Concurrent API calls

Any number of threads or processes use one hierarchy at the same time. A thread runs a program made of
calls of the store; each call is the sequence of system calls in its body, and those of different
threads happen in any order. In contrast to `Model/Locks.lean` there are many keys, directories are
created, and API calls are made of several store calls.

Simplifications: an open file and its lock belong to the location of the file, so the model is right as
long as nobody erases a file that somebody else has open (`Model/Locks.lean` has inodes for that);
`erase_prefix` and listings are left out; a value is written and read byte by byte. -/

namespace Zarr.Threads

/-- A program that calls the store. What it does next depends on the result of the last call. -/
inductive Prog (α : Type) where
  | done (r : Outcome α)
  | exists (key : Str) (k : Outcome Bool → Prog α)
  | get (key : Str) (k : Outcome (Option Bytes) → Prog α)
  | set (key : Str) (v : Bytes × Outcome Unit) (k : Outcome Unit → Prog α)
  | erase (key : Str) (k : Outcome Bool → Prog α)

namespace Prog

/-- Go on with the value; errors and panics end the program (`?`). -/
def bind {α β : Type} (p : Prog α) (f : α → Prog β) : Prog β :=
  match p with
  | .done (.ok a) => f a
  | .done (.err e) => .done (.err e)
  | .done .panic => .done .panic
  | .exists key k => .exists key fun r => (k r).bind f
  | .get key k => .get key fun r => (k r).bind f
  | .set key v k => .set key v fun r => (k r).bind f
  | .erase key k => .erase key fun r => (k r).bind f

instance : Monad Prog where
  pure a := .done (.ok a)
  bind := bind

/-- Go on with the outcome, whatever it is. -/
def record {α β : Type} (f : Outcome α → β) : Prog α → Prog β
  | .done r => .done (.ok (f r))
  | .exists key k => .exists key fun r => (k r).record f
  | .get key k => .get key fun r => (k r).record f
  | .set key v k => .set key v fun r => (k r).record f
  | .erase key k => .erase key fun r => (k r).record f

/-- The program run alone. -/
def run {α : Type} (h : Hier) : Prog α → M Fs α
  | .done r => M.lift r
  | .exists key k => fun fs => (k (storeExists h key fs).1).run h (storeExists h key fs).2
  | .get key k => fun fs => (k (storeGet h key fs).1).run h (storeGet h key fs).2
  | .set key v k => fun fs => (k (storeSet h key v fs).1).run h (storeSet h key v fs).2
  | .erase key k => fun fs => (k (storeErase h key fs).1).run h (storeErase h key fs).2

end Prog

/-! ## System calls -/

/-- What a thread does next. `p` is the path of the file, `l` its location once it is open. -/
inductive Pc (α : Type) where
  /-- Between calls. The first step of a call includes its first look at the filesystem. -/
  | prog (p : Prog α)
  /-- `get`: `File::open` (filesystem.rs:204). -/
  | getOpen (p : List Str) (k : Outcome (Option Bytes) → Prog α)
  /-- `get`: `lock_shared` (filesystem.rs:205). -/
  | getLock (l : Loc) (k : Outcome (Option Bytes) → Prog α)
  /-- The caller of `get` reads, having read `acc` (filesystem.rs:206). -/
  | getRead (l : Loc) (acc : Bytes) (k : Outcome (Option Bytes) → Prog α)
  /-- `set`: the first `mkdir` of `create_dir_all` (filesystem.rs:264) for the first `n` components. -/
  | mkdirDown (p : List Str) (n : Nat) (v : Bytes × Outcome Unit) (k : Outcome Unit → Prog α)
  /-- `set`: the `is_dir` after a `mkdir` of `create_dir_all` that failed with `e`. -/
  | mkdirDir (p : List Str) (n : Nat) (e : ErrKind) (v : Bytes × Outcome Unit) (k : Outcome Unit → Prog α)
  /-- `set`: the `mkdir` of `create_dir_all` after the parent was made. -/
  | mkdirUp (p : List Str) (n : Nat) (v : Bytes × Outcome Unit) (k : Outcome Unit → Prog α)
  /-- `set`: `OpenOptions::open` with `create` (filesystem.rs:268-272). -/
  | setOpen (p : List Str) (v : Bytes × Outcome Unit) (k : Outcome Unit → Prog α)
  /-- `set`: `lock_exclusive` (filesystem.rs:273). -/
  | setLock (l : Loc) (v : Bytes × Outcome Unit) (k : Outcome Unit → Prog α)
  /-- `set`: `set_len(0)` (filesystem.rs:275). -/
  | setTrunc (l : Loc) (v : Bytes × Outcome Unit) (k : Outcome Unit → Prog α)
  /-- `set`: the closure writes, `n` bytes so far (filesystem.rs:277-279). -/
  | setWrite (l : Loc) (v : Bytes × Outcome Unit) (n : Nat) (k : Outcome Unit → Prog α)
  /-- `erase`: `File::open` (filesystem.rs:286). -/
  | eraOpen (p : List Str) (k : Outcome Bool → Prog α)
  /-- `erase`: `lock_exclusive` (filesystem.rs:287). -/
  | eraLock (p : List Str) (l : Loc) (k : Outcome Bool → Prog α)
  /-- `erase`: `remove_file` (filesystem.rs:288), after which the file is closed. -/
  | eraUnlink (p : List Str) (l : Loc) (k : Outcome Bool → Prog α)
  /-- `erase`: `!path.exists()` (filesystem.rs:291). -/
  | eraFinal (p : List Str) (k : Outcome Bool → Prog α)

/-- The thread holds an exclusive lock on the file at `l`. -/
def Pc.exclusive {α : Type} (l : Loc) : Pc α → Bool
  | .setTrunc l' _ _ => decide (l = l')
  | .setWrite l' _ _ _ => decide (l = l')
  | .eraUnlink _ l' _ => decide (l = l')
  | _ => false

/-- The thread holds a lock on the file at `l`. -/
def Pc.holds {α : Type} (l : Loc) : Pc α → Bool
  | .getRead l' _ _ => decide (l = l')
  | pc => pc.exclusive l

/-- The content of a file that is open. -/
def content (fs : Fs) (l : Loc) : Bytes :=
  match fs.get l with
  | some (.file b) => b
  | _ => []

/-- The next step of a thread: `none` if it has finished or has to wait. `pcs` are the threads. -/
def Pc.next {α : Type} (h : Hier) (pcs : List (Pc α)) (fs : Fs) : Pc α → Option (Pc α × Fs)
  | .prog (.done _) => none
  | .prog (.exists key k) =>
    match getPath h.base key with
    | .ok t => some (.prog (k (.ok (fs.isFile (segs t)))), fs)
    | .err e => some (.prog (k (.err e)), fs)
    | .panic => some (.prog (k .panic), fs)
  | .prog (.get key k) =>
    match getPath h.base key with
    | .ok t => some (if fs.isFile (segs t) then .getOpen (segs t) k else .prog (k (.ok none)), fs)
    | .err e => some (.prog (k (.err e)), fs)
    | .panic => some (.prog (k .panic), fs)
  | .prog (.set key v k) =>
    match getPath h.base key with
    | .ok t =>
      some (if (segs t).isEmpty ∨ fs.pathExists (segs t).dropLast then .setOpen (segs t) v k
        else .mkdirDown (segs t) ((segs t).length - 1) v k, fs)
    | .err e => some (.prog (k (.err e)), fs)
    | .panic => some (.prog (k .panic), fs)
  | .prog (.erase key k) =>
    match getPath h.base key with
    | .ok t => some (if fs.pathExists (segs t) then .eraOpen (segs t) k else .eraFinal (segs t) k, fs)
    | .err e => some (.prog (k (.err e)), fs)
    | .panic => some (.prog (k .panic), fs)
  | .getOpen p k =>
    match fs.locate p with
    | .ok l => some (if (fs.get l).isSome then .getLock l k else .prog (k (.err .notFound)), fs)
    | .err e => some (.prog (k (.err e)), fs)
    | .panic => some (.prog (k .panic), fs)
  | .getLock l k => if pcs.any (Pc.exclusive l) then none else some (.getRead l [] k, fs)
  | .getRead l acc k =>
    match fs.get l with
    | some .dir => some (.prog (k (.err .isADirectory)), fs)
    | _ =>
      match (content fs l)[acc.length]? with
      | some b => some (.getRead l (acc ++ [b]) k, fs)
      | none => some (.prog (k (.ok (some acc))), fs)
  | .mkdirDown p n v k =>
    if n = 0 then some (if fs.isDir [] then .mkdirUp p 1 v k else .prog (k (.err .notFound)), fs)
    else
      match fs.mkdir (p.take n) with
      | .ok fs' => some (.mkdirUp p (n + 1) v k, fs')
      | .err e => some (if e = .notFound then .mkdirDown p (n - 1) v k else .mkdirDir p n e v k, fs)
      | .panic => some (.prog (k .panic), fs)
  | .mkdirDir p n e v k =>
    some (if fs.isDir (p.take n) then .mkdirUp p (n + 1) v k else .prog (k (.err e)), fs)
  | .mkdirUp p n v k =>
    if p.length ≤ n then some (.setOpen p v k, fs)
    else
      match fs.mkdir (p.take n) with
      | .ok fs' => some (.mkdirUp p (n + 1) v k, fs')
      | .err e => some (.mkdirDir p n e v k, fs)
      | .panic => some (.prog (k .panic), fs)
  | .setOpen p v k =>
    match Fs.openCreate p fs with
    | .ok (l, fs') => some (.setLock l v k, fs')
    | .err e => some (.prog (k (.err e)), fs)
    | .panic => some (.prog (k .panic), fs)
  | .setLock l v k => if pcs.any (Pc.holds l) then none else some (.setTrunc l v k, fs)
  | .setTrunc l v k => some (.setWrite l v 0 k, fs.put l (.file []))
  | .setWrite l v n k =>
    match v.1[n]? with
    | some b =>
      some (.setWrite l v (n + 1) k, fs.put l (.file ((content fs l).take n ++ b :: (content fs l).drop (n + 1))))
    | none => some (.prog (k v.2), fs)
  | .eraOpen p k =>
    match fs.locate p with
    | .ok l => some (if (fs.get l).isSome then .eraLock p l k else .prog (k (.err .notFound)), fs)
    | .err e => some (.prog (k (.err e)), fs)
    | .panic => some (.prog (k .panic), fs)
  | .eraLock p l k => if pcs.any (Pc.holds l) then none else some (.eraUnlink p l k, fs)
  | .eraUnlink p _ k =>
    match fs.locate p with
    | .ok l =>
      match fs.get l with
      | some (.file _) => some (.eraFinal p k, fs.del l)
      | some .dir => some (.prog (k (.err .isADirectory)), fs)
      | none => some (.prog (k (.err .notFound)), fs)
    | .err e => some (.prog (k (.err e)), fs)
    | .panic => some (.prog (k .panic), fs)
  | .eraFinal p k => some (.prog (k (.ok (!fs.pathExists p))), fs)

/-- The filesystem and the threads. -/
structure Sys (α : Type) where
  fs : Fs
  pcs : List (Pc α)

/-- Thread `t` takes its next step. -/
def Sys.advance {α : Type} (h : Hier) (s : Sys α) (t : Nat) : Option (Sys α) :=
  (s.pcs[t]?).bind fun pc => (pc.next h s.pcs s.fs).map fun r => ⟨r.2, s.pcs.set t r.1⟩

/-- Run a schedule: which thread takes a step. -/
def Sys.run {α : Type} (h : Hier) (s : Sys α) : List Nat → Option (Sys α)
  | [] => some s
  | t :: ts => (s.advance h t).bind fun s' => s'.run h ts

/-- The threads before anything happened. -/
def Sys.initial {α : Type} (fs : Fs) (ps : List (Prog α)) : Sys α := ⟨fs, ps.map .prog⟩

/-- The result of a thread that has finished. -/
def Sys.result {α : Type} (s : Sys α) (t : Nat) : Option (Outcome α) :=
  match s.pcs[t]? with
  | some (.prog (.done r)) => some r
  | _ => none

/-! ## The API calls as programs -/

/-- `exists` of the store. -/
def pExists (key : Str) : Prog Bool := .exists key .done
/-- `get` of the store. -/
def pGet (key : Str) : Prog (Option Bytes) := .get key .done
/-- `set` of the store. -/
def pSet (key : Str) (v : Bytes × Outcome Unit) : Prog Unit := .set key v .done
/-- `erase` of the store. -/
def pErase (key : Str) : Prog Bool := .erase key .done
/-- A computation that does not use the store. -/
def pLift {α : Type} (r : Outcome α) : Prog α := .done r

/-- `get_array_metadata` (storage.rs:165-178). -/
def getArrayMetadata (env : Env) (h : Hier) (path : Str) : Prog ArrayMetadata := do
  let v ← pGet (arrayMetadataKey h.entry path)
  let b ← pLift (Outcome.ofOption .notFound v)
  pLift (parseArrayMetadata env b)

/-- The choice of metadata key (storage.rs:280-290, 367-377). -/
def nodeMetadataKey (h : Hier) (path : Str) : Prog Str := do
  let a ← pExists (arrayMetadataKey h.entry path)
  if a then pure (arrayMetadataKey h.entry path)
  else do
    let g ← pExists (groupMetadataKey h.entry path)
    if g then pure (groupMetadataKey h.entry path)
    else pLift (.err .notFound)

/-- `list_attributes` (storage.rs:278-306). -/
def listAttributes (env : Env) (h : Hier) (path : Str) : Prog JsonObject := do
  let key ← nodeMetadataKey h path
  let v ← pGet key
  let b ← pLift (Outcome.ofOption .notFound v)
  let j ← pLift (Outcome.ofOption .json (env.json.parse b))
  pLift (docAttributes j)

/-- `set_attributes` (storage.rs:361-398). -/
def setAttributes (env : Env) (h : Hier) (path : Str) (attributes : JsonObject) : Prog Unit := do
  let key ← nodeMetadataKey h path
  let v ← pGet key
  let b ← pLift (Outcome.ofOption .notFound v)
  let j ← pLift (Outcome.ofOption .json (env.json.parse b))
  let existing ← pLift j.asObj
  if mergedDoc existing attributes ≠ existing then
    pSet key (env.json.print (.obj (mergedDoc existing attributes)), .ok ())
  else pure ()

/-- `create_group` (storage.rs:400-420). -/
def createGroup (env : Env) (h : Hier) (path : Str) : Prog Unit := do
  let a ← pExists (arrayMetadataKey h.entry path)
  if a then pLift (.err .alreadyExists)
  else do
    let g ← pExists (groupMetadataKey h.entry path)
    if g then pure ()
    else pSet (groupMetadataKey h.entry path) (env.json.print GroupMetadata.default.toJson, .ok ())

/-- `create_array` (storage.rs:422-442). -/
def createArray (env : Env) (h : Hier) (path : Str) (m : ArrayMetadata) : Prog Unit := do
  let g ← pExists (groupMetadataKey h.entry path)
  if g then pLift (.err .alreadyExists)
  else do
    let a ← pExists (arrayMetadataKey h.entry path)
    if a then pLift (.err .alreadyExists)
    else pSet (arrayMetadataKey h.entry path) (arrayMetadataText env m)

/-- `exists` (storage.rs:180-194). -/
def nodeExists (h : Hier) (path : Str) : Prog Bool := do
  let a ← pExists (arrayMetadataKey h.entry path)
  if a then pure true
  else do
    let g ← pExists (groupMetadataKey h.entry path)
    if g then pure true
    else pExists (setExtension (setExtension (groupMetadataKey h.entry path) []) [])

/-- `array_exists` (lib.rs:229-231). -/
def arrayExists (env : Env) (h : Hier) (path : Str) : Prog Bool := do
  let e ← nodeExists h path
  if e then do
    let r ← (getArrayMetadata env h path).record id
    match r with
    | .ok _ => pure true
    | .err _ => pure false
    | .panic => pLift .panic
  else pure false

/-- `read_chunk` (storage.rs:206-235). -/
def readChunk (env : Env) (path : Str) (m : ArrayMetadata) (t : RsType) (pos : List Nat) :
    Prog (Option (DataChunk t)) := do
  pLift (assertInBounds m pos)
  let v ← pGet (chunkKey path m pos)
  match v with
  | none => pure none
  | some b => do
    let c ← pLift (readChunkBytes env.codecs env.native m t pos b)
    pure (some c)

/-- `read_chunk_into` (storage.rs:237-267). -/
def readChunkInto (env : Env) (path : Str) (m : ArrayMetadata) (t : RsType) (pos : List Nat)
    (buf : DataChunk t) : Prog (Bool × DataChunk t) := do
  pLift (assertInBounds m pos)
  let v ← pGet (chunkKey path m pos)
  match v with
  | none => pure (false, buf)
  | some b => do
    let c ← pLift (readChunkIntoBytes env.codecs env.native m t pos b buf)
    pure (true, c)

/-- `write_chunk` (storage.rs:456-470). -/
def writeChunk (env : Env) (path : Str) (m : ArrayMetadata) {t : RsType} (c : DataChunk t) : Prog Unit :=
  pSet (chunkKey path m c.gridPosition) (writeChunkBytes env.codecs env.native m c)

/-- `delete_chunk` (storage.rs:472-480). -/
def deleteChunk (path : Str) (m : ArrayMetadata) (pos : List Nat) : Prog Bool :=
  pErase (chunkKey path m pos)

/-- Reading one chunk with or without a buffer (ndarray.rs:222-231). -/
def readCoord (env : Env) (path : Str) (m : ArrayMetadata) (t : RsType) (pos : List Nat)
    (buf : Option (DataChunk t)) : Prog (Bool × Option (DataChunk t)) :=
  match buf with
  | none => do
    let c ← readChunk env path m t pos
    pure (c.isSome, c)
  | some b => do
    let r ← readChunkInto env path m t pos b
    pure (r.1, some r.2)

/-- The loop of `read_ndarray_into_with_buffer` (ndarray.rs:221-265). -/
def readLoop (env : Env) (path : Str) (m : ArrayMetadata) (t : RsType) (bbox : BBox) :
    List (List Nat) → NdArr (El t) → Option (DataChunk t) → Prog (NdArr (El t) × Option (DataChunk t))
  | [], arr, buf => pure (arr, buf)
  | pos :: rest, arr, buf => do
    let r ← readCoord env path m t pos buf
    match r.1, r.2 with
    | true, some chunk => do
      let arr ← pLift (copyChunk m bbox chunk arr)
      readLoop env path m t bbox rest arr r.2
    | _, buf => readLoop env path m t bbox rest arr buf

/-- `read_ndarray_into_with_buffer` (ndarray.rs:195-268). -/
def readNdarrayIntoWithBuffer (env : Env) (path : Str) (m : ArrayMetadata) (t : RsType)
    (bbox : BBox) (arr : NdArr (El t)) (buf : Option (DataChunk t)) :
    Prog (NdArr (El t) × Option (DataChunk t)) :=
  if bbox.offset.length ≠ m.shape.length ∨ m.shape.length ≠ arr.shape.length then
    pLift (.err .invalidData)
  else if bbox.shape ≠ arr.shape then pLift (.err .invalidData)
  else do
    let it ← pLift (m.boundedCoordIter bbox)
    readLoop env path m t bbox it.rest arr buf

/-- `read_ndarray_into` (ndarray.rs:178-190). -/
def readNdarrayInto (env : Env) (path : Str) (m : ArrayMetadata) (t : RsType)
    (bbox : BBox) (arr : NdArr (El t)) : Prog (NdArr (El t)) := do
  let r ← readNdarrayIntoWithBuffer env path m t bbox arr none
  pure r.1

/-- `read_ndarray` (ndarray.rs:154-174). -/
def readNdarray (env : Env) (path : Str) (m : ArrayMetadata) (t : RsType) (bbox : BBox) :
    Prog (NdArr (El t)) := do
  let fill ← pLift (effectiveFillValue env m t)
  readNdarrayInto env path m t bbox (NdArr.fromElem bbox.shape fill)

/-- The partial-chunk branch of `write_ndarray` (ndarray.rs:337-380). -/
def writePartial (env : Env) (path : Str) (m : ArrayMetadata) {t : RsType}
    (fill : El t) (pos : List Nat) (nomBb writeBb : BBox) (arrView : NdArr (El t))
    (existing : List (El t)) : Prog (List (El t)) := do
  let r ← readChunkInto env path m t pos ⟨pos, existing⟩
  let c ← pLift (
    if r.1 then do
      let a ← fromShapeVec m.order m.chunkShape r.2.data
      pure (m.chunkBounds r.2.gridPosition, a, m.order)
    else do
      let a ← fromShapeVec .rowMajor nomBb.shape (List.replicate nomBb.shape.prod fill)
      pure (nomBb, a, Order.rowMajor))
  let chunkWriteBb ← pLift (writeBb.sub c.1.offset)
  let a ← pLift (c.2.1.sliceAssign chunkWriteBb.toSlice arrView)
  writeChunk env path m ⟨pos, a.toVec m.order⟩
  pure (a.toVec c.2.2)

/-- One round of the loop of `write_ndarray` (ndarray.rs:317-382). -/
def writeCoord (env : Env) (path : Str) (m : ArrayMetadata) {t : RsType} (bbox : BBox)
    (fill : El t) (array : NdArr (El t)) (pos : List Nat) (existing : List (El t)) :
    Prog (List (El t)) := do
  let nomBb := m.chunkBounds pos
  let writeBb ← pLift (nomBb.intersect bbox)
  let arrBb ← pLift (writeBb.sub bbox.offset)
  let arrView ← pLift (array.slice arrBb.toSlice)
  if writeBb = nomBb then do
    writeChunk env path m ⟨pos, arrView.toVec m.order⟩
    pure existing
  else writePartial env path m fill pos nomBb writeBb arrView existing

/-- The loop of `write_ndarray`. -/
def writeLoop (env : Env) (path : Str) (m : ArrayMetadata) {t : RsType} (bbox : BBox)
    (fill : El t) (array : NdArr (El t)) : List (List Nat) → List (El t) → Prog Unit
  | [], _ => pure ()
  | pos :: rest, existing => do
    let e ← writeCoord env path m bbox fill array pos existing
    writeLoop env path m bbox fill array rest e

/-- `write_ndarray` (ndarray.rs:276-385). -/
def writeNdarray (env : Env) (path : Str) (m : ArrayMetadata) {t : RsType}
    (offset : List Nat) (array : NdArr (El t)) : Prog Unit :=
  if array.shape.length ≠ m.shape.length then pLift (.err .invalidData)
  else do
    let bbox : BBox := ⟨offset, array.shape⟩
    let fill ← pLift (effectiveFillValue env m t)
    let it ← pLift (m.boundedCoordIter bbox)
    writeLoop env path m bbox fill array it.rest []

end Zarr.Threads
