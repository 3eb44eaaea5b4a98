import Verif.Model.Threads
/-!
# Concurrent calls that remove trees and list directories

`Model/Threads.lean` with `erase_prefix` and `list_dir` as system calls too, so that `remove` and
`list_nodes` can run at the same time as other calls.

Simplifications, besides those of `Model/Threads.lean`: the names in a directory are read in one step, when
the directory is opened; the type of an entry is the one it has then. -/

namespace Zarr

/-- `rmdir(2)`. The error for a directory that is not empty has no `ErrorKind` of its own. -/
def Fs.rmdir (fs : Fs) (p : List Str) : Outcome Fs :=
  match fs.locate p with
  | .ok l =>
    match fs.get l with
    | some .dir => if l = [] ∨ fs.children l ≠ [] then .err .other else .ok (fs.del l)
    | some (.file _) => .err .notADirectory
    | none => .err .notFound
  | .err e => .err e
  | .panic => .panic

namespace Wide

/-- A program that calls the store. What it does next depends on the result of the last call. -/
inductive Prog (α : Type) where
  | done (r : Outcome α)
  | exists (key : Str) (k : Outcome Bool → Prog α)
  | get (key : Str) (k : Outcome (Option Bytes) → Prog α)
  | set (key : Str) (v : Bytes × Outcome Unit) (k : Outcome Unit → Prog α)
  | erase (key : Str) (k : Outcome Bool → Prog α)
  | erasePrefix (key : Str) (k : Outcome Bool → Prog α)
  | listDir (pre : Str) (k : Outcome (List Str × List Str) → Prog α)

namespace Prog

/-- Go on with the value; errors and panics end the program (`?`). -/
def bind {α β : Type} (p : Prog α) (f : α → Prog β) : Prog β :=
  match p with
  | .done (.ok a) => f a
  | .done (.err e) => .done (.err e)
  | .done .panic => .done .panic
  | .exists key k => .exists key fun r => (k r).bind f
  | .get key k => .get key fun r => (k r).bind f
  | .set key v k => .set key v fun r => (k r).bind f
  | .erase key k => .erase key fun r => (k r).bind f
  | .erasePrefix key k => .erasePrefix key fun r => (k r).bind f
  | .listDir key k => .listDir key fun r => (k r).bind f

instance : Monad Prog where
  pure a := .done (.ok a)
  bind := bind

/-- Go on with the outcome, whatever it is. -/
def record {α β : Type} (f : Outcome α → β) : Prog α → Prog β
  | .done r => .done (.ok (f r))
  | .exists key k => .exists key fun r => (k r).record f
  | .get key k => .get key fun r => (k r).record f
  | .set key v k => .set key v fun r => (k r).record f
  | .erase key k => .erase key fun r => (k r).record f
  | .erasePrefix key k => .erasePrefix key fun r => (k r).record f
  | .listDir key k => .listDir key fun r => (k r).record f

/-- The program run alone. -/
def run {α : Type} (h : Hier) : Prog α → M Fs α
  | .done r => M.lift r
  | .exists key k => fun fs => (k (storeExists h key fs).1).run h (storeExists h key fs).2
  | .get key k => fun fs => (k (storeGet h key fs).1).run h (storeGet h key fs).2
  | .set key v k => fun fs => (k (storeSet h key v fs).1).run h (storeSet h key v fs).2
  | .erase key k => fun fs => (k (storeErase h key fs).1).run h (storeErase h key fs).2
  | .erasePrefix key k => fun fs => (k (storeErasePrefix h key fs).1).run h (storeErasePrefix h key fs).2
  | .listDir pre k => fun fs => (k (storeListDir h pre fs).1).run h (storeListDir h pre fs).2

/-- A program of the other model. -/
def of {α : Type} : Threads.Prog α → Prog α
  | .done r => .done r
  | .exists key k => .exists key fun r => of (k r)
  | .get key k => .get key fun r => of (k r)
  | .set key v k => .set key v fun r => of (k r)
  | .erase key k => .erase key fun r => of (k r)

end Prog

/-! ## System calls -/

/-- What `walkdir` with `contents_first` is about to do (filesystem.rs:298). -/
inductive Item where
  /-- `lstat` of the path it was given. -/
  | stat (q : List Str)
  /-- `read_dir` of a directory. -/
  | open (q : List Str)
  /-- The body of the loop for a file (filesystem.rs:304-306). -/
  | file (q : List Str)
  /-- The body of the loop for a directory, whose contents were handled (filesystem.rs:302). -/
  | rmdir (q : List Str)

/-- What a thread does next. -/
inductive Pc (α : Type) where
  /-- Between calls. The first step of a call includes its first look at the filesystem. -/
  | prog (p : Prog α)
  /-- In one of the calls of `Model/Threads.lean`, which returns the rest of the program. -/
  | base (pc : Threads.Pc (Prog α))
  /-- In `erase_prefix` of the path `p`: the steps before the loop is done, then `!path.exists()`
  (filesystem.rs:298-311). -/
  | walk (p : List Str) (items : List Item) (k : Outcome Bool → Prog α)
  /-- `lock_exclusive` on the file `q` (filesystem.rs:305). -/
  | walkLock (p q : List Str) (l : Loc) (items : List Item) (k : Outcome Bool → Prog α)
  /-- `remove_file` (filesystem.rs:306), after which the file is closed. -/
  | walkUnlink (p q : List Str) (l : Loc) (items : List Item) (k : Outcome Bool → Prog α)
  /-- In `list_dir` of the path `p`: `metadata` of the entries (filesystem.rs:232-251). -/
  | listing (pre : Str) (p : List Str) (names : List Str) (keys prefixes : List Str)
      (k : Outcome (List Str × List Str) → Prog α)

/-- The state after a step of a call of `Model/Threads.lean`. -/
def Pc.ofBase {α : Type} : Threads.Pc (Prog α) → Pc α
  | .prog (.done (.ok p)) => .prog p
  | pc => .base pc

/-- The thread as the other model sees it, as far as locks go. -/
def Pc.locks {α : Type} : Pc α → Option (Threads.Pc (Prog α))
  | .base pc => some pc
  | .walkUnlink _ q l _ _ => some (.eraUnlink q l fun _ => .done .panic)
  | _ => none

/-- A step of a call of `Model/Threads.lean`. -/
def baseNext {α : Type} (h : Hier) (pcs : List (Pc α)) (fs : Fs) (pc : Threads.Pc (Prog α)) : Option (Pc α × Fs) :=
  (pc.next h (pcs.filterMap Pc.locks) fs).map fun r => (.ofBase r.1, r.2)

/-- The next step of a thread: `none` if it has finished or has to wait. `pcs` are the threads. -/
def Pc.next {α : Type} (h : Hier) (pcs : List (Pc α)) (fs : Fs) : Pc α → Option (Pc α × Fs)
  | .prog (.done _) => none
  | .prog (.exists key k) => baseNext h pcs fs (.prog (.exists key fun r => .done (.ok (k r))))
  | .prog (.get key k) => baseNext h pcs fs (.prog (.get key fun r => .done (.ok (k r))))
  | .prog (.set key v k) => baseNext h pcs fs (.prog (.set key v fun r => .done (.ok (k r))))
  | .prog (.erase key k) => baseNext h pcs fs (.prog (.erase key fun r => .done (.ok (k r))))
  | .base pc => baseNext h pcs fs pc
  -- filesystem.rs:295-297
  | .prog (.erasePrefix key k) =>
    match getPath h.base key with
    | .ok t => some (.walk (segs t) (if fs.pathExists (segs t) then [.stat (segs t)] else []) k, fs)
    | .err e => some (.prog (k (.err e)), fs)
    | .panic => some (.prog (k .panic), fs)
  | .walk p [] k => some (.prog (k (.ok (!fs.pathExists p))), fs)
  | .walk p (.stat q :: r) k =>
    match fs.locate q with
    | .ok l =>
      match fs.get l with
      | some .dir => some (.walk p (.open q :: r) k, fs)
      | some (.file _) => some (.walk p (.file q :: r) k, fs)
      | none => some (.prog (k (.err .notFound)), fs)
    | .err e => some (.prog (k (.err e)), fs)
    | .panic => some (.prog (k .panic), fs)
  | .walk p (.open q :: r) k =>
    match fs.locate q with
    | .ok l =>
      match fs.get l with
      | some .dir =>
        some (.walk p ((fs.children l).map (fun e =>
          if e.2 = .dir then .open (q ++ [e.1]) else .file (q ++ [e.1])) ++ .rmdir q :: r) k, fs)
      | some (.file _) => some (.prog (k (.err .notADirectory)), fs)
      | none => some (.prog (k (.err .notFound)), fs)
    | .err e => some (.prog (k (.err e)), fs)
    | .panic => some (.prog (k .panic), fs)
  | .walk p (.file q :: r) k =>
    match fs.locate q with
    | .ok l => some (if (fs.get l).isSome then .walkLock p q l r k else .prog (k (.err .notFound)), fs)
    | .err e => some (.prog (k (.err e)), fs)
    | .panic => some (.prog (k .panic), fs)
  | .walkLock p q l r k =>
    if (pcs.filterMap Pc.locks).any (Threads.Pc.holds l) then none else some (.walkUnlink p q l r k, fs)
  | .walkUnlink p q _ r k =>
    match fs.locate q with
    | .ok l =>
      match fs.get l with
      | some (.file _) => some (.walk p r k, fs.del l)
      | some .dir => some (.prog (k (.err .isADirectory)), fs)
      | none => some (.prog (k (.err .notFound)), fs)
    | .err e => some (.prog (k (.err e)), fs)
    | .panic => some (.prog (k .panic), fs)
  | .walk p (.rmdir q :: r) k =>
    match fs.rmdir q with
    | .ok fs' => some (.walk p r k, fs')
    | .err e => some (.prog (k (.err e)), fs)
    | .panic => some (.prog (k .panic), fs)
  -- filesystem.rs:229-232
  | .prog (.listDir pre k) =>
    match getPath h.base pre with
    | .ok t =>
      match fs.locate (segs t) with
      | .ok l =>
        match fs.get l with
        | some .dir => some (.listing pre (segs t) ((fs.children l).map Prod.fst) [] [] k, fs)
        | some (.file _) => some (.prog (k (.err .notADirectory)), fs)
        | none => some (.prog (k (.err .notFound)), fs)
      | .err e => some (.prog (k (.err e)), fs)
      | .panic => some (.prog (k .panic), fs)
    | .err e => some (.prog (k (.err e)), fs)
    | .panic => some (.prog (k .panic), fs)
  | .listing _ _ [] keys prefixes k => some (.prog (k (.ok (keys, prefixes))), fs)
  | .listing pre p (n :: ns) keys prefixes k =>
    match fs.node (p ++ [n]) with
    | some (.file _) => some (.listing pre p ns (keys ++ [pre ++ n]) prefixes k, fs)
    | some .dir => some (.listing pre p ns keys (prefixes ++ [pre ++ n]) k, fs)
    | none => some (.listing pre p ns keys prefixes k, fs)

/-- The filesystem and the threads. -/
structure Sys (α : Type) where
  fs : Fs
  pcs : List (Pc α)

/-- Thread `t` takes its next step. -/
def Sys.advance {α : Type} (h : Hier) (s : Sys α) (t : Nat) : Option (Sys α) :=
  (s.pcs[t]?).bind fun pc => (pc.next h s.pcs s.fs).map fun r => ⟨r.2, s.pcs.set t r.1⟩

/-- Run a schedule: which thread takes a step. -/
def Sys.run {α : Type} (h : Hier) (s : Sys α) : List Nat → Option (Sys α)
  | [] => some s
  | t :: ts => (s.advance h t).bind fun s' => s'.run h ts

/-- The threads before anything happened. -/
def Sys.initial {α : Type} (fs : Fs) (ps : List (Prog α)) : Sys α := ⟨fs, ps.map .prog⟩

/-- The result of a thread that has finished. -/
def Sys.result {α : Type} (s : Sys α) (t : Nat) : Option (Outcome α) :=
  match s.pcs[t]? with
  | some (.prog (.done r)) => some r
  | _ => none

/-! ## The API calls as programs -/

/-- `remove` (storage.rs:444-454). -/
def remove (h : Hier) (path : Str) : Prog Unit := do
  let _ ← (.erase (groupMetadataKey h.entry path) .done : Prog Bool)
  let _ ← (.erase (arrayMetadataKey h.entry path) .done : Prog Bool)
  let _ ← (.erasePrefix (dataPathKey path) .done : Prog Bool)
  pure ()

/-- `list_nodes` (storage.rs:310-357). -/
def listNodes (env : Env) (h : Hier) (path : Str) : Prog (List Str) := do
  let r ← (.listDir (metaRoot ++ '/' :: canonicalizePath path) .done : Prog (List Str × List Str))
  .done (listNodesOf env h.entry.metadataKeySuffix (metaRoot ++ '/' :: canonicalizePath path) r.1 r.2)

end Wide

end Zarr
