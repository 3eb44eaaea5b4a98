import Verif.Model.Threads
/-!
# System calls that fail

Any system call of an API call may fail with any error, any number of times: the device, the network
filesystem or the permissions. The calls are the programs of `Model/Threads.lean`, run alone, with a
schedule that says which of their steps fail and how.

Simplifications: a system call that fails has no effect (of a write, the bytes before the one that failed
have been written); all errors of `exists` and `is_file` count as "no", as in `std` of the Rust version the
crate is built with; a system call that `std` repeats because a signal interrupted it is one step. -/

namespace Zarr.Threads

/-- How a system call fails. -/
structure Fault where
  error : ErrKind
  /-- The write is one that `BufWriter` makes when it is dropped, which ignores errors. -/
  onDrop : Bool

/-- The step of a call in which its system call fails; `none` if the step makes no system call. -/
def Pc.failed {α : Type} (h : Hier) (f : Fault) : Pc α → Option (Pc α)
  | .prog (.done _) => none
  -- `is_file` (filesystem.rs:198)
  | .prog (.exists key k) =>
    match getPath h.base key with
    | .ok _ => some (.prog (k (.ok false)))
    | _ => none
  -- `is_file` (filesystem.rs:203)
  | .prog (.get key k) =>
    match getPath h.base key with
    | .ok _ => some (.prog (k (.ok none)))
    | _ => none
  -- `parent.exists` (filesystem.rs:263); there is none for the root
  | .prog (.set key v k) =>
    match getPath h.base key with
    | .ok t => if (segs t).isEmpty then none else some (.mkdirDown (segs t) ((segs t).length - 1) v k)
    | _ => none
  -- `path.exists` (filesystem.rs:285)
  | .prog (.erase key k) =>
    match getPath h.base key with
    | .ok t => some (.eraFinal (segs t) k)
    | _ => none
  | .getOpen _ k => some (.prog (k (.err f.error)))
  | .getLock _ k => some (.prog (k (.err f.error)))
  | .getRead _ _ k => some (.prog (k (.err f.error)))
  -- std `DirBuilder::create_dir_all`
  | .mkdirDown p n v k =>
    if n = 0 then some (.prog (k (.err .notFound)))
    else some (if f.error = .notFound then .mkdirDown p (n - 1) v k else .mkdirDir p n f.error v k)
  | .mkdirDir _ _ e _ k => some (.prog (k (.err e)))
  | .mkdirUp p n v k => if p.length ≤ n then none else some (.mkdirDir p n f.error v k)
  | .setOpen _ _ k => some (.prog (k (.err f.error)))
  | .setLock _ _ k => some (.prog (k (.err f.error)))
  | .setTrunc _ _ k => some (.prog (k (.err f.error)))
  | .setWrite _ v n k =>
    if n < v.1.length then some (.prog (k (if f.onDrop then v.2 else .err f.error))) else none
  | .eraOpen _ k => some (.prog (k (.err f.error)))
  | .eraLock _ _ k => some (.prog (k (.err f.error)))
  | .eraUnlink _ _ k => some (.prog (k (.err f.error)))
  -- `!path.exists()` (filesystem.rs:291)
  | .eraFinal _ k => some (.prog (k (.ok true)))

/-- One step of a call that runs alone; its system call, if it makes one, may fail. -/
def Pc.stepFaulty {α : Type} (h : Hier) (pc : Pc α) (fs : Fs) : Option Fault → Option (Pc α × Fs)
  | none => pc.next h [] fs
  | some f =>
    match pc.failed h f with
    | some pc' => some (pc', fs)
    | none => pc.next h [] fs

/-- The steps of a call, with a schedule of failures; `none` if it ends before the schedule does. -/
def Pc.runFaulty {α : Type} (h : Hier) (pc : Pc α) (fs : Fs) : List (Option Fault) → Option (Pc α × Fs)
  | [] => some (pc, fs)
  | f :: s => (pc.stepFaulty h fs f).bind fun r => r.1.runFaulty h r.2 s

end Zarr.Threads
