import Verif.Model.Faults
import Verif.Model.Walk
/-!
# System calls that fail in `remove` and `list_nodes`

As `Model/Faults.lean`, for the programs of `Model/Walk.lean`, which also remove trees and list directories.

Simplification: `readdir(3)` that fails in the middle of a directory skips one entry, as a failing `stat` does
(`filter_map(.. .ok())`, filesystem.rs:232-242); in `walkdir` it ends the call, as every error does. -/

namespace Zarr.Wide

/-- The step of a call in which its system call fails; `none` if the step makes no system call. -/
def Pc.failed {α : Type} (h : Hier) (f : Threads.Fault) : Pc α → Option (Pc α)
  | .prog (.done _) => none
  | .prog (.exists key k) => (Threads.Pc.failed h f (.prog (.exists key fun r => .done (.ok (k r))))).map .ofBase
  | .prog (.get key k) => (Threads.Pc.failed h f (.prog (.get key fun r => .done (.ok (k r))))).map .ofBase
  | .prog (.set key v k) => (Threads.Pc.failed h f (.prog (.set key v fun r => .done (.ok (k r))))).map .ofBase
  | .prog (.erase key k) => (Threads.Pc.failed h f (.prog (.erase key fun r => .done (.ok (k r))))).map .ofBase
  | .base pc => (pc.failed h f).map .ofBase
  -- `path.exists` (filesystem.rs:297)
  | .prog (.erasePrefix key k) =>
    match getPath h.base key with
    | .ok t => some (.walk (segs t) [] k)
    | _ => none
  -- `!path.exists()` (filesystem.rs:311)
  | .walk _ [] k => some (.prog (k (.ok true)))
  -- `entry?` (filesystem.rs:299), `File::open` (304), `remove_dir` (302)
  | .walk _ (_ :: _) k => some (.prog (k (.err f.error)))
  -- `lock_exclusive` (filesystem.rs:305)
  | .walkLock _ _ _ _ k => some (.prog (k (.err f.error)))
  -- `remove_file` (filesystem.rs:306)
  | .walkUnlink _ _ _ _ k => some (.prog (k (.err f.error)))
  -- `read_dir` (filesystem.rs:232)
  | .prog (.listDir pre k) =>
    match getPath h.base pre with
    | .ok _ => some (.prog (k (.err f.error)))
    | _ => none
  | .listing _ _ [] _ _ _ => none
  -- `metadata` (filesystem.rs:234); `filter_map` with `.ok()` drops the entry
  | .listing pre p (_ :: ns) keys prefixes k => some (.listing pre p ns keys prefixes k)

/-- One step of a call that runs alone; its system call, if it makes one, may fail. -/
def Pc.stepFaulty {α : Type} (h : Hier) (pc : Pc α) (fs : Fs) : Option Threads.Fault → Option (Pc α × Fs)
  | none => pc.next h [] fs
  | some f =>
    match pc.failed h f with
    | some pc' => some (pc', fs)
    | none => pc.next h [] fs

/-- The steps of a call, with a schedule of failures; `none` if it ends before the schedule does. -/
def Pc.runFaulty {α : Type} (h : Hier) (pc : Pc α) (fs : Fs) : List (Option Threads.Fault) → Option (Pc α × Fs)
  | [] => some (pc, fs)
  | f :: s => (pc.stepFaulty h fs f).bind fun r => r.1.runFaulty h r.2 s

end Zarr.Wide
