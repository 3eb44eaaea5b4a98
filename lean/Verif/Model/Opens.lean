import Verif.Model.Store
/-!
# Several processes open or create one hierarchy

Any number of threads or processes call `open` or `open_or_create` for the same base path at the same time. A
call is the sequence of its system calls, and those of different calls happen in any order. The lock of the
creating branch is a `flock` lock (crate `fs2`); the reading branch takes none.

Simplifications: the document is written and read byte by byte, which includes every way of splitting it; it is
read to its end before it is parsed; nobody dies and nobody else uses the directory. -/

namespace Zarr.Opens

/-- What a call does next. -/
inductive Pc where
  /-- `open_or_create`: `entry_point_path.exists()` (filesystem.rs:88). -/
  | check
  /-- `create_dir_all` (filesystem.rs:91): the first `mkdir`, of the first `n` components. -/
  | mkdirDown (n : Nat)
  /-- `create_dir_all`: the `is_dir` after a `mkdir` that failed with `e`. -/
  | mkdirDir (n : Nat) (e : ErrKind)
  /-- `create_dir_all`: the `mkdir` after the parent was made. -/
  | mkdirUp (n : Nat)
  /-- `OpenOptions::open` with `create` (filesystem.rs:93-97). -/
  | openNew
  /-- `lock_exclusive` (filesystem.rs:98). -/
  | lock (l : Loc)
  /-- `serde_json::to_writer` (filesystem.rs:100-101), `n` bytes so far. The file is closed with the last one. -/
  | write (l : Loc) (n : Nat)
  /-- `File::open` (filesystem.rs:52). -/
  | readOpen
  /-- `serde_json::from_reader` (filesystem.rs:53), having read `acc`. -/
  | read (l : Loc) (acc : Bytes)
  /-- The call has returned. -/
  | done (r : Outcome Hier)
  deriving DecidableEq

/-- The first step of `open_or_create` (`true`, filesystem.rs:84-88) or `open` (`false`, filesystem.rs:63-65). -/
def begin (create : Bool) : Pc := if create then .check else .readOpen

/-- The call holds the lock of the file at `l`. -/
def Pc.holds (l : Loc) : Pc → Bool
  | .write l' _ => decide (l = l')
  | _ => false

/-- The document that is written (filesystem.rs:92, 101). -/
def document (env : Env) : Bytes := env.json.print EntryPointMetadata.default.toJson

/-- The next step of a call: `none` if it has returned or has to wait. `pcs` are all calls. -/
def Pc.next (env : Env) (base : Str) (pcs : List Pc) (fs : Fs) : Pc → Option (Pc × Fs)
  | .check =>
    some (if fs.pathExists (segs (joinPath base entryPointKey)) then .readOpen
      else .mkdirDown (segs base).length, fs)
  | .mkdirDown n =>
    if n = 0 then some (if fs.isDir [] then .mkdirUp 1 else .done (.err .notFound), fs)
    else
      match fs.mkdir ((segs base).take n) with
      | .ok fs' => some (.mkdirUp (n + 1), fs')
      | .err e => some (if e = .notFound then .mkdirDown (n - 1) else .mkdirDir n e, fs)
      | .panic => some (.done .panic, fs)
  | .mkdirDir n e => some (if fs.isDir ((segs base).take n) then .mkdirUp (n + 1) else .done (.err e), fs)
  | .mkdirUp n =>
    if (segs base).length < n then some (.openNew, fs)
    else
      match fs.mkdir ((segs base).take n) with
      | .ok fs' => some (.mkdirUp (n + 1), fs')
      | .err e => some (.mkdirDir n e, fs)
      | .panic => some (.done .panic, fs)
  | .openNew =>
    match Fs.openCreate (segs (joinPath base entryPointKey)) fs with
    | .ok (l, fs') => some (.lock l, fs')
    | .err e => some (.done (.err e), fs)
    | .panic => some (.done .panic, fs)
  | .lock l => if pcs.any (Pc.holds l) then none else some (.write l 0, fs)
  | .write l n =>
    match (document env)[n]? with
    | some b =>
      let old := match fs.get l with
        | some (.file b) => b
        | _ => []
      some (.write l (n + 1), fs.put l (.file (old.take n ++ b :: old.drop (n + 1))))
    | none => some (.done (checkVersion env ⟨base, EntryPointMetadata.default⟩), fs)
  | .readOpen =>
    match fs.locate (segs (joinPath base entryPointKey)) with
    | .ok l => some (if (fs.get l).isSome then .read l [] else .done (.err .notFound), fs)
    | .err e => some (.done (.err e), fs)
    | .panic => some (.done .panic, fs)
  | .read l acc =>
    match fs.get l with
    | some .dir => some (.done (.err .isADirectory), fs)
    | some (.file c) =>
      match c[acc.length]? with
      | some b => some (.read l (acc ++ [b]), fs)
      | none => some (.done (parseEntryPoint env acc >>= fun e => checkVersion env ⟨base, e⟩), fs)
    | none => some (.done (.err .notFound), fs)
  | .done _ => none

/-- The filesystem and the calls. -/
structure Sys where
  fs : Fs
  pcs : List Pc

/-- Call `t` takes its next step. -/
def Sys.advance (env : Env) (base : Str) (s : Sys) (t : Nat) : Option Sys :=
  (s.pcs[t]?).bind fun pc => (pc.next env base s.pcs s.fs).map fun r => ⟨r.2, s.pcs.set t r.1⟩

/-- Run a schedule: which call takes a step. -/
def Sys.run (env : Env) (base : Str) (s : Sys) : List Nat → Option Sys
  | [] => some s
  | t :: ts => (s.advance env base t).bind fun s' => s'.run env base ts

/-- The calls before anything happened: `true` for `open_or_create`, `false` for `open`. -/
def Sys.initial (fs : Fs) (calls : List Bool) : Sys := ⟨fs, calls.map begin⟩

/-- The result of a call that has returned. -/
def Sys.result (s : Sys) (t : Nat) : Option (Outcome Hier) :=
  match s.pcs[t]? with
  | some (.done r) => some r
  | _ => none

end Zarr.Opens
