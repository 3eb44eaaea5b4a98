import Verif.Basic
/-!
# Concurrent store calls on one key

Any number of threads (or processes) call `get`, `set` and `erase` for the same key of the filesystem
store at the same time. A call is the sequence of system calls in its body, and those of different
calls happen in any order. Files are inodes, so that a file can lose its name while it is open. The
locks of the crate `fs2` are `flock` locks: advisory, shared or exclusive, attached to the open file,
released when it is closed. A call that wants a lock waits until it can have it.

Simplifications: the parent directory of the key exists and is not removed; the closure given to `set`
writes the whole value and succeeds; a value is written and read byte by byte, which includes every way
of splitting it; nobody dies. -/

namespace Zarr.Locks

/-- A call of the store. -/
inductive Call where
  | get
  | set (v : Bytes)
  | erase
  deriving DecidableEq, Repr

/-- What a call returned: `Ok(value)` of `get`, `Ok(())` of `set`, `Ok(b)` of `erase`, or an error
with kind `NotFound`. -/
inductive Result where
  | got (v : Option Bytes)
  | wrote
  | erased (b : Bool)
  | notFound
  deriving DecidableEq, Repr

/-- What a thread does next. Inodes are numbers. -/
inductive Pc where
  /-- Between calls, with the result of the last one. -/
  | idle (r : Option Result)
  /-- `get`: `is_file` (filesystem.rs:203). -/
  | getCheck
  /-- `get`: `File::open` (filesystem.rs:204). -/
  | getOpen
  /-- `get`: `lock_shared` (filesystem.rs:205). -/
  | getLock (i : Nat)
  /-- The caller of `get` reads, having read `acc` (filesystem.rs:206). -/
  | getRead (i : Nat) (acc : Bytes)
  /-- `set`: `OpenOptions::open` with `create` (filesystem.rs:268-272). -/
  | setOpen (v : Bytes)
  /-- `set`: `lock_exclusive` (filesystem.rs:273). -/
  | setLock (i : Nat) (v : Bytes)
  /-- `set`: `set_len(0)` (filesystem.rs:275). -/
  | setTrunc (i : Nat) (v : Bytes)
  /-- `set`: the closure writes, `n` bytes so far (filesystem.rs:277-279). -/
  | setWrite (i : Nat) (v : Bytes) (n : Nat)
  /-- `erase`: `exists` (filesystem.rs:285). -/
  | eraCheck
  /-- `erase`: `File::open` (filesystem.rs:286). -/
  | eraOpen
  /-- `erase`: `lock_exclusive` (filesystem.rs:287). -/
  | eraLock (i : Nat)
  /-- `erase`: `remove_file` (filesystem.rs:288). -/
  | eraUnlink (i : Nat)
  /-- `erase`: the file is closed (filesystem.rs:289). -/
  | eraClose (i : Nat)
  /-- `erase`: `!path.exists()` (filesystem.rs:291). -/
  | eraFinal
  deriving DecidableEq, Repr

/-- The thread holds an exclusive lock on the inode. -/
def Pc.exclusive (i : Nat) : Pc → Bool
  | .setTrunc j _ => i == j
  | .setWrite j _ _ => i == j
  | .eraUnlink j => i == j
  | .eraClose j => i == j
  | _ => false

/-- The thread holds a lock on the inode. -/
def Pc.holds (i : Nat) : Pc → Bool
  | .getRead j _ => i == j
  | p => p.exclusive i

/-- The state: the inode the key names, the contents of the inodes, the threads, and, for the
specification only, the values whose `set` has returned. -/
structure Sys where
  entry : Option Nat
  data : List Bytes
  pcs : List Pc
  log : List Bytes
  deriving DecidableEq, Repr

/-- The content of an inode. -/
def Sys.content (s : Sys) (i : Nat) : Bytes := s.data[i]?.getD []

/-- The first step of a call. -/
def Call.begin : Call → Pc
  | .get => .getCheck
  | .set v => .setOpen v
  | .erase => .eraCheck

/-- The next step of a thread at `p`: `none` if it has to wait or has nothing to do. The result is the
new position of the thread and the new state of everything but the threads. -/
def Sys.next (s : Sys) : Pc → Option (Pc × Sys)
  | .idle _ => none
  | .getCheck => some (if s.entry.isSome then .getOpen else .idle (some (.got none)), s)
  | .getOpen =>
    match s.entry with
    | some i => some (.getLock i, s)
    | none => some (.idle (some .notFound), s)
  | .getLock i => if s.pcs.any (Pc.exclusive i) then none else some (.getRead i [], s)
  | .getRead i acc =>
    match (s.content i)[acc.length]? with
    | some b => some (.getRead i (acc ++ [b]), s)
    | none => some (.idle (some (.got (some acc))), s)
  | .setOpen v =>
    match s.entry with
    | some i => some (.setLock i v, s)
    | none =>
      some (.setLock s.data.length v, { s with entry := some s.data.length, data := s.data ++ [[]] })
  | .setLock i v => if s.pcs.any (Pc.holds i) then none else some (.setTrunc i v, s)
  | .setTrunc i v => some (.setWrite i v 0, { s with data := s.data.set i [] })
  | .setWrite i v n =>
    match v[n]? with
    | some b =>
      some (.setWrite i v (n + 1),
        { s with data := s.data.set i ((s.content i).take n ++ b :: (s.content i).drop (n + 1)) })
    | none => some (.idle (some .wrote), { s with log := v :: s.log })
  | .eraCheck => some (if s.entry.isSome then .eraOpen else .eraFinal, s)
  | .eraOpen =>
    match s.entry with
    | some i => some (.eraLock i, s)
    | none => some (.idle (some .notFound), s)
  | .eraLock i => if s.pcs.any (Pc.holds i) then none else some (.eraUnlink i, s)
  | .eraUnlink i =>
    if s.entry.isSome then some (.eraClose i, { s with entry := none })
    else some (.idle (some .notFound), s)
  | .eraClose _ => some (.eraFinal, s)
  | .eraFinal => some (.idle (some (.erased s.entry.isNone)), s)

/-- Thread `t` takes its next step. -/
def Sys.advance (s : Sys) (t : Nat) : Option Sys :=
  match s.pcs[t]? with
  | some p =>
    match s.next p with
    | some (p', s') => some { s' with pcs := s.pcs.set t p' }
    | none => none
  | none => none

/-- Thread `t`, between calls, starts a call. -/
def Sys.start (s : Sys) (t : Nat) (c : Call) : Option Sys :=
  match s.pcs[t]? with
  | some (.idle _) => some { s with pcs := s.pcs.set t c.begin }
  | _ => none

/-- One step of the whole system in which only calls allowed by `P` are started. -/
inductive Step (P : Call → Prop) (s s' : Sys) : Prop
  | start (t : Nat) (c : Call) (hc : P c) (h : s.start t c = some s')
  | advance (t : Nat) (h : s.advance t = some s')

/-- The states that can be reached from `s`. -/
inductive Reach (P : Call → Prop) (s : Sys) : Sys → Prop
  | refl : Reach P s s
  | step {s1 s2 : Sys} : Reach P s s1 → Step P s1 s2 → Reach P s s2

/-- A schedule: which thread starts which call or goes on. -/
def Sys.run (s : Sys) : List (Nat × Option Call) → Option Sys
  | [] => some s
  | (t, some c) :: rest => (s.start t c).bind fun s' => s'.run rest
  | (t, none) :: rest => (s.advance t).bind fun s' => s'.run rest

/-- Before anything happens: `n` threads between calls, and the key absent or holding a value. -/
def Sys.initial (v : Option Bytes) (n : Nat) : Sys where
  entry := v.map fun _ => 0
  data := v.toList
  pcs := List.replicate n (.idle none)
  log := []

end Zarr.Locks
