import Verif.Model.Walk
/-!
# Symbolic links

`Model/Fs.lean` has no symbolic links. Here is a filesystem that has them, with the system calls that the store
makes, and the calls of the API on it. A path is resolved as path_resolution(7) says: symbolic links on the way are
always followed, one at the end is followed by `stat` and `open` and not by `mkdir`, `unlink` and `readdir`; a
resolution follows at most 40.

The removal of a tree that has links in it depends on what `walkdir` does with them and is a parameter here;
`Model/LinkWalk.lean` supplies it. -/

namespace Zarr.Links

/-- What a symbolic link holds: a path, from the root or from the directory of the link. -/
structure Link where
  absolute : Bool
  path : List Str
  deriving DecidableEq

/-- A filesystem: the files and directories, and the symbolic links. -/
structure LFs where
  fs : Fs
  links : List (Loc × Link)
  deriving DecidableEq

namespace LFs

/-- The symbolic link at a location. -/
def linkAt (s : LFs) (l : Loc) : Option Link := (s.links.find? fun e => decide (e.1 = l)).map Prod.snd

/-- Path resolution up to the first symbolic link that is followed, from directory `cur`; `onLink` goes on there.
`n` is the number of links that may still be followed. -/
def walkWith (s : LFs) (follow : Bool) (n : Nat) (onLink : Loc → List Str → Outcome (Loc × Nat)) :
    Loc → List Str → Outcome (Loc × Nat)
  | cur, [] => .ok (cur, n)
  | cur, x :: xs =>
    match s.fs.get cur with
    | none => .err .notFound
    | some (.file _) => .err .notADirectory
    | some .dir =>
      if x = dotdot then walkWith s follow n onLink cur.dropLast xs
      else
        match s.linkAt (cur ++ [x]) with
        | none => walkWith s follow n onLink (cur ++ [x]) xs
        | some k =>
          if xs = [] ∧ follow = false then .ok (cur ++ [x], n)
          else onLink (if k.absolute then [] else cur) (k.path ++ xs)

/-- Path resolution: the location, and how many links may still be followed. `follow` says whether a link at the
end is followed. -/
def walk (s : LFs) (follow : Bool) : Nat → Loc → List Str → Outcome (Loc × Nat)
  | 0 => s.walkWith follow 0 fun _ _ => .err .other
  | n + 1 => s.walkWith follow (n + 1) (walk s follow n)

/-- The location of a path, links followed. -/
def locate (s : LFs) (p : List Str) : Outcome (Loc × Nat) := s.walk true 40 [] p

/-- The location of a path, a link at the end not followed. -/
def locateEntry (s : LFs) (p : List Str) : Outcome (Loc × Nat) := s.walk false 40 [] p

/-- `stat(2)`. -/
def stat (s : LFs) (p : List Str) : Option Node :=
  match s.locate p with
  | .ok (l, _) => s.fs.get l
  | _ => none

/-- `Path::exists` (std). -/
def pathExists (s : LFs) (p : List Str) : Bool := (s.stat p).isSome

/-- `Path::is_file` (std). -/
def isFile (s : LFs) (p : List Str) : Bool :=
  match s.stat p with
  | some (.file _) => true
  | _ => false

/-- `Path::is_dir` (std). -/
def isDir (s : LFs) (p : List Str) : Bool := decide (s.stat p = some .dir)

/-- Make `l` hold `n`. -/
def put (s : LFs) (l : Loc) (n : Node) : LFs := { s with fs := s.fs.put l n }

/-- `mkdir(2)`. -/
def mkdir (s : LFs) (p : List Str) : Outcome LFs :=
  match s.locateEntry p with
  | .ok (l, _) => if (s.linkAt l).isSome ∨ (s.fs.get l).isSome then .err .alreadyExists else .ok (s.put l .dir)
  | .err e => .err e
  | .panic => .panic

/-- `std::fs::create_dir_all`, on the reversed components (see `Fs.mkdirAllRev`). -/
def mkdirAllRev : List Str → LFs → Outcome Unit × LFs
  | [], s => if s.isDir [] then (.ok (), s) else (.err .notFound, s)
  | x :: r, s =>
    match s.mkdir (x :: r).reverse with
    | .ok s' => (.ok (), s')
    | .panic => (.panic, s)
    | .err e =>
      if e = .notFound then
        match mkdirAllRev r s with
        | (.ok (), s1) =>
          match s1.mkdir (x :: r).reverse with
          | .ok s2 => (.ok (), s2)
          | .panic => (.panic, s1)
          | .err e' => if s1.isDir (x :: r).reverse then (.ok (), s1) else (.err e', s1)
        | r => r
      else if s.isDir (x :: r).reverse then (.ok (), s)
      else (.err e, s)

/-- `std::fs::create_dir_all`. -/
def mkdirAll (p : List Str) (s : LFs) : Outcome Unit × LFs := mkdirAllRev p.reverse s

/-- `OpenOptions::new().read(true).write(true).create(true).open(path)`: follows a link at the end, also to create
what it points to. -/
def openCreate (p : List Str) (s : LFs) : Outcome (Loc × LFs) :=
  match s.locate p with
  | .ok (l, _) =>
    match s.fs.get l with
    | some (.file _) => .ok (l, s)
    | some .dir => .err .isADirectory
    | none => .ok (l, s.put l (.file []))
  | .err e => .err e
  | .panic => .panic

/-- `File::open` and reading everything. -/
def readFile (p : List Str) (s : LFs) : Outcome Bytes :=
  match s.locate p with
  | .ok (l, _) =>
    match s.fs.get l with
    | some (.file b) => .ok b
    | some .dir => .err .isADirectory
    | none => .err .notFound
  | .err e => .err e
  | .panic => .panic

/-- `unlink(2)`. -/
def unlink (s : LFs) (p : List Str) : Outcome LFs :=
  match s.locateEntry p with
  | .ok (l, _) =>
    match s.linkAt l with
    | some _ => .ok { s with links := s.links.filter fun e => decide (e.1 ≠ l) }
    | none =>
      match s.fs.get l with
      | some (.file _) => .ok { s with fs := s.fs.del l }
      | some .dir => .err .isADirectory
      | none => .err .notFound
  | .err e => .err e
  | .panic => .panic

/-- The name of the entry at `k`, if it is in directory `l`. -/
def nameIn (l k : Loc) : Option Str :=
  match k.reverse with
  | [] => none
  | x :: r => if r.reverse = l then some x else none

/-- The names in a directory. -/
def names (s : LFs) (l : Loc) : List Str :=
  (s.fs.children l).map Prod.fst ++ s.links.filterMap fun e => nameIn l e.1

end LFs

/-! ## The store -/

/-- `ReadableStore::exists` (filesystem.rs:196-199). -/
def storeExists (h : Hier) (key : Str) (s : LFs) : Outcome Bool := do
  let target ← getPath h.base key
  pure (s.isFile (segs target))

/-- `ReadableStore::get` (filesystem.rs:201-210), with the reader read to its end. -/
def storeGet (h : Hier) (key : Str) (s : LFs) : Outcome (Option Bytes) := do
  let target ← getPath h.base key
  if s.isFile (segs target) then do
    let b ← s.readFile (segs target)
    pure (some b)
  else pure none

/-- `ListableStore::list_dir` (filesystem.rs:226-254): `fs::metadata` follows links, and an entry for which it fails
is left out (filesystem.rs:232-242). -/
def storeListDir (h : Hier) (pre : Str) (s : LFs) : Outcome (List Str × List Str) := do
  let target ← getPath h.base pre
  match s.locate (segs target) with
  | .ok (l, _) =>
    match s.fs.get l with
    | some .dir =>
      let es := (s.names l).filterMap fun x => (s.stat (segs target ++ [x])).map fun n => (x, n)
      pure (es.filterMap (fun e => if e.2 = .dir then none else some (pre ++ e.1)),
            es.filterMap (fun e => if e.2 = .dir then some (pre ++ e.1) else none))
    | some (.file _) => .err .notADirectory
    | none => .err .notFound
  | .err e => .err e
  | .panic => .panic

/-- `WriteableStore::set` (filesystem.rs:260-280). -/
def storeSet (h : Hier) (key : Str) (value : Bytes × Outcome Unit) (s : LFs) : Outcome Unit × LFs :=
  match getPath h.base key with
  | .err e => (.err e, s)
  | .panic => (.panic, s)
  | .ok target =>
    let p := segs target
    let mk : Outcome Unit × LFs :=
      if p.isEmpty ∨ s.pathExists p.dropLast then (.ok (), s) else LFs.mkdirAll p.dropLast s
    match mk with
    | (.err e, s1) => (.err e, s1)
    | (.panic, s1) => (.panic, s1)
    | (.ok (), s1) =>
      match LFs.openCreate p s1 with
      | .err e => (.err e, s1)
      | .panic => (.panic, s1)
      | .ok (l, s2) => (value.2, s2.put l (.file value.1))

/-- `WriteableStore::erase` (filesystem.rs:282-292): `exists` follows a link, `File::open` too, `remove_file` does
not. -/
def storeErase (h : Hier) (key : Str) (s : LFs) : Outcome Bool × LFs :=
  match getPath h.base key with
  | .err e => (.err e, s)
  | .panic => (.panic, s)
  | .ok target =>
    let p := segs target
    if s.pathExists p then
      match s.unlink p with
      | .ok s' => (.ok (!s'.pathExists p), s')
      | .err e => (.err e, s)
      | .panic => (.panic, s)
    else (.ok (!s.pathExists p), s)

/-- Run a program of store calls (see `Model/Walk.lean`); `prune` is `erase_prefix` (filesystem.rs:294-312). -/
def run {α : Type} (prune : Str → LFs → Outcome Bool × LFs) (h : Hier) : Wide.Prog α → LFs → Outcome α × LFs
  | .done r, s => (r, s)
  | .exists key k, s => run prune h (k (storeExists h key s)) s
  | .get key k, s => run prune h (k (storeGet h key s)) s
  | .set key v k, s => run prune h (k (storeSet h key v s).1) (storeSet h key v s).2
  | .erase key k, s => run prune h (k (storeErase h key s).1) (storeErase h key s).2
  | .erasePrefix key k, s => run prune h (k (prune key s).1) (prune key s).2
  | .listDir pre k, s => run prune h (k (storeListDir h pre s)) s

/-- `read_entry_point_metadata` and `open` (filesystem.rs:50-79). -/
def openHier (env : Env) (base : Str) (s : LFs) : Outcome Hier := do
  let b ← s.readFile (segs (joinPath base entryPointKey))
  let e ← parseEntryPoint env b
  checkVersion env ⟨base, e⟩

end Zarr.Links
