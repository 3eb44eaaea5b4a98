import Verif.Model.Path
/-!
# The filesystem

A finite tree of files and directories and the system calls the code makes through `std::fs` and
`walkdir`. Not modelled: hard links, permissions, special files, limits on names; symbolic links, I/O
errors, other processes, crashes and full devices have their own models.
A relative base path is read as relative to the root of this tree. -/

namespace Zarr

/-- An absolute location: the names from the root. -/
abbrev Loc := List Str

/-- What a location holds. -/
inductive Node where
  | file (content : Bytes)
  | dir
  deriving DecidableEq, Repr

/-- A filesystem: the entries, at most one per location (see `Fs.WF`). -/
structure Fs where
  ents : List (Loc × Node)
  deriving DecidableEq

namespace Fs

/-- The entry of a location in a list of entries. -/
def lookup : List (Loc × Node) → Loc → Option Node
  | [], _ => none
  | (k, n) :: r, l => if k = l then some n else lookup r l

/-- The entry at a location. -/
def get (fs : Fs) (l : Loc) : Option Node := lookup fs.ents l

/-- Replace the entry of a location in a list of entries or add one. -/
def insert : List (Loc × Node) → Loc → Node → List (Loc × Node)
  | [], l, n => [(l, n)]
  | (k, m) :: r, l, n => if k = l then (k, n) :: r else (k, m) :: insert r l n

/-- Make `l` hold `n`. -/
def put (fs : Fs) (l : Loc) (n : Node) : Fs := ⟨insert fs.ents l n⟩

/-- Remove the entry at `l`. -/
def del (fs : Fs) (l : Loc) : Fs := ⟨fs.ents.filter fun e => e.1 ≠ l⟩

/-- Remove the entry at `l` and everything below it. -/
def delTree (fs : Fs) (l : Loc) : Fs := ⟨fs.ents.filter fun e => !l.isPrefixOf e.1⟩

/-- A filesystem tree: one entry per location, the root is a directory and every entry's parent is
a directory. -/
structure WF (fs : Fs) : Prop where
  nodup : (fs.ents.map Prod.fst).Nodup
  root : fs.get [] = some .dir
  parent : ∀ l s n, fs.get (l ++ [s]) = some n → fs.get l = some .dir

/-- Path resolution (POSIX, without symbolic links): the location named by the components, starting
at directory `cur`. Every component but the last must be an existing directory. -/
def walk (fs : Fs) : Loc → List Str → Outcome Loc
  | cur, [] => .ok cur
  | cur, s :: ss =>
    match fs.get cur with
    | some .dir => walk fs (if s = dotdot then cur.dropLast else cur ++ [s]) ss
    | some (.file _) => .err .notADirectory
    | none => .err .notFound

/-- The location of a path. -/
def locate (fs : Fs) (p : List Str) : Outcome Loc := fs.walk [] p

/-- What a path names, if anything. -/
def node (fs : Fs) (p : List Str) : Option Node :=
  match fs.locate p with
  | .ok l => fs.get l
  | _ => none

/-- `Path::exists` (std). -/
def pathExists (fs : Fs) (p : List Str) : Bool := (fs.node p).isSome

/-- `Path::is_file` (std). -/
def isFile (fs : Fs) (p : List Str) : Bool :=
  match fs.node p with
  | some (.file _) => true
  | _ => false

/-- `Path::is_dir` (std). -/
def isDir (fs : Fs) (p : List Str) : Bool := decide (fs.node p = some .dir)

/-- `mkdir(2)`. -/
def mkdir (fs : Fs) (p : List Str) : Outcome Fs :=
  match fs.locate p with
  | .ok l =>
    match fs.get l with
    | some _ => .err .alreadyExists
    | none => .ok (fs.put l .dir)
  | .err e => .err e
  | .panic => .panic

/-- `std::fs::create_dir_all` (std `DirBuilder::create_dir_all`), on the reversed components: try to
create the directory; if a parent is missing create it first. -/
def mkdirAllRev : List Str → Fs → Outcome Unit × Fs
  | [], fs => if fs.isDir [] then (.ok (), fs) else (.err .notFound, fs)
  | s :: r, fs =>
    match fs.mkdir (s :: r).reverse with
    | .ok fs' => (.ok (), fs')
    | .panic => (.panic, fs)
    | .err e =>
      if e = .notFound then
        match mkdirAllRev r fs with
        | (.ok (), fs1) =>
          match fs1.mkdir (s :: r).reverse with
          | .ok fs2 => (.ok (), fs2)
          | .panic => (.panic, fs1)
          | .err e' => if fs1.isDir (s :: r).reverse then (.ok (), fs1) else (.err e', fs1)
        | r => r
      else if fs.isDir (s :: r).reverse then (.ok (), fs)
      else (.err e, fs)

/-- `std::fs::create_dir_all`. -/
def mkdirAll (p : List Str) (fs : Fs) : Outcome Unit × Fs := mkdirAllRev p.reverse fs

/-- `OpenOptions::new().read(true).write(true).create(true).open(path)`: the location of the file
and the filesystem in which it exists. -/
def openCreate (p : List Str) (fs : Fs) : Outcome (Loc × Fs) :=
  match fs.locate p with
  | .ok l =>
    match fs.get l with
    | some (.file _) => .ok (l, fs)
    | some .dir => .err .isADirectory
    | none => .ok (l, fs.put l (.file []))
  | .err e => .err e
  | .panic => .panic

/-- `File::open` and reading everything. -/
def readFile (p : List Str) (fs : Fs) : Outcome Bytes :=
  match fs.locate p with
  | .ok l =>
    match fs.get l with
    | some (.file b) => .ok b
    | some .dir => .err .isADirectory
    | none => .err .notFound
  | .err e => .err e
  | .panic => .panic

/-- The names and entries directly below a location. -/
def children (fs : Fs) (l : Loc) : List (Str × Node) :=
  fs.ents.filterMap fun e =>
    match e.1.reverse with
    | [] => none
    | s :: r => if r.reverse = l then some (s, e.2) else none

end Fs

end Zarr
