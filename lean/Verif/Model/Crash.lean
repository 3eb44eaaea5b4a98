import Verif.Model.Store
/-!
# Crashes

The states of the filesystem between the system calls of one call. If the process dies, the
filesystem is left in one of them. The bytes of a file reach it in order; how many at a time depends
on `BufWriter` and the kernel, so the model has a state after every byte. Power failures, which can
also lose or reorder what the kernel has accepted, are not modelled. -/

namespace Zarr

/-- The states after each `mkdir` that succeeds in `create_dir_all` (`Fs.mkdirAllRev`). -/
def Fs.mkdirAllRevStates : List Str → Fs → List Fs
  | [], _ => []
  | s :: r, fs =>
    match fs.mkdir (s :: r).reverse with
    | .ok fs' => [fs']
    | .panic => []
    | .err e =>
      if e = .notFound then
        Fs.mkdirAllRevStates r fs ++
          (match Fs.mkdirAllRev r fs with
          | (.ok (), fs1) =>
            match fs1.mkdir (s :: r).reverse with
            | .ok fs2 => [fs2]
            | _ => []
          | _ => [])
      else []

/-- The states after each `mkdir` of `create_dir_all`. -/
def Fs.mkdirAllStates (p : List Str) (fs : Fs) : List Fs := Fs.mkdirAllRevStates p.reverse fs

/-- The states of a file that is being written from its beginning over the content `old`. -/
def writeStates (fs : Fs) (l : Loc) (old new : Bytes) : List Fs :=
  (List.range (new.length + 1)).map fun n => fs.put l (.file (new.take n ++ old.drop n))

/-- The states `WriteableStore::set` (filesystem.rs:260-280) goes through: the initial one, one after
each directory made, one after opening the file, one after truncating it, one after each byte. -/
def setStates (h : Hier) (key : Str) (value : Bytes) (fs : Fs) : List Fs :=
  match getPath h.base key with
  | .err _ => [fs]
  | .panic => [fs]
  | .ok target =>
    let p := segs target
    let skip : Bool := p.isEmpty || fs.pathExists p.dropLast
    let dirs := if skip then [] else Fs.mkdirAllStates p.dropLast fs
    let mk : Outcome Unit × Fs := if skip then (.ok (), fs) else Fs.mkdirAll p.dropLast fs
    match mk with
    | (.err _, _) => fs :: dirs
    | (.panic, _) => fs :: dirs
    | (.ok (), fs1) =>
      match Fs.openCreate p fs1 with
      | .err _ => fs :: dirs
      | .panic => fs :: dirs
      | .ok (l, fs2) => fs :: (dirs ++ fs2 :: writeStates fs2 l [] value)

/-- The states `open_or_create` (filesystem.rs:84-117) goes through. The file is opened without
truncation. -/
def openOrCreateStates (env : Env) (base : Str) (fs : Fs) : List Fs :=
  if fs.pathExists (segs (joinPath base entryPointKey)) then [fs]
  else
    let dirs := Fs.mkdirAllStates (segs base) fs
    match Fs.mkdirAll (segs base) fs with
    | (.err _, _) => fs :: dirs
    | (.panic, _) => fs :: dirs
    | (.ok (), fs1) =>
      match Fs.openCreate (segs (joinPath base entryPointKey)) fs1 with
      | .err _ => fs :: dirs
      | .panic => fs :: dirs
      | .ok (l, fs2) =>
        let old := match fs2.get l with
          | some (.file b) => b
          | _ => []
        fs :: (dirs ++ fs2 ::
          writeStates fs2 l old (env.json.print EntryPointMetadata.default.toJson))

end Zarr
