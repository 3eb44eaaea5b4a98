import Verif.Model.Links
/-!
# Removal of a tree with symbolic links in it

`erase_prefix` (filesystem.rs:294-312) on a filesystem with symbolic links, as `WalkDir::new(&path).contents_first(true)`
of `walkdir` 2 goes through it. Below the root of the walk it looks at entries without following links, so a link is
yielded as such and removed. A root that is a link to a directory is opened, but is no directory to be yielded after
its contents: it is yielded before them. -/

namespace Zarr.Links

namespace LFs

/-- `rmdir(2)`: a link at the end is not followed. -/
def rmdir (s : LFs) (p : List Str) : Outcome LFs :=
  match s.locateEntry p with
  | .ok (l, _) =>
    match s.linkAt l with
    | some _ => .err .notADirectory
    | none =>
      match s.fs.get l with
      | some .dir => if l = [] ∨ s.names l ≠ [] then .err .other else .ok { s with fs := s.fs.del l }
      | some (.file _) => .err .notADirectory
      | none => .err .notFound
  | .err e => .err e
  | .panic => .panic

end LFs

/-- `File::open`, which follows a link and also opens a directory, the lock, and `remove_file` (filesystem.rs:304-306). -/
def removeFile (p : List Str) (s : LFs) : Outcome Unit × LFs :=
  match s.locate p with
  | .ok (l, _) =>
    if (s.fs.get l).isSome then
      match s.unlink p with
      | .ok s' => (.ok (), s')
      | .err e => (.err e, s)
      | .panic => (.panic, s)
    else (.err .notFound, s)
  | .err e => (.err e, s)
  | .panic => (.panic, s)

/-- The loop over the names that were read from a directory. -/
def eachName (f : Str → LFs → Outcome Unit × LFs) : List Str → LFs → Outcome Unit × LFs
  | [], s => (.ok (), s)
  | x :: xs, s =>
    match f x s with
    | (.ok (), s') => eachName f xs s'
    | r => r

/-- The walk of a directory (filesystem.rs:298-308): `read_dir`, the entries, and then `remove_dir`. What an entry is was
read with its name. The number bounds the depth. -/
def removeDir : Nat → List Str → LFs → Outcome Unit × LFs
  | 0, _, s => (.panic, s)
  | n + 1, p, s =>
    match s.locate p with
    | .ok (l, _) =>
      match s.fs.get l with
      | some .dir =>
        match eachName (fun x s1 => if s.fs.get (l ++ [x]) = some .dir then removeDir n (p ++ [x]) s1
            else removeFile (p ++ [x]) s1) (s.names l) s with
        | (.ok (), s1) =>
          match s1.rmdir p with
          | .ok s2 => (.ok (), s2)
          | .err e => (.err e, s1)
          | .panic => (.panic, s1)
        | r => r
      | some (.file _) => (.err .notADirectory, s)
      | none => (.err .notFound, s)
    | .err e => (.err e, s)
    | .panic => (.panic, s)

/-- The walk (filesystem.rs:298-308). -/
def removeAll (p : List Str) (s : LFs) : Outcome Unit × LFs :=
  match s.locateEntry p with
  | .ok (l, _) =>
    match s.linkAt l with
    | none => if s.fs.get l = some .dir then removeDir (s.fs.ents.length + 1) p s else removeFile p s
    | some _ =>
      match s.locate p with
      | .ok (t, _) =>
        if s.fs.get t = some .dir then
          match removeFile p s with
          | (.ok (), s1) => eachName (fun x s2 => if s.fs.get (t ++ [x]) = some .dir then
              removeDir (s.fs.ents.length + 1) (p ++ [x]) s2 else removeFile (p ++ [x]) s2) (s.names t) s1
          | r => r
        else removeFile p s
      | .err e => (.err e, s)
      | .panic => (.panic, s)
  | .err e => (.err e, s)
  | .panic => (.panic, s)

/-- `WriteableStore::erase_prefix` (filesystem.rs:294-312). -/
def storeErasePrefix (h : Hier) (key : Str) (s : LFs) : Outcome Bool × LFs :=
  match getPath h.base key with
  | .err e => (.err e, s)
  | .panic => (.panic, s)
  | .ok target =>
    let p := segs target
    if s.pathExists p then
      match removeAll p s with
      | (.ok (), s') => (.ok (!s'.pathExists p), s')
      | (.err e, s') => (.err e, s')
      | (.panic, s') => (.panic, s')
    else (.ok (!s.pathExists p), s)

end Zarr.Links
