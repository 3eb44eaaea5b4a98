import Verif.Model.Metadata
/-!
# Paths and keys

`std::path::{Path, PathBuf}` on Unix as far as the code uses them, and the key functions of
`src/lib.rs` and `src/storage.rs`. Paths are strings; the component view ignores empty and `.`
components, as `Path::components` does.
-/

namespace Zarr

/-- The normal and `..` components of a path (`Path::components` without `RootDir`/`CurDir`). -/
def segs (p : Str) : List Str := (splitOn '/' p).filter (fun s => s ≠ [] ∧ s ≠ str!".")

/-- The parent directory component. -/
def dotdot : Str := str!".."

/-- Remove trailing `/` and `/.` (on the reversed string): what `Components` skips from the back. -/
def stripTailRev : Str → Str
  | '/' :: r => stripTailRev r
  | '.' :: '/' :: r => stripTailRev r
  | s => s

/-- `Components::trim_right` (std). -/
def stripTail (p : Str) : Str := (stripTailRev p.reverse).reverse

/-- `Components::trim_left` (std), inside the body of a path: skip leading `/` and `.` components. -/
def stripHead : Str → Str
  | '/' :: r => stripHead r
  | '.' :: '/' :: r => stripHead r
  | ['.'] => []
  | s => s

/-- `Path::join`/`PathBuf::push` (std, Unix). -/
def joinPath (base p : Str) : Str :=
  match p with
  | '/' :: _ => p
  | _ => if base.isEmpty ∨ base.getLast? = some '/' then base ++ p else base ++ '/' :: p

/-- The last component and the part of the path before it, trailing `/` and `/.` removed. -/
def splitLast (p : Str) : Str × Str :=
  let r := stripTailRev p.reverse
  ((r.dropWhile (· ≠ '/')).reverse, (r.takeWhile (· ≠ '/')).reverse)

/-- `Path::file_name` (std): `None` if there is no component or the last one is `..`. -/
def fileName (p : Str) : Option Str :=
  let n := (splitLast p).2
  if n = [] ∨ n = str!".." then none else some n

/-- `rsplit_file_at_dot` (std): stem and extension of a file name other than `..`. -/
def stemExt (name : Str) : Str × Option Str :=
  let r := name.reverse
  let after := (r.takeWhile (· ≠ '.')).reverse
  match r.dropWhile (· ≠ '.') with
  | [] => (name, none)
  | _ :: before => if before.isEmpty then (name, none) else (before.reverse, some after)

/-- `Path::extension` (std). -/
def extension (p : Str) : Option Str := (fileName p).bind fun n => (stemExt n).2

/-- `PathBuf::set_extension` (std). -/
def setExtension (p ext : Str) : Str :=
  match fileName p with
  | none => p
  | some n =>
    (splitLast p).1 ++ (stemExt n).1 ++ (if ext.isEmpty then [] else '.' :: ext)

/-- `add_extension` (lib.rs:68-78). -/
def addExtension (p ext : Str) : Str :=
  match extension p with
  | some e => setExtension p (e ++ '.' :: ext)
  | none => setExtension p ext

/-- `canonicalize_path` (lib.rs:187-189). -/
def canonicalizePath (p : Str) : Str := trimEnd '/' (trimStart '/' p)

/-- `META_ROOT_PATH` (lib.rs:82). -/
def metaRoot : Str := str!"/meta/root"
/-- `DATA_ROOT_PATH` (lib.rs:81). -/
def dataRoot : Str := str!"/data/root"
/-- `ENTRY_POINT_KEY` (lib.rs:80). -/
def entryPointKey : Str := str!"zarr.json"

/-- `suffix.strip_prefix('.').unwrap_or(suffix)` (lib.rs:197, 206). -/
def stripDot (s : Str) : Str :=
  match s with
  | '.' :: r => r
  | s => s

/-- `array_metadata_key` (lib.rs:194-201). -/
def arrayMetadataKey (e : EntryPointMetadata) (path : Str) : Str :=
  addExtension (addExtension (joinPath metaRoot (canonicalizePath path)) str!"array")
    (stripDot e.metadataKeySuffix)

/-- `group_metadata_key` (lib.rs:203-210). -/
def groupMetadataKey (e : EntryPointMetadata) (path : Str) : Str :=
  addExtension (addExtension (joinPath metaRoot (canonicalizePath path)) str!"group")
    (stripDot e.metadataKeySuffix)

/-- `data_path_key` (lib.rs:212-214). -/
def dataPathKey (path : Str) : Str := joinPath dataRoot (canonicalizePath path)

/-- The coordinates of a chunk key, joined by the separator (storage.rs:119-124). -/
def joinCoords (sep : Str) : List Nat → Str
  | [] => []
  | [c] => dec c
  | c :: cs => dec c ++ sep ++ joinCoords sep cs

/-- `get_chunk_key` (storage.rs:109-127). -/
def chunkKey (path : Str) (m : ArrayMetadata) (pos : List Nat) : Str :=
  let canon := canonicalizePath path
  (if canon.isEmpty then dataRoot ++ str!"/c" else dataRoot ++ '/' :: canon ++ str!"/c") ++
    joinCoords m.separator pos

/-- `Components::as_path` after the root has been consumed, or of a relative key
(filesystem.rs:151-166). -/
def unroot (key : Str) : Str :=
  match key with
  | '/' :: r => stripTail (stripHead r)
  | k => stripTail k

/-- The nesting count of `get_path` (filesystem.rs:169-180): `-1` per `..`, `+1` per normal
component. (An `i32` in Rust; overflow for paths of 2^31 components is not modelled.) -/
def nest : List Str → Int
  | [] => 0
  | s :: ss => (if s = dotdot then -1 else 1) + nest ss

/-- `FilesystemHierarchy::get_path` (filesystem.rs:142-190). -/
def getPath (base key : Str) : Outcome Str :=
  if nest (segs (unroot key)) < 0 then .err .notFound else .ok (joinPath base (unroot key))

end Zarr
