import Verif.Model.Fs
import Verif.Model.Chunk
/-!
# The filesystem store and the hierarchy API (`src/store/filesystem.rs`, `src/storage.rs`)

Calls run to completion one at a time here; see `Model/Locks.lean` for locks and
`Model/Interleave.lean` for interleavings. -/

namespace Zarr

/-- Code outside the repository and build-time choices. -/
structure Env where
  /-- serde_json's text form. -/
  json : JsonText
  /-- The compression libraries. -/
  codecs : Codecs
  /-- `NATIVE_ENDIAN` (data_type.rs:80-83). -/
  native : Endian
  /-- The cargo features. -/
  features : Features
  /-- `VersionReq::parse(s)` and then `matches(&VERSION)` with VERSION = 3.0.0 (lib.rs:59-65):
  `none` if the requirement does not parse. -/
  versionReq : Str → Option Bool
  /-- serde's conversion of a JSON value to `f16`, `f32`, `f64`. -/
  floatFill : (t : RsType) → Json → Option Nat
  /-- Whether arithmetic overflow panics (debug builds) or wraps. -/
  overflowChecks : Bool

/-- `FilesystemHierarchy` (filesystem.rs:38-41). -/
structure Hier where
  base : Str
  entry : EntryPointMetadata
  deriving DecidableEq

/-! ## `impl ReadableStore/WriteableStore/ListableStore for FilesystemHierarchy` -/

/-- `ReadableStore::exists` (filesystem.rs:196-199). -/
def storeExists (h : Hier) (key : Str) : M Fs Bool := M.read fun fs => do
  let target ← getPath h.base key
  pure (fs.isFile (segs target))

/-- `ReadableStore::get` (filesystem.rs:201-210), with the reader read to its end. -/
def storeGet (h : Hier) (key : Str) : M Fs (Option Bytes) := M.read fun fs => do
  let target ← getPath h.base key
  if fs.isFile (segs target) then do
    let b ← fs.readFile (segs target)
    pure (some b)
  else pure none

/-- `ReadableStore::uri` (filesystem.rs:212-222). -/
def storeUri (h : Hier) (key : Str) : M Fs Str := M.read fun _ => do
  let p ← getPath h.base key
  pure (str!"file://" ++ p)

/-- `WriteableStore::set` (filesystem.rs:260-280). `value` is the content the closure's writer
delivers to the file and the closure's result. The file is truncated before the closure runs. -/
def storeSet (h : Hier) (key : Str) (value : Bytes × Outcome Unit) : M Fs Unit := fun fs =>
  match getPath h.base key with
  | .err e => (.err e, fs)
  | .panic => (.panic, fs)
  | .ok target =>
    let p := segs target
    -- `target.parent()` is `None` only for a path without components
    let mk : Outcome Unit × Fs :=
      if p.isEmpty ∨ fs.pathExists p.dropLast then (.ok (), fs) else Fs.mkdirAll p.dropLast fs
    match mk with
    | (.err e, fs1) => (.err e, fs1)
    | (.panic, fs1) => (.panic, fs1)
    | (.ok (), fs1) =>
      match Fs.openCreate p fs1 with
      | .err e => (.err e, fs1)
      | .panic => (.panic, fs1)
      | .ok (l, fs2) => (value.2, fs2.put l (.file value.1))

/-- `WriteableStore::erase` (filesystem.rs:282-292). -/
def storeErase (h : Hier) (key : Str) : M Fs Bool := fun fs =>
  match getPath h.base key with
  | .err e => (.err e, fs)
  | .panic => (.panic, fs)
  | .ok target =>
    let p := segs target
    match fs.locate p with
    | .ok l =>
      match fs.get l with
      | some (.file _) =>
        let fs' := fs.del l
        (.ok (!fs'.pathExists p), fs')
      | some .dir => (.err .isADirectory, fs)
      | none => (.ok true, fs)
    | _ => (.ok true, fs)

/-- `WriteableStore::erase_prefix` (filesystem.rs:294-312): the tree at the path is removed. For a
path with `..` components the walk of `walkdir` can fail half way because it removes directories its
own path goes through; this function is only meaningful for paths without `..`. -/
def storeErasePrefix (h : Hier) (key : Str) : M Fs Bool := fun fs =>
  match getPath h.base key with
  | .err e => (.err e, fs)
  | .panic => (.panic, fs)
  | .ok target =>
    let p := segs target
    match fs.locate p with
    | .ok l =>
      match fs.get l with
      | some _ =>
        let fs' := fs.delTree l
        (.ok (!fs'.pathExists p), fs')
      | none => (.ok true, fs)
    | _ => (.ok true, fs)

/-- `ListableStore::list_dir` (filesystem.rs:226-254): the keys are the prefix and the entry's name
put side by side. The order of entries is that of the directory. -/
def storeListDir (h : Hier) (pre : Str) : M Fs (List Str × List Str) := M.read fun fs => do
  let target ← getPath h.base pre
  match fs.locate (segs target) with
  | .ok l =>
    match fs.get l with
    | some .dir =>
      let es := fs.children l
      pure (es.filterMap (fun e => if e.2 = .dir then none else some (pre ++ e.1)),
            es.filterMap (fun e => if e.2 = .dir then some (pre ++ e.1) else none))
    | some (.file _) => .err .notADirectory
    | none => .err .notFound
  | .err e => .err e
  | .panic => .panic

/-- The loop of `ListableStore::list_prefix` (storage.rs:52-63) with a bound on the number of
directories visited; `none` means the bound was reached. `toVisit` is the stack, top first. -/
def listPrefixLoop (h : Hier) (fs : Fs) : Nat → List Str → List Str → Option (Outcome (List Str))
  | 0, _, _ => none
  | _ + 1, [], result => some (.ok result)
  | f + 1, next :: toVisit, result =>
    match (storeListDir h next fs).1 with
    | .ok (keys, prefixes) => listPrefixLoop h fs f (prefixes.reverse ++ toVisit) (result ++ keys)
    | .err e => some (.err e)
    | .panic => some .panic

/-- `ListableStore::list_prefix` (storage.rs:52-63). -/
def listPrefix (h : Hier) (fs : Fs) (fuel : Nat) (pre : Str) : Option (Outcome (List Str)) :=
  listPrefixLoop h fs fuel [pre] []

/-- `ListableStore::list` (storage.rs:47-49). -/
def listAll (h : Hier) (fs : Fs) (fuel : Nat) : Option (Outcome (List Str)) :=
  listPrefix h fs fuel str!"/"

/-! ## `impl HierarchyReader for S` -/

/-- The last piece of `s.rsplit('/')`. -/
def lastPiece (s : Str) : Str := (s.reverse.takeWhile (· ≠ '/')).reverse

/-- `get_version` (storage.rs:145-163), as the answer to "does 3.0.0 match?". -/
def getVersion (env : Env) (e : EntryPointMetadata) : Outcome Bool :=
  Outcome.ofOption .invalidData (env.versionReq (lastPiece e.zarrFormat))

/-- `metadata.extensions.iter().find(|e| e.must_understand)` (storage.rs:172, filesystem.rs:54). -/
def checkExtensions (xs : List ExtensionMetadata) : Outcome Unit :=
  match xs.find? (·.mustUnderstand) with
  | some _ => .err .other
  | none => .ok ()

/-- Deserialize array metadata from the bytes of a file and check extensions
(storage.rs:169-177). -/
def parseArrayMetadata (env : Env) (b : Bytes) : Outcome ArrayMetadata := do
  let j ← Outcome.ofOption .json (env.json.raw b)
  let m ← ArrayMetadata.fromJson env.features j
  checkExtensions m.extensions
  pure m

/-- `get_array_metadata` (storage.rs:165-178). -/
def getArrayMetadata (env : Env) (h : Hier) (path : Str) : M Fs ArrayMetadata := do
  let v ← storeGet h (arrayMetadataKey h.entry path)
  let b ← M.lift (Outcome.ofOption .notFound v)
  M.lift (parseArrayMetadata env b)

/-- `exists` (storage.rs:180-194). -/
def nodeExists (h : Hier) (path : Str) : M Fs Bool := do
  let a ← storeExists h (arrayMetadataKey h.entry path)
  if a then pure true
  else do
    let g ← storeExists h (groupMetadataKey h.entry path)
    if g then pure true
    else storeExists h (setExtension (setExtension (groupMetadataKey h.entry path) []) [])

/-- `array_exists` (lib.rs:229-231): `get_array_metadata(..).is_ok()`; a panic in it propagates. -/
def arrayExists (env : Env) (h : Hier) (path : Str) : M Fs Bool := do
  let e ← nodeExists h path
  if e then fun fs =>
    match getArrayMetadata env h path fs with
    | (.ok _, fs') => (.ok true, fs')
    | (.err _, fs') => (.ok false, fs')
    | (.panic, fs') => (.panic, fs')
  else pure false

/-- `get_chunk_uri` (storage.rs:196-204). -/
def getChunkUri (h : Hier) (path : Str) (m : ArrayMetadata) (pos : List Nat) : M Fs Str :=
  storeUri h (chunkKey path m pos)

/-- `assert!(array_meta.in_bounds(&grid_position))` (storage.rs:217, 248). -/
def assertInBounds (m : ArrayMetadata) (pos : List Nat) : Outcome Unit := do
  let b ← m.inBounds pos
  if b then .ok () else .panic

/-- `read_chunk` (storage.rs:206-235). -/
def readChunk (env : Env) (h : Hier) (path : Str) (m : ArrayMetadata) (t : RsType)
    (pos : List Nat) : M Fs (Option (DataChunk t)) := do
  M.lift (assertInBounds m pos)
  let v ← storeGet h (chunkKey path m pos)
  match v with
  | none => pure none
  | some b => do
    let c ← M.lift (readChunkBytes env.codecs env.native m t pos b)
    pure (some c)

/-- `read_chunk_into` (storage.rs:237-267): whether there was a chunk, and the caller's buffer
after the call (unchanged if there was none). -/
def readChunkInto (env : Env) (h : Hier) (path : Str) (m : ArrayMetadata) (t : RsType)
    (pos : List Nat) (buf : DataChunk t) : M Fs (Bool × DataChunk t) := do
  M.lift (assertInBounds m pos)
  let v ← storeGet h (chunkKey path m pos)
  match v with
  | none => pure (false, buf)
  | some b => do
    let c ← M.lift (readChunkIntoBytes env.codecs env.native m t pos b buf)
    pure (true, c)

/-- `store_chunk_metadata` (storage.rs:269-276) is `todo!()`. -/
def storeChunkMetadata (_h : Hier) (_path : Str) (_m : ArrayMetadata) (_pos : List Nat) :
    M Fs Unit := M.lift .panic

/-- The choice of metadata key in `list_attributes` and `set_attributes`
(storage.rs:280-290, 367-377). -/
def nodeMetadataKey (h : Hier) (path : Str) : M Fs Str := do
  let a ← storeExists h (arrayMetadataKey h.entry path)
  if a then pure (arrayMetadataKey h.entry path)
  else do
    let g ← storeExists h (groupMetadataKey h.entry path)
    if g then pure (groupMetadataKey h.entry path)
    else M.lift (.err .notFound)

/-- `ATTRIBUTES_NAME` (storage.rs:129). -/
def attributesName : Str := str!"attributes"

/-- The attributes of a document (storage.rs:296-305). -/
def docAttributes (j : Json) : Outcome JsonObject :=
  match (j.asObject).bind (fun o => objGet o attributesName) with
  | some (.obj m) => .ok m
  | some _ => .err .invalidData
  | none => .ok []

/-- `list_attributes` (storage.rs:278-306). -/
def listAttributes (env : Env) (h : Hier) (path : Str) : M Fs JsonObject := do
  let key ← nodeMetadataKey h path
  let v ← storeGet h key
  let b ← M.lift (Outcome.ofOption .notFound v)
  let j ← M.lift (Outcome.ofOption .json (env.json.parse b))
  M.lift (docAttributes j)

/-! ## `impl HierarchyLister for S` -/

/-- `usize` subtraction: below zero it panics or wraps. -/
def usizeSub (checks : Bool) (a b : Nat) : Outcome Nat :=
  if b ≤ a then .ok (a - b) else if checks then .panic else .ok (a + 2 ^ 64 - b)

/-- `<` on strings: lexicographic in the code points (the same as in the UTF-8 bytes). -/
def strLt : Str → Str → Bool
  | [], [] => false
  | [], _ :: _ => true
  | _ :: _, [] => false
  | a :: as, b :: bs => if a.toNat < b.toNat then true else if a = b then strLt as bs else false

/-- Insertion into a sorted list. -/
def sortInsert (x : Str) : List Str → List Str
  | [] => [x]
  | y :: ys => if strLt y x then y :: sortInsert x ys else x :: y :: ys

/-- `sort` (any stable sort gives the same list of strings). -/
def sortStrs : List Str → List Str
  | [] => []
  | x :: xs => sortInsert x (sortStrs xs)

/-- `Vec::dedup`: drop elements equal to their predecessor. -/
def dedupStrs : List Str → List Str
  | [] => []
  | [x] => [x]
  | x :: y :: r => if x = y then dedupStrs (y :: r) else x :: dedupStrs (y :: r)

/-- `list_nodes` after `list_dir` (storage.rs:320-356). -/
def listNodesOf (env : Env) (suffix keyPrefix : Str) (keys prefixes : List Str) :
    Outcome (List Str) := do
  let keys := keys.filter (endsWith · suffix)
  let keys ← mapOutcome (fun k => truncateBytes (byteLen k - byteLen suffix) k) keys
  let keys := keys.filter fun k => endsWith k str!"array" || endsWith k str!"group"
  let suffixLen := byteLen suffix + 5 + 1
  let keys ← mapOutcome (fun k => do
    let n ← usizeSub env.overflowChecks (byteLen k) suffixLen
    truncateBytes n k) keys
  let prefixes := prefixes.map (trimEnd '/')
  let keys := dedupStrs (sortStrs (keys ++ prefixes))
  mapOutcome (drainBytes (byteLen keyPrefix)) keys

/-- `list_nodes` (storage.rs:310-357). -/
def listNodes (env : Env) (h : Hier) (path : Str) : M Fs (List Str) := do
  let keyPrefix := metaRoot ++ '/' :: canonicalizePath path
  let (keys, prefixes) ← storeListDir h keyPrefix
  M.lift (listNodesOf env h.entry.metadataKeySuffix keyPrefix keys prefixes)

/-! ## `impl HierarchyWriter for S` -/

/-- Insert the pairs of `b` one by one (`for (k, v) in b { a.insert(k, v); }`). -/
def mergeObj (a b : JsonObject) : JsonObject := b.foldl (fun m kv => objInsert m kv.1 kv.2) a

/-- `merge_top_level` (storage.rs:131-142). -/
def mergeTopLevel (a : Json) (b : JsonObject) : Json :=
  match a with
  | .obj a => .obj (mergeObj a b)
  | _ => .obj b

/-- The merged document of `set_attributes` (storage.rs:385-391). -/
def mergedDoc (existing attributes : JsonObject) : JsonObject :=
  match objGet existing attributesName with
  | some a => objInsert existing attributesName (mergeTopLevel a attributes)
  | none => objInsert existing attributesName (.obj attributes)

/-- `set_attributes` (storage.rs:361-398). -/
def setAttributes (env : Env) (h : Hier) (path : Str) (attributes : JsonObject) : M Fs Unit := do
  let key ← nodeMetadataKey h path
  let v ← storeGet h key
  let b ← M.lift (Outcome.ofOption .notFound v)
  let j ← M.lift (Outcome.ofOption .json (env.json.parse b))
  let existing ← M.lift j.asObj
  let merged := mergedDoc existing attributes
  if merged ≠ existing then storeSet h key (env.json.print (.obj merged), .ok ())
  else pure ()

/-- `set_attribute` (lib.rs:286-298); the attribute is already a JSON value. -/
def setAttribute (env : Env) (h : Hier) (path key : Str) (value : Json) : M Fs Unit :=
  setAttributes env h path [(key, value)]

/-- `create_group` (storage.rs:400-420). -/
def createGroup (env : Env) (h : Hier) (path : Str) : M Fs Unit := do
  let a ← storeExists h (arrayMetadataKey h.entry path)
  if a then M.lift (.err .alreadyExists)
  else do
    let g ← storeExists h (groupMetadataKey h.entry path)
    if g then pure ()
    else
      storeSet h (groupMetadataKey h.entry path)
        (env.json.print GroupMetadata.default.toJson, .ok ())

/-- The closure of `create_array` (storage.rs:438-440). -/
def arrayMetadataText (env : Env) (m : ArrayMetadata) : Bytes × Outcome Unit :=
  match m.toJson with
  | .ok j => (env.json.print j, .ok ())
  | .err e => ([], .err e)
  | .panic => ([], .panic)

/-- `create_array` (storage.rs:422-442). -/
def createArray (env : Env) (h : Hier) (path : Str) (m : ArrayMetadata) : M Fs Unit := do
  let g ← storeExists h (groupMetadataKey h.entry path)
  if g then M.lift (.err .alreadyExists)
  else do
    let a ← storeExists h (arrayMetadataKey h.entry path)
    if a then M.lift (.err .alreadyExists)
    else storeSet h (arrayMetadataKey h.entry path) (arrayMetadataText env m)

/-- `remove` (storage.rs:444-454). -/
def remove (h : Hier) (path : Str) : M Fs Unit := do
  let _ ← storeErase h (groupMetadataKey h.entry path)
  let _ ← storeErase h (arrayMetadataKey h.entry path)
  let _ ← storeErasePrefix h (dataPathKey path)
  pure ()

/-- `remove_all` (lib.rs:312-314). -/
def removeAll (h : Hier) : M Fs Unit := remove h []

/-- `write_chunk` (storage.rs:456-470). -/
def writeChunk (env : Env) (h : Hier) (path : Str) (m : ArrayMetadata) {t : RsType}
    (c : DataChunk t) : M Fs Unit :=
  storeSet h (chunkKey path m c.gridPosition) (writeChunkBytes env.codecs env.native m c)

/-- `delete_chunk` (storage.rs:472-480). -/
def deleteChunk (h : Hier) (path : Str) (m : ArrayMetadata) (pos : List Nat) : M Fs Bool :=
  storeErase h (chunkKey path m pos)

/-! ## Opening a hierarchy -/

/-- Deserialize an entry point document (filesystem.rs:53-59). -/
def parseEntryPoint (env : Env) (b : Bytes) : Outcome EntryPointMetadata := do
  let j ← Outcome.ofOption .json (env.json.raw b)
  let m ← EntryPointMetadata.fromJson j
  checkExtensions m.extensions
  pure m

/-- `read_entry_point_metadata` (filesystem.rs:50-60). -/
def readEntryPointMetadata (env : Env) (base : Str) : M Fs EntryPointMetadata := M.read fun fs => do
  let b ← fs.readFile (segs (joinPath base entryPointKey))
  parseEntryPoint env b

/-- The version check at the end of `open` and `open_or_create` (filesystem.rs:72-78, 110-116). -/
def checkVersion (env : Env) (h : Hier) : Outcome Hier := do
  let ok ← getVersion env h.entry
  if ok then .ok h else .err .other

/-- `FilesystemHierarchy::open` (filesystem.rs:63-79). -/
def openHier (env : Env) (base : Str) : M Fs Hier := do
  let e ← readEntryPointMetadata env base
  M.lift (checkVersion env ⟨base, e⟩)

/-- Overwrite the beginning of a file (the file is opened without truncation,
filesystem.rs:93-101). -/
def overwrite (old new : Bytes) : Bytes := new ++ old.drop new.length

/-- The creating branch of `open_or_create` (filesystem.rs:91-102). -/
def createEntryPoint (env : Env) (base : Str) : M Fs EntryPointMetadata := fun fs =>
  match Fs.mkdirAll (segs base) fs with
  | (.err e, fs1) => (.err e, fs1)
  | (.panic, fs1) => (.panic, fs1)
  | (.ok (), fs1) =>
    match Fs.openCreate (segs (joinPath base entryPointKey)) fs1 with
    | .err e => (.err e, fs1)
    | .panic => (.panic, fs1)
    | .ok (l, fs2) =>
      let old := match fs2.get l with
        | some (.file b) => b
        | _ => []
      (.ok EntryPointMetadata.default,
        fs2.put l (.file (overwrite old (env.json.print EntryPointMetadata.default.toJson))))

/-- `FilesystemHierarchy::open_or_create` (filesystem.rs:84-117). -/
def openOrCreate (env : Env) (base : Str) : M Fs Hier := fun fs =>
  let r := if fs.pathExists (segs (joinPath base entryPointKey))
    then readEntryPointMetadata env base fs
    else createEntryPoint env base fs
  match r with
  | (.ok e, fs1) => (checkVersion env ⟨base, e⟩, fs1)
  | (.err e, fs1) => (.err e, fs1)
  | (.panic, fs1) => (.panic, fs1)

/-- `FilesystemHierarchy::get_attributes` (filesystem.rs:119-139). -/
def getAttributesRaw (env : Env) (h : Hier) (key : Str) : M Fs Json := M.read fun fs => do
  let path ← getPath h.base key
  if fs.isFile (segs path) then do
    let b ← fs.readFile (segs path)
    Outcome.ofOption .json (env.json.parse b)
  else if fs.isFile (segs (setExtension (setExtension path []) [])) then pure (.obj [])
  else .err .notFound

/-! ## Fill values -/

/-- `serde_json::from_value::<T>` for the element types. -/
def elFromJson (env : Env) (t : RsType) (j : Json) : Outcome (El t) :=
  let int (lo hi : Int) : Outcome Nat := do
    let i ← j.asIntIn lo hi
    pure (i % 2 ^ (8 * t.size)).toNat
  let n : Outcome Nat := match t with
    | .bool => do
      let b ← j.asBool
      pure b.toNat
    | .u8 => int 0 (2 ^ 8)
    | .u16 => int 0 (2 ^ 16)
    | .u32 => int 0 (2 ^ 32)
    | .u64 => int 0 (2 ^ 64)
    | .i8 => int (-(2 ^ 7)) (2 ^ 7)
    | .i16 => int (-(2 ^ 15)) (2 ^ 15)
    | .i32 => int (-(2 ^ 31)) (2 ^ 31)
    | .i64 => int (-(2 ^ 63)) (2 ^ 63)
    | .f16 | .f32 | .f64 => Outcome.ofOption .json (env.floatFill t j)
  n.bind fun n => .ok (El.ofNat t n)

/-- `get_effective_fill_value` (lib.rs:448-454). -/
def effectiveFillValue (env : Env) (m : ArrayMetadata) (t : RsType) : Outcome (El t) :=
  match m.fillValue with
  | none => .ok (El.default t)
  | some j => elFromJson env t j

end Zarr
