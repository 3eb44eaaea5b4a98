import Verif.Model.Device
/-!
# The other documents written to a device with limited space

`create_group` and `open_or_create` with the `BufWriter` of `Model.Device`. -/

namespace Zarr

/-- `create_group` (storage.rs:400-420). `pieces` are the byte strings `serde_json::to_writer` hands to
`write_all`. -/
def createGroupDev (free : Nat) (pieces : Json → List Bytes) (h : Hier) (path : Str) : M Fs Unit := do
  let a ← storeExists h (arrayMetadataKey h.entry path)
  if a then M.lift (.err .alreadyExists)
  else do
    let g ← storeExists h (groupMetadataKey h.entry path)
    if g then pure ()
    else
      storeSet h (groupMetadataKey h.entry path)
        (devValue free (pieces GroupMetadata.default.toJson))

/-- The creating branch of `open_or_create` (filesystem.rs:91-102), which has a `BufWriter` of its own
(filesystem.rs:100-101). Overwriting takes no room, but the file is new unless the base path has a
`..`. -/
def createEntryPointDev (free : Nat) (pieces : Json → List Bytes) (base : Str) :
    M Fs EntryPointMetadata := fun fs =>
  match Fs.mkdirAll (segs base) fs with
  | (.err e, fs1) => (.err e, fs1)
  | (.panic, fs1) => (.panic, fs1)
  | (.ok (), fs1) =>
    match Fs.openCreate (segs (joinPath base entryPointKey)) fs1 with
    | .err e => (.err e, fs1)
    | .panic => (.panic, fs1)
    | .ok (l, fs2) =>
      let old := match fs2.get l with
        | some (.file b) => b
        | _ => []
      let v := devValue (old.length + free) (pieces EntryPointMetadata.default.toJson)
      (v.2.bind fun _ => .ok EntryPointMetadata.default, fs2.put l (.file (overwrite old v.1)))

/-- `FilesystemHierarchy::open_or_create` (filesystem.rs:84-117). -/
def openOrCreateDev (free : Nat) (pieces : Json → List Bytes) (env : Env) (base : Str) :
    M Fs Hier := fun fs =>
  let r := if fs.pathExists (segs (joinPath base entryPointKey))
    then readEntryPointMetadata env base fs
    else createEntryPointDev free pieces base fs
  match r with
  | (.ok e, fs1) => (checkVersion env ⟨base, e⟩, fs1)
  | (.err e, fs1) => (.err e, fs1)
  | (.panic, fs1) => (.panic, fs1)

end Zarr
