import Verif.Model.Store
/-!
# Two `set_attributes` calls at the same time

`set_attributes` reads the document, merges it in memory and writes it back; nothing is locked in
between. Here each call takes two steps, the reads (storage.rs:367-382) and the write
(storage.rs:392-396), and two calls take their steps in any order. The steps themselves are
atomic here; what happens inside them is the subject of `Model/Locks.lean`. -/

namespace Zarr

/-- `set_attributes` up to the comparison (storage.rs:366-392): the key and the document to be
written, if there is something to write. -/
def setAttributesRead (env : Env) (h : Hier) (path : Str) (attributes : JsonObject) :
    M Fs (Option (Str × Bytes)) := do
  let key ← nodeMetadataKey h path
  let v ← storeGet h key
  let b ← M.lift (Outcome.ofOption .notFound v)
  let j ← M.lift (Outcome.ofOption .json (env.json.parse b))
  let existing ← M.lift j.asObj
  let merged := mergedDoc existing attributes
  if merged ≠ existing then pure (some (key, env.json.print (.obj merged)))
  else pure none

/-- The rest of `set_attributes` (storage.rs:393-397). -/
def setAttributesWrite (h : Hier) : Option (Str × Bytes) → M Fs Unit
  | some (key, doc) => storeSet h key (doc, .ok ())
  | none => pure ()

/-- How far a call has come. -/
inductive CallState where
  | start
  | pending (w : Option (Str × Bytes))
  | done (r : Outcome Unit)
  deriving DecidableEq

/-- What a call is after its reads; errors end it. -/
def CallState.ofRead : Outcome (Option (Str × Bytes)) × Fs → CallState × Fs
  | (.ok w, fs) => (.pending w, fs)
  | (.err e, fs) => (.done (.err e), fs)
  | (.panic, fs) => (.done .panic, fs)

/-- The next step of a call. -/
def CallState.step (env : Env) (h : Hier) (path : Str) (attributes : JsonObject) :
    CallState → Fs → CallState × Fs
  | .start, fs => CallState.ofRead (setAttributesRead env h path attributes fs)
  | .pending w, fs => (.done (setAttributesWrite h w fs).1, (setAttributesWrite h w fs).2)
  | .done r, fs => (.done r, fs)

/-- Two calls of `set_attributes` on the same node take steps in the order given by the schedule
(`false` for the first call, `true` for the second). -/
def runTwo (env : Env) (h : Hier) (path : Str) (a b : JsonObject) :
    List Bool → CallState × CallState × Fs → CallState × CallState × Fs
  | [], s => s
  | false :: rest, (x, y, fs) =>
    let r := x.step env h path a fs
    runTwo env h path a b rest (r.1, y, r.2)
  | true :: rest, (x, y, fs) =>
    let r := y.step env h path b fs
    runTwo env h path a b rest (x, r.1, r.2)

end Zarr
