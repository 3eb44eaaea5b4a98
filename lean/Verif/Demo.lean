import Verif.Model.Store
/-!
# Concrete data for the examples beside the theorems
-/

namespace Zarr.Demo

/-- A JSON text form that knows no document; used where no metadata is read. -/
def noJson : JsonText := ⟨fun _ => [], fun _ => none, fun _ => false⟩

/-- An environment on a little-endian machine whose only compressor is raw. -/
def env : Env where
  json := noJson
  codecs := fun _ => rawCodec
  native := .little
  features := ⟨true, true, true, true, true⟩
  versionReq := fun _ => some true
  floatFill := fun _ _ => none
  overflowChecks := true

/-- A hierarchy at `/h`. -/
def hier : Hier := ⟨str!"/h", EntryPointMetadata.default⟩

/-- A filesystem that holds only its root directory. -/
def emptyFs : Fs := ⟨[([], .dir)]⟩

/-- A one-dimensional array of 5 big-endian `u16` in chunks of 2. -/
def arr : ArrayMetadata where
  shape := [5]
  dataType := .core (.uint .B2 .big)
  gridType := str!"regular"
  chunkShape := [2]
  separator := str!"/"
  order := .columnMajor
  fillValue := none
  extensions := []
  attributes := []
  compressor := .raw

/-- A chunk of `arr` at position 1 holding 258 and 7. -/
def chunk : DataChunk .u16 := ⟨[1], [(258#16 : BitVec 16), (7#16 : BitVec 16)]⟩

/-- A path of an array. -/
def path : Str := str!"/a/b/"

theorem emptyFs_wf : emptyFs.WF where
  nodup := by decide
  root := rfl
  parent := by
    intro l s n h
    simp [emptyFs, Fs.get, Fs.lookup] at h

end Zarr.Demo
