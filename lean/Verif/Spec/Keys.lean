import Verif.Lemmas.Path
import Verif.Lemmas.Store
/-!
# Where a hierarchy keeps its documents and data

The locations of metadata documents and chunk data in a hierarchy's directory as the Zarr v3 draft
and the README describe them, written down independently of the key functions of the code. -/

namespace Zarr.Spec

/-- A location with something appended to its last name. -/
def appendName (l : Loc) (x : Str) : Loc := l.dropLast ++ [l.getLastD [] ++ x]

/-- A suffix without the dot it may begin with. -/
def bareSuffix : Str → Str
  | '.' :: r => r
  | s => s

theorem stripDot_eq (s : Str) : stripDot s = bareSuffix s := rfl

/-- The location of the `array` or `group` document of a node: `meta/root/<path>.<kind><suffix>`
below the base directory, where the suffix is written with exactly one leading dot. -/
def docLoc (h : Hier) (kind : Str) (path : Str) : Loc :=
  segs h.base ++ appendName ([str!"meta", str!"root"] ++ segs path)
    ('.' :: kind ++ '.' :: bareSuffix h.entry.metadataKeySuffix)

/-- The location of the data directory of a node: `data/root/<path>` below the base directory. -/
def dataLoc (h : Hier) (path : Str) : Loc :=
  segs h.base ++ ([str!"data", str!"root"] ++ segs path)

/-- The document of a node: content of the file at its location. -/
def arrayDoc (h : Hier) (fs : Fs) (path : Str) : Option Bytes := fs.content (docLoc h str!"array" path)
/-- The document of a group. -/
def groupDoc (h : Hier) (fs : Fs) (path : Str) : Option Bytes := fs.content (docLoc h str!"group" path)

theorem appendName_eq (l : Loc) (x : Str) (h : l ≠ []) : appendName l x = extLast x l := by
  obtain ⟨i, a, rfl⟩ : ∃ i a, l = i ++ [a] :=
    ⟨l.dropLast, l.getLast h, (List.dropLast_concat_getLast h).symm⟩
  rw [extLast_append_singleton]; simp [appendName]

theorem docLoc_eq (h : Hier) (kind path : Str) : docLoc h kind path = segs h.base ++
    extLast (metaExt kind h.entry.metadataKeySuffix) (str!"meta" :: str!"root" :: segs path) := by
  rw [docLoc, appendName_eq _ _ (by simp), ← stripDot_eq]; rfl

end Zarr.Spec

namespace Zarr

theorem loc_arrayKey {h : Hier} (hs : GoodSuffix h.entry) {path : Str} (hp : Plain (segs path)) :
    h.loc (arrayMetadataKey h.entry path) = Spec.docLoc h str!"array" path := by
  rw [Spec.docLoc_eq, Hier.loc, segs_arrayMetadataKey hs hp]

theorem loc_groupKey {h : Hier} (hs : GoodSuffix h.entry) {path : Str} (hp : Plain (segs path)) :
    h.loc (groupMetadataKey h.entry path) = Spec.docLoc h str!"group" path := by
  rw [Spec.docLoc_eq, Hier.loc, segs_groupMetadataKey hs hp]

theorem loc_dataKey (h : Hier) (path : Str) : h.loc (dataPathKey path) = Spec.dataLoc h path := by
  rw [Hier.loc, segs_dataPathKey]; rfl

theorem plain_docLoc {h : Hier} (hb : Plain (segs h.base)) {path : Str} (hp : Plain (segs path))
    {kind : Str} (hk : kind ≠ []) : Plain (Spec.docLoc h kind path) := by
  rw [Spec.docLoc_eq]
  exact hb.append (plain_extLast_meta hp hk)

theorem plain_dataLoc {h : Hier} (hb : Plain (segs h.base)) {path : Str} (hp : Plain (segs path)) :
    Plain (Spec.dataLoc h path) := by
  refine hb.append (Plain.append (by decide) hp)

/-- Documents of different nodes have different locations. -/
theorem docLoc_injective {h : Hier} {kind path path' : Str}
    (he : Spec.docLoc h kind path = Spec.docLoc h kind path') : segs path = segs path' := by
  rw [Spec.docLoc_eq, Spec.docLoc_eq] at he
  have := extLast_injective (List.append_cancel_left he)
  simpa using this

/-- Array and group documents have different locations. -/
theorem docLoc_array_ne_group {h : Hier} {path path' : Str} :
    Spec.docLoc h str!"array" path ≠ Spec.docLoc h str!"group" path' := by
  rw [Spec.docLoc_eq, Spec.docLoc_eq]
  intro he
  exact extLast_ne (by simp [metaExt]) (by simp [metaExt]) (by simp) (List.append_cancel_left he)

/-- A key that is plain below a plain base. -/
theorem storeExists_array {h : Hier} {fs : Fs} (hwf : fs.WF) (hb : Plain (segs h.base))
    (hs : GoodSuffix h.entry) {path : Str} (hp : Plain (segs path)) :
    storeExists h (arrayMetadataKey h.entry path) fs = (.ok (Spec.arrayDoc h fs path).isSome, fs) := by
  have := loc_arrayKey hs hp
  rw [storeExists_eq hwf (by rw [this]; exact plain_docLoc hb hp (by simp)), this]; rfl

theorem storeExists_group {h : Hier} {fs : Fs} (hwf : fs.WF) (hb : Plain (segs h.base))
    (hs : GoodSuffix h.entry) {path : Str} (hp : Plain (segs path)) :
    storeExists h (groupMetadataKey h.entry path) fs = (.ok (Spec.groupDoc h fs path).isSome, fs) := by
  have := loc_groupKey hs hp
  rw [storeExists_eq hwf (by rw [this]; exact plain_docLoc hb hp (by simp)), this]; rfl

theorem storeGet_array {h : Hier} {fs : Fs} (hwf : fs.WF) (hb : Plain (segs h.base))
    (hs : GoodSuffix h.entry) {path : Str} (hp : Plain (segs path)) :
    storeGet h (arrayMetadataKey h.entry path) fs = (.ok (Spec.arrayDoc h fs path), fs) := by
  have := loc_arrayKey hs hp
  rw [storeGet_eq hwf (by rw [this]; exact plain_docLoc hb hp (by simp)), this]; rfl

theorem storeGet_group {h : Hier} {fs : Fs} (hwf : fs.WF) (hb : Plain (segs h.base))
    (hs : GoodSuffix h.entry) {path : Str} (hp : Plain (segs path)) :
    storeGet h (groupMetadataKey h.entry path) fs = (.ok (Spec.groupDoc h fs path), fs) := by
  have := loc_groupKey hs hp
  rw [storeGet_eq hwf (by rw [this]; exact plain_docLoc hb hp (by simp)), this]; rfl

end Zarr
