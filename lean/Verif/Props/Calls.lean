import Verif.Lemmas.ReadOnly
import Verif.Lemmas.ChunkKey
import Verif.Lemmas.Nodes
import Verif.Props.ChunkMap
import Verif.Props.Metadata
/-!
# All calls: C40, C54, C58
-/

namespace Zarr

open Spec M

/-! ## C40 -/

theorem canonicalizePath_replicate (a b : Nat) (p : Str) :
    canonicalizePath (List.replicate a '/' ++ p ++ List.replicate b '/') = canonicalizePath p := by
  have hr : ∀ n (q : Str), (List.replicate n '/' ++ q).dropWhile (· == '/') = q.dropWhile (· == '/') := by
    intro n q
    induction n with
    | zero => rfl
    | succ n ih => simpa [List.replicate_succ] using ih
  unfold canonicalizePath trimStart trimEnd
  rw [List.append_assoc, hr]
  by_cases hp : p.dropWhile (· == '/') = []
  · have hnil : ∀ q : Str, q.dropWhile (· == '/') = [] ↔ ∀ x ∈ q, x = '/' := by
      intro q
      induction q with
      | nil => simp
      | cons x xs ih =>
        by_cases hx : x = '/'
        · simp [List.dropWhile_cons, hx, ih]
        · simp [List.dropWhile_cons, hx]
    have hall := (hnil p).mp hp
    have : (p ++ List.replicate b '/').dropWhile (· == '/') = [] := by
      rw [hnil]
      intro x hx
      rcases List.mem_append.mp hx with h | h
      · exact hall x h
      · exact List.eq_of_mem_replicate h
    rw [this, hp]
  · have : (p ++ List.replicate b '/').dropWhile (· == '/')
        = p.dropWhile (· == '/') ++ List.replicate b '/' := by
      rw [List.dropWhile_append]
      simp [hp]
    rw [this, List.reverse_append, List.reverse_replicate, hr]

/-- **C40.** Adding any number of slashes at either end of the path changes neither the result nor the
effect of any call. -/
theorem C40 (env : Env) (h : Hier) (path : Str) (a b : Nat) :
    let path' := List.replicate a '/' ++ path ++ List.replicate b '/'
    getArrayMetadata env h path' = getArrayMetadata env h path ∧
    nodeExists h path' = nodeExists h path ∧
    arrayExists env h path' = arrayExists env h path ∧
    listAttributes env h path' = listAttributes env h path ∧
    listNodes env h path' = listNodes env h path ∧
    (∀ attrs, setAttributes env h path' attrs = setAttributes env h path attrs) ∧
    (∀ k v, setAttribute env h path' k v = setAttribute env h path k v) ∧
    createGroup env h path' = createGroup env h path ∧
    (∀ m, createArray env h path' m = createArray env h path m) ∧
    remove h path' = remove h path ∧
    (∀ m pos, getChunkUri h path' m pos = getChunkUri h path m pos) ∧
    (∀ m t pos, readChunk env h path' m t pos = readChunk env h path m t pos) ∧
    (∀ m t pos buf, readChunkInto env h path' m t pos buf = readChunkInto env h path m t pos buf) ∧
    (∀ m t (c : DataChunk t), writeChunk env h path' m c = writeChunk env h path m c) ∧
    (∀ m pos, deleteChunk h path' m pos = deleteChunk h path m pos) ∧
    (∀ m pos, storeChunkMetadata h path' m pos = storeChunkMetadata h path m pos) := by
  intro path'
  have hc : canonicalizePath path' = canonicalizePath path := canonicalizePath_replicate a b path
  have h1 : arrayMetadataKey h.entry path' = arrayMetadataKey h.entry path := by
    simp only [arrayMetadataKey, hc]
  have h2 : groupMetadataKey h.entry path' = groupMetadataKey h.entry path := by
    simp only [groupMetadataKey, hc]
  have h3 : dataPathKey path' = dataPathKey path := by simp only [dataPathKey, hc]
  have h4 : ∀ m pos, chunkKey path' m pos = chunkKey path m pos := by
    intro m pos; simp only [chunkKey, hc]
  have e1 : getArrayMetadata env h path' = getArrayMetadata env h path := by
    simp only [getArrayMetadata, h1]
  have e2 : nodeExists h path' = nodeExists h path := by simp only [nodeExists, h1, h2]
  have e3 : nodeMetadataKey h path' = nodeMetadataKey h path := by simp only [nodeMetadataKey, h1, h2]
  have e4 : ∀ attrs, setAttributes env h path' attrs = setAttributes env h path attrs := by
    intro attrs; simp only [setAttributes, e3]
  refine ⟨e1, e2, by simp only [arrayExists, e2, e1], by simp only [listAttributes, e3],
    by simp only [listNodes, hc], e4, fun k v => e4 _, by simp only [createGroup, h1, h2],
    fun m => by simp only [createArray, h1, h2], by simp only [remove, h1, h2, h3],
    fun m pos => by simp only [getChunkUri, h4], fun m t pos => by simp only [readChunk, h4],
    fun m t pos buf => by simp only [readChunkInto, h4], fun m t c => by simp only [writeChunk, h4],
    fun m pos => by simp only [deleteChunk, h4], fun m pos => rfl⟩

example : (getArrayMetadata Demo.envJ Demo.hier str!"//a//"
    (createArray Demo.envJ Demo.hier str!"a" Demo.arr Demo.emptyFs).2).1 = .ok Demo.arr := by decide +kernel

/-! ## C54 -/

/-- **C54.** `get_chunk_uri` answers `file://` and a path, the same in every state, that names the
file a `write_chunk` at that position creates or replaces: after a successful write that path holds
the bytes written, and no other file has changed. -/
theorem C54 (env : Env) (h : Hier) (path : Str) (m : ArrayMetadata) (pos : List Nat)
    (hb : Plain (segs h.base)) (hp : Plain (segs (chunkKey path m pos))) :
    ∃ p, segs h.base <+: segs p ∧ Plain (segs p) ∧
      (∀ fs, getChunkUri h path m pos fs = (.ok (str!"file://" ++ p), fs)) ∧
      ∀ (t : RsType) (c : DataChunk t) (fs fs' : Fs), fs.WF → c.gridPosition = pos →
        writeChunk env h path m c fs = (.ok (), fs') →
        fs'.content (segs p) = some (writeChunkBytes env.codecs env.native m c).1 ∧
        ∀ l, l ≠ segs p → fs'.content l = fs.content l := by
  have hpl : Plain (h.loc (chunkKey path m pos)) := hb.append hp
  obtain ⟨p, hp1, hp2⟩ := getPath_loc hpl
  refine ⟨p, ?_, ?_, ?_, ?_⟩
  · rw [hp2]; exact List.prefix_append _ _
  · rw [hp2]; exact hpl
  · intro fs; simp [getChunkUri, storeUri, hp1]
  · rintro t c fs fs' hwf rfl hw
    unfold writeChunk at hw
    obtain ⟨hwf', hfr⟩ := storeSet_frame hwf hpl hw
    have hget := storeGet_of_storeSet hw
    rw [storeGet_eq hwf' hpl] at hget
    rw [hp2]
    refine ⟨?_, hfr⟩
    simpa using hget

example : (getChunkUri Demo.hier str!"/a/b/" Demo.arr [1] Demo.emptyFs).1
      = .ok str!"file:///h/data/root/a/b/c1" ∧
    ((writeChunk Demo.env Demo.hier str!"/a/b/" Demo.arr Demo.chunk Demo.emptyFs).2.content
      (segs str!"/h/data/root/a/b/c1")) = some [1, 2, 0, 7] := by decide +kernel

/-! ## C58 -/

/-- **C58** for the calls other than `read_ndarray` (for which see `C58_ndarray`): none changes the
filesystem, whatever it returns. `get_version` does not look at the filesystem at all. -/
theorem C58 (env : Env) (h : Hier) (path : Str) (fs : Fs) :
    (getArrayMetadata env h path fs).2 = fs ∧ (nodeExists h path fs).2 = fs ∧
    (arrayExists env h path fs).2 = fs ∧ (listAttributes env h path fs).2 = fs ∧
    (listNodes env h path fs).2 = fs ∧
    (∀ m pos, (getChunkUri h path m pos fs).2 = fs) ∧
    (∀ m t pos, (readChunk env h path m t pos fs).2 = fs) ∧
    (∀ m t pos buf, (readChunkInto env h path m t pos buf fs).2 = fs) ∧
    (∀ base, (openHier env base fs).2 = fs) :=
  ⟨getArrayMetadata_ro _ _ _ _, nodeExists_ro _ _ _, arrayExists_ro _ _ _ _, listAttributes_ro _ _ _ _,
    listNodes_ro _ _ _ _, fun _ _ => storeUri_ro _ _ _, fun _ _ _ => readChunk_ro _ _ _ _ _ _ _,
    fun _ _ _ _ => readChunkInto_ro _ _ _ _ _ _ _ _, fun _ => openHier_ro _ _ _⟩

/-- A read that finds something: a stored chunk. -/
example :
    let fs := (writeChunk Demo.env Demo.hier Demo.path Demo.arr Demo.chunk Demo.emptyFs).2
    fs ≠ Demo.emptyFs ∧
    readChunk Demo.env Demo.hier Demo.path Demo.arr .u16 Demo.chunk.gridPosition fs = (.ok (some Demo.chunk), fs) := by
  intro fs
  exact ⟨by decide, Prod.ext (by decide) ((C58 Demo.env Demo.hier Demo.path fs).2.2.2.2.2.2.1 _ _ _)⟩

end Zarr
