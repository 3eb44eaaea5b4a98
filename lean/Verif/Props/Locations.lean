import Verif.Props.ChunkMap
import Verif.Lemmas.Nodes
/-!
# Where calls put their files: C65
-/

namespace Zarr

open Spec

namespace Spec

/-- A number in decimal, without leading zeros. -/
def decimal (n : Nat) : Str := Nat.toDigits 10 n

/-- The location of a chunk below its array's data directory. With the separator `/` each coordinate
is a component, the first one prefixed with `c`; otherwise the coordinates are joined in one component. -/
def chunkName (sep : Str) (pos : List Nat) : Loc :=
  if sep = str!"/" then
    match pos.map decimal with
    | [] => [str!"c"]
    | x :: xs => ('c' :: x) :: xs
  else ['c' :: ((pos.map decimal).intersperse sep).flatten]

/-- The location of a chunk. -/
def chunkLoc (h : Hier) (path : Str) (sep : Str) (pos : List Nat) : Loc :=
  dataLoc h path ++ chunkName sep pos

end Spec

theorem digitChar_eq {d : Nat} (h : d < 10) : digitChar d = Nat.digitChar d := by
  match d, h with
  | 0, _ | 1, _ | 2, _ | 3, _ | 4, _ | 5, _ | 6, _ | 7, _ | 8, _ | 9, _ => rfl

theorem decAux_eq (f n : Nat) (h : n < f) : decAux f n = decimal n := by
  induction f generalizing n with
  | zero => omega
  | succ f ih =>
    unfold decAux decimal
    by_cases hn : n < 10
    · rw [if_pos hn, Nat.toDigits_of_lt_base hn, digitChar_eq hn]
    · rw [if_neg hn, ih _ (by omega), Nat.toDigits_of_base_le (by omega) (by omega),
        digitChar_eq (Nat.mod_lt _ (by omega))]
      rfl

theorem dec_eq (n : Nat) : dec n = decimal n := decAux_eq _ _ (by omega)

theorem joinCoords_eq (sep : Str) (pos : List Nat) :
    joinCoords sep pos = ((pos.map decimal).intersperse sep).flatten := by
  induction pos with
  | nil => rfl
  | cons c cs ih =>
    cases cs with
    | nil => simp [joinCoords, dec_eq]
    | cons d ds =>
      rw [joinCoords]
      · rw [ih, dec_eq]
        simp [List.intersperse]
      · simp

theorem chunkTail_eq {sep : Str} (h : sep = str!"/" ∨ '/' ∉ sep) (pos : List Nat) :
    chunkTail sep pos = chunkName sep pos := by
  unfold chunkName
  by_cases hs : sep = str!"/"
  · subst hs
    rw [if_pos rfl, chunkTail_slash]
    cases pos with
    | nil => rfl
    | cons c cs =>
      simp only [List.map_cons, dec_eq]
      congr 1
      exact List.map_congr_left fun n _ => dec_eq n
  · rw [if_neg hs, chunkTail_noslash (h.resolve_left hs), joinCoords_eq]

theorem loc_chunkKey {h : Hier} {path : Str} {m : ArrayMetadata} {pos : List Nat}
    (hs : m.separator = str!"/" ∨ '/' ∉ m.separator) :
    h.loc (chunkKey path m pos) = chunkLoc h path m.separator pos := by
  rw [Hier.loc, segs_chunkKey, chunkTail_eq hs]
  simp [chunkLoc, dataLoc]

theorem plain_chunkLoc {h : Hier} {path : Str} {m : ArrayMetadata} {pos : List Nat}
    (hb : Plain (segs h.base)) (hp : Plain (segs path)) (hs : m.separator = str!"/" ∨ '/' ∉ m.separator) :
    Plain (chunkLoc h path m.separator pos) := by
  refine (plain_dataLoc hb hp).append ?_
  rw [← chunkTail_eq hs]
  rcases hs with hs | hs
  · rw [hs]; exact plain_chunkTail (Or.inl rfl) pos
  · rw [chunkTail_noslash hs]
    unfold Plain; simp [dotdot]

/-- **C65.** The chunk at a position of the array at `path` is the file
`data/root/<path>/c<i>/<j>/...` (separator `/`) or `data/root/<path>/c<i><sep><j>...` (other separators)
below the hierarchy's directory, with the coordinates in decimal: that file is what `write_chunk` writes,
`delete_chunk` removes, `read_chunk` reads and `get_chunk_uri` names, and no other file changes.
Array and group documents are the files `meta/root/<path>.array<suffix>` and
`meta/root/<path>.group<suffix>`. -/
theorem C65 (env : Env) (h : Hier) (path : Str) (m : ArrayMetadata) (fs fs' : Fs) (hwf : fs.WF)
    (hb : Plain (segs h.base)) (hp : Plain (segs path)) (hsfx : GoodSuffix h.entry)
    (hs : m.separator = str!"/" ∨ '/' ∉ m.separator) :
    (∀ (t : RsType) (c : DataChunk t), writeChunk env h path m c fs = (.ok (), fs') →
      fs'.content (chunkLoc h path m.separator c.gridPosition)
        = some (writeChunkBytes env.codecs env.native m c).1 ∧
      ∀ l, l ≠ chunkLoc h path m.separator c.gridPosition → fs'.content l = fs.content l) ∧
    (∀ pos b, deleteChunk h path m pos fs = (.ok b, fs') →
      fs'.content (chunkLoc h path m.separator pos) = none ∧
      ∀ l, l ≠ chunkLoc h path m.separator pos → fs'.content l = fs.content l) ∧
    (∀ t pos, m.inBounds pos = .ok true → readChunk env h path m t pos fs =
      match fs.content (chunkLoc h path m.separator pos) with
      | none => (.ok none, fs)
      | some b => (readChunkBytes env.codecs env.native m t pos b >>= fun c => .ok (some c), fs)) ∧
    (∀ pos, ∃ p, getChunkUri h path m pos fs = (.ok (str!"file://" ++ p), fs) ∧
      segs p = chunkLoc h path m.separator pos) ∧
    (createArray env h path m fs = (.ok (), fs') →
      fs.content (docLoc h str!"array" path) = none ∧ (fs'.content (docLoc h str!"array" path)).isSome ∧
      ∀ l, l ≠ docLoc h str!"array" path → fs'.content l = fs.content l) ∧
    (createGroup env h path fs = (.ok (), fs') → (fs'.content (docLoc h str!"group" path)).isSome ∧
      ∀ l, l ≠ docLoc h str!"group" path → fs'.content l = fs.content l) := by
  have hpl : ∀ pos, Plain (h.loc (chunkKey path m pos)) := by
    intro pos; rw [loc_chunkKey hs]; exact plain_chunkLoc hb hp hs
  have hplA : Plain (h.loc (arrayMetadataKey h.entry path)) := by
    rw [loc_arrayKey hsfx hp]; exact plain_docLoc hb hp (by simp)
  have hplG : Plain (h.loc (groupMetadataKey h.entry path)) := by
    rw [loc_groupKey hsfx hp]; exact plain_docLoc hb hp (by simp)
  refine ⟨?_, ?_, ?_, ?_, ?_, ?_⟩
  · intro t c hw
    unfold writeChunk at hw
    obtain ⟨hwf', hfr⟩ := storeSet_frame hwf (hpl _) hw
    have hget := storeGet_of_storeSet hw
    rw [storeGet_eq hwf' (hpl _)] at hget
    rw [← loc_chunkKey hs]
    exact ⟨by simpa using hget, hfr⟩
  · intro pos b hd
    unfold deleteChunk at hd
    obtain ⟨_, hfr, hnone⟩ := storeErase_frame hwf (hpl _) hd
    rw [← loc_chunkKey hs]
    exact ⟨hnone, fun l hl => by unfold Fs.content; rw [(hfr l).resolve_right hl]⟩
  · intro t pos hin
    have hg := storeGet_eq hwf (hpl pos)
    rw [loc_chunkKey hs] at hg
    have hr := readChunk_inBounds (env := env) (t := t) hin hg
    rw [hr]
    generalize fs.content (chunkLoc h path m.separator pos) = v at hg
    cases v <;> rfl
  · intro pos
    obtain ⟨p, hp1, hp2⟩ := getPath_loc (hpl pos)
    exact ⟨p, by simp [getChunkUri, storeUri, hp1], by rw [hp2, loc_chunkKey hs]⟩
  · intro hc
    rw [createArray_eq hwf hb hsfx hp] at hc
    split at hc
    · simp at hc
    split at hc
    · simp at hc
    rename_i hA
    obtain ⟨hwf', hfr⟩ := storeSet_frame hwf hplA hc
    have hget := storeGet_of_storeSet hc
    rw [storeGet_array hwf' hb hsfx hp] at hget
    rw [loc_arrayKey hsfx hp] at hfr
    have hget' : arrayDoc h fs' path = some (arrayMetadataText env m).1 := by simpa using hget
    unfold arrayDoc at hget' hA
    refine ⟨by simpa using hA, by rw [hget']; rfl, hfr⟩
  · intro hc
    rw [createGroup_eq hwf hb hsfx hp] at hc
    split at hc
    · simp at hc
    split at hc
    · rename_i hG
      simp at hc; subst hc
      exact ⟨hG, fun _ _ => rfl⟩
    obtain ⟨hwf', hfr⟩ := storeSet_frame hwf hplG hc
    have hget := storeGet_of_storeSet hc
    rw [storeGet_group hwf' hb hsfx hp] at hget
    rw [loc_groupKey hsfx hp] at hfr
    have hget' : groupDoc h fs' path = some (env.json.print GroupMetadata.default.toJson) := by simpa using hget
    unfold groupDoc at hget'
    refine ⟨by rw [hget']; rfl, hfr⟩

example : chunkLoc Demo.hier str!"/a/b/" str!"/" [1, 20, 300]
      = [str!"h", str!"data", str!"root", str!"a", str!"b", str!"c1", str!"20", str!"300"] ∧
    chunkLoc Demo.hier str!"/a/b/" str!"." [1, 20, 300]
      = [str!"h", str!"data", str!"root", str!"a", str!"b", str!"c1.20.300"] ∧
    docLoc Demo.hier str!"array" str!"/a/b/"
      = [str!"h", str!"meta", str!"root", str!"a", str!"b.array.json"] := by decide

example : ∃ fs', writeChunk Demo.env Demo.hier Demo.path Demo.arr Demo.chunk Demo.emptyFs = (.ok (), fs') ∧
    GoodSuffix Demo.hier.entry ∧ Plain (segs Demo.path) := ⟨_, rfl, by unfold GoodSuffix; decide, by decide⟩

end Zarr
