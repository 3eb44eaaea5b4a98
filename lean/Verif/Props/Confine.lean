import Verif.Lemmas.Confine
import Verif.Lemmas.Nodes
import Verif.Props.Metadata
/-!
# Staying inside the hierarchy's directory: C41
-/

namespace Zarr

open Spec

/-- C41 fails: `get_path` only compares the total number of `..` with the total number of other
components, so a path that first climbs out and then descends passes. In a hierarchy at `/h` with one
group, `create_group("../../../x")` creates `/x.group.json`, `list_attributes` reads it, and `remove`
removes it. -/
theorem C41_violated :
    let fs := (createGroup Demo.envJ Demo.hier str!"a" Demo.emptyFs).2
    let fs1 := (createGroup Demo.envJ Demo.hier str!"../../../x" fs).2
    let fs2 := (remove Demo.hier str!"../../../x" fs1).2
    fs.get [str!"x.group.json"] = none ∧ (fs1.content [str!"x.group.json"]).isSome ∧
    (listAttributes Demo.envJ Demo.hier str!"../../../x" fs1).1 = .ok [] ∧
    fs2.get [str!"x.group.json"] = none := by
  decide +kernel

/-- **C41** at the level of the store, for keys that at no point climb out of the base directory: what
a call returns and what it leaves in the directory depends only on what the directory held, and
nothing outside it changes. (`erase_prefix` for keys without `..`; for others the walk that removes the
tree is not modelled. Missing against the full claim: keys that climb out, for which it is false.) -/
theorem C41_store_partial (h : Hier) (hb : Plain (segs h.base)) (key : Str) :
    (Stays 0 (segs key) →
      Confined (segs h.base) (storeExists h key) ∧ Confined (segs h.base) (storeGet h key) ∧
      Confined (segs h.base) (storeUri h key) ∧ Confined (segs h.base) (storeListDir h key) ∧
      (∀ v, Confined (segs h.base) (storeSet h key v)) ∧ Confined (segs h.base) (storeErase h key)) ∧
    (Plain (segs key) → Confined (segs h.base) (storeErasePrefix h key)) :=
  ⟨fun hk => ⟨(storeExists_kept hb hk).confined, (storeGet_kept hb hk).confined, (storeUri_kept _ _).confined,
    (storeListDir_kept hb hk).confined, fun v => (storeSet_kept hb hk v).confined,
    (storeErase_kept hb hk).confined⟩, fun hk => storeErasePrefix_confined hb hk⟩

example : Stays 0 (segs str!"/a/../b/c/../../d") ∧ ¬ Plain (segs str!"/a/../b/c/../../d") ∧
    ¬ Stays 0 (segs str!"/meta/root/../../../x") := by
  refine ⟨?_, by decide, ?_⟩
  · have : segs str!"/a/../b/c/../../d" = [str!"a", dotdot, str!"b", str!"c", dotdot, dotdot, str!"d"] := by decide
    rw [this]; simp [Stays, dotdot]
  · have : segs str!"/meta/root/../../../x" = [str!"meta", str!"root", dotdot, dotdot, dotdot, str!"x"] := by decide
    rw [this]; simp [Stays, dotdot]

theorem stays_arrayKey {e : EntryPointMetadata} (he : GoodSuffix e) {path : Str} (hp : Plain (segs path)) :
    Stays 0 (segs (arrayMetadataKey e path)) := by
  rw [segs_arrayMetadataKey he hp]; exact stays_of_plain (plain_extLast_meta hp (by decide)) 0

theorem stays_groupKey {e : EntryPointMetadata} (he : GoodSuffix e) {path : Str} (hp : Plain (segs path)) :
    Stays 0 (segs (groupMetadataKey e path)) := by
  rw [segs_groupMetadataKey he hp]; exact stays_of_plain (plain_extLast_meta hp (by decide)) 0

theorem nodeExists_kept {h : Hier} (hb : Plain (segs h.base)) {path : Str}
    (ka : Stays 0 (segs (arrayMetadataKey h.entry path))) (kg : Stays 0 (segs (groupMetadataKey h.entry path)))
    (ki : Stays 0 (segs (setExtension (setExtension (groupMetadataKey h.entry path) []) []))) :
    Kept (segs h.base) (nodeExists h path) := by
  unfold nodeExists
  refine (storeExists_kept hb ka).bind fun _ => Kept.ite (Kept.pure _) ?_
  refine (storeExists_kept hb kg).bind fun _ => Kept.ite (Kept.pure _) ?_
  exact storeExists_kept hb ki

/-- **C41** for the hierarchy calls on paths without `..` (and, for chunks, chunk keys without `..`, which
the separator could bring in): each is confined to the base directory. (`exists` and `array_exists` for
metadata suffixes with no inner dot.) Missing against the full claim: paths with `..`, for which it is
false. -/
theorem C41_partial (env : Env) (h : Hier) (path : Str) (hb : Plain (segs h.base))
    (hs : GoodSuffix h.entry) (hp : Plain (segs path)) :
    let b := segs h.base
    Confined b (getArrayMetadata env h path) ∧
    ('.' ∉ stripDot h.entry.metadataKeySuffix →
      Confined b (nodeExists h path) ∧ Confined b (arrayExists env h path)) ∧
    Confined b (listAttributes env h path) ∧
    Confined b (listNodes env h path) ∧
    (∀ attrs, Confined b (setAttributes env h path attrs)) ∧
    Confined b (createGroup env h path) ∧
    (∀ m, Confined b (createArray env h path m)) ∧
    Confined b (remove h path) ∧
    (∀ m pos, Plain (segs (chunkKey path m pos)) →
      Confined b (getChunkUri h path m pos) ∧
      (∀ t, Confined b (readChunk env h path m t pos)) ∧
      (∀ t buf, Confined b (readChunkInto env h path m t pos buf)) ∧
      (∀ t (c : DataChunk t), c.gridPosition = pos → Confined b (writeChunk env h path m c)) ∧
      Confined b (deleteChunk h path m pos)) := by
  intro b
  have ka := stays_arrayKey hs hp
  have kg := stays_groupKey hs hp
  have ea := storeExists_kept hb ka
  have eg := storeExists_kept hb kg
  have kmeta : Kept b (nodeMetadataKey h path) :=
    ea.bind fun _ => Kept.ite (Kept.pure _) (eg.bind fun _ => Kept.ite (Kept.pure _) (Kept.lift _))
  -- the key found is one of the two
  have hkey : ∀ fs k, (nodeMetadataKey h path fs).1 = .ok k → Stays 0 (segs k) := by
    intro fs k hk
    have e1 : nodeMetadataKey h path fs = ((nodeMetadataKey h path fs).1, fs) := (nodeMetadataKey_ro h path).eq fs
    simp only [nodeMetadataKey, M.bind_apply] at hk
    rw [(storeExists_ro h _).eq fs] at hk
    cases h1 : (storeExists h (arrayMetadataKey h.entry path) fs).1 with
    | err e => rw [h1] at hk; simp at hk
    | panic => rw [h1] at hk; simp at hk
    | ok a =>
      rw [h1] at hk
      cases a with
      | true => simp at hk; rw [← hk]; exact ka
      | false =>
        simp only [Bool.false_eq_true, if_false, M.bind_apply] at hk
        rw [(storeExists_ro h _).eq fs] at hk
        cases h2 : (storeExists h (groupMetadataKey h.entry path) fs).1 with
        | err e => rw [h2] at hk; simp at hk
        | panic => rw [h2] at hk; simp at hk
        | ok a =>
          rw [h2] at hk
          cases a with
          | true => simp at hk; rw [← hk]; exact kg
          | false => simp at hk
  -- continue with the key found
  have hbind : ∀ {α : Type} (f : Str → M Fs α), (∀ k, Stays 0 (segs k) → Kept b (f k)) →
      Kept b (nodeMetadataKey h path >>= f) := by
    intro α f hf fs fs' hsim
    obtain ⟨h1, h2⟩ := kmeta fs fs' hsim
    rw [M.bind_apply, M.bind_apply, (nodeMetadataKey_ro h path).eq fs, (nodeMetadataKey_ro h path).eq fs', ← h1]
    cases hk : (nodeMetadataKey h path fs).1 with
    | err e => exact ⟨rfl, Reach.refl hsim⟩
    | panic => exact ⟨rfl, Reach.refl hsim⟩
    | ok k => exact hf k (hkey fs k hk) fs fs' hsim
  have kam : Kept b (getArrayMetadata env h path) :=
    (storeGet_kept hb ka).bind fun _ => (Kept.lift _).bind fun _ => Kept.lift _
  refine ⟨kam.confined, ?_, ?_, ?_, ?_, ?_, ?_, ?_, ?_⟩
  · intro hd
    have ki : Stays 0 (segs (setExtension (setExtension (groupMetadataKey h.entry path) []) [])) := by
      rw [segs_implicitKey hs hd hp]
      exact stays_of_plain (Plain.append (a := [str!"meta", str!"root"]) (by decide) hp) 0
    have kne : Kept b (nodeExists h path) := nodeExists_kept hb ka kg ki
    refine ⟨kne.confined, Kept.confined (kne.bind fun _ => Kept.ite ?_ (Kept.pure _))⟩
    intro fs fs' hsim
    obtain ⟨h1, h2⟩ := kam fs fs' hsim
    simp only
    generalize getArrayMetadata env h path fs = r at h1 h2 ⊢
    generalize getArrayMetadata env h path fs' = r' at h1 h2 ⊢
    obtain ⟨a, g⟩ := r
    obtain ⟨a', g'⟩ := r'
    simp only at h1 h2
    subst h1
    cases a <;> exact ⟨rfl, h2⟩
  · exact (hbind _ fun k hk => (storeGet_kept hb hk).bind fun _ => (Kept.lift _).bind fun _ =>
      (Kept.lift _).bind fun _ => Kept.lift _).confined
  · have hk : Stays 0 (segs (metaRoot ++ '/' :: canonicalizePath path)) := by
      rw [segs_append_sep, segs_canonicalizePath]
      exact stays_of_plain (Plain.append (a := segs metaRoot) (by decide) hp) 0
    exact ((storeListDir_kept hb hk).bind fun _ => Kept.lift _).confined
  · intro attrs
    exact (hbind _ fun k hk => (storeGet_kept hb hk).bind fun _ => (Kept.lift _).bind fun _ =>
      (Kept.lift _).bind fun _ => (Kept.lift _).bind fun _ =>
        Kept.ite (storeSet_kept hb hk _) (Kept.pure _)).confined
  · exact (ea.bind fun _ => Kept.ite (Kept.lift _)
      (eg.bind fun _ => Kept.ite (Kept.pure _) (storeSet_kept hb kg _))).confined
  · intro m
    exact (eg.bind fun _ => Kept.ite (Kept.lift _)
      (ea.bind fun _ => Kept.ite (Kept.lift _) (storeSet_kept hb ka _))).confined
  · have hkd : Plain (segs (dataPathKey path)) := by
      rw [segs_dataPathKey]; exact Plain.append (a := [str!"data", str!"root"]) (by decide) hp
    exact (storeErase_kept hb kg).bind_confined fun _ => (storeErase_kept hb ka).bind_confined fun _ =>
      (storeErasePrefix_confined hb hkd).bind_pure
  · intro m pos hc
    have kc := stays_of_plain hc 0
    refine ⟨(storeUri_kept _ _).confined, ?_, ?_, ?_, (storeErase_kept hb kc).confined⟩
    · intro t
      refine Kept.confined ((Kept.lift _).bind fun _ => (storeGet_kept hb kc).bind fun v => ?_)
      cases v with
      | none => exact Kept.pure _
      | some b => exact (Kept.lift _).bind fun _ => Kept.pure _
    · intro t buf
      refine Kept.confined ((Kept.lift _).bind fun _ => (storeGet_kept hb kc).bind fun v => ?_)
      cases v with
      | none => exact Kept.pure _
      | some b => exact (Kept.lift _).bind fun _ => Kept.pure _
    · rintro t c rfl
      exact (storeSet_kept hb kc _).confined

/-- Two filesystems that differ outside `/h`. -/
def Demo.outerFs : Fs := ⟨[([], .dir), ([str!"o"], .file [1, 2]), ([str!"h"], .dir)]⟩

example : Sim (segs Demo.hier.base) Demo.outerFs ⟨[([], .dir), ([str!"h"], .dir)]⟩ ∧
    (createGroup Demo.envJ Demo.hier str!"a" Demo.outerFs).1 = .ok () ∧
    (createGroup Demo.envJ Demo.hier str!"a" Demo.outerFs).2.get [str!"o"] = some (.file [1, 2]) ∧
    (below [str!"h"] (createGroup Demo.envJ Demo.hier str!"a" Demo.outerFs).2).length = 4 := by
  refine ⟨⟨?_, ?_, by decide⟩, by decide +kernel, by decide +kernel, by decide +kernel⟩
  · intro l hl
    have : segs Demo.hier.base = [str!"h"] := by decide
    rw [this] at hl
    have : l = [] ∨ l = [str!"h"] := by
      cases l with
      | nil => left; rfl
      | cons a l => right; simp [List.cons_prefix_cons] at hl; simp [hl]
    rcases this with rfl | rfl <;> decide
  · intro l hl
    have : segs Demo.hier.base = [str!"h"] := by decide
    rw [this] at hl
    have : l = [] ∨ l = [str!"h"] := by
      cases l with
      | nil => left; rfl
      | cons a l => right; simp [List.cons_prefix_cons] at hl; simp [hl]
    rcases this with rfl | rfl <;> decide

end Zarr
