import Verif.Lemmas.Nodes
import Verif.Lemmas.ReadOnly
import Verif.Props.ChunkMap
import Verif.Props.Attributes
/-!
# Creating and removing nodes: C36, C37, C38, C39, C60
-/

namespace Zarr

open Spec

/-- A hierarchy at `/h` with an array `a` that has a chunk at position 1 and an array `a/c1`. -/
def Demo.treeFs : Fs :=
  let fs1 := (createArray Demo.envJ Demo.hier str!"a" Demo.arr Demo.emptyFs).2
  let fs2 := (createArray Demo.envJ Demo.hier str!"a/c1" Demo.arr fs1).2
  (writeChunk Demo.envJ Demo.hier str!"a" Demo.arr Demo.chunk fs2).2

/-! ## C36 -/

/-- **C36.** For paths without `..`: `create_array` where an array or a group exists fails with
`AlreadyExists` and changes nothing; `create_group` on a group succeeds and changes nothing;
`create_group` on an array fails with `AlreadyExists` and changes nothing. Arrays and groups are
recognised by their documents. -/
theorem C36 (env : Env) (h : Hier) (path : Str) (m : ArrayMetadata) (fs : Fs) (hwf : fs.WF)
    (hb : Plain (segs h.base)) (hs : GoodSuffix h.entry) (hp : Plain (segs path)) :
    ((arrayDoc h fs path).isSome ∨ (groupDoc h fs path).isSome →
      createArray env h path m fs = (.err .alreadyExists, fs)) ∧
    ((arrayDoc h fs path).isSome → createGroup env h path fs = (.err .alreadyExists, fs)) ∧
    ((arrayDoc h fs path) = none → (groupDoc h fs path).isSome → createGroup env h path fs = (.ok (), fs)) := by
  rw [createArray_eq hwf hb hs hp, createGroup_eq hwf hb hs hp]
  refine ⟨?_, ?_, ?_⟩
  · rintro (ha | hg)
    · by_cases hg : (groupDoc h fs path).isSome <;> simp [hg, ha]
    · simp [hg]
  · intro ha; simp [ha]
  · intro ha hg; simp [ha, hg]

/-- **C36 for all paths**, `..` included, with existence observed by the calls themselves: once
`create_array` or `create_group` has succeeded, creating the same path again behaves as stated, in
every state in which the document is still a file. -/
theorem C36_any (env : Env) (h : Hier) (path : Str) (m : ArrayMetadata) (fs : Fs) (a g : Bool)
    (ha : (storeExists h (arrayMetadataKey h.entry path) fs).1 = .ok a)
    (hg : (storeExists h (groupMetadataKey h.entry path) fs).1 = .ok g) :
    (a = true ∨ g = true → createArray env h path m fs = (.err .alreadyExists, fs)) ∧
    (a = true → createGroup env h path fs = (.err .alreadyExists, fs)) ∧
    (a = false → g = true → createGroup env h path fs = (.ok (), fs)) := by
  have ea : storeExists h (arrayMetadataKey h.entry path) fs = (.ok a, fs) := by rw [← ha]; rfl
  have eg : storeExists h (groupMetadataKey h.entry path) fs = (.ok g, fs) := by rw [← hg]; rfl
  refine ⟨?_, ?_, ?_⟩ <;> simp only [createArray, createGroup, M.bind_apply, ea, eg]
  · rintro (rfl | rfl)
    · cases g <;> simp [ea]
    · simp
  · rintro rfl; simp
  · rintro rfl rfl; simp [eg]

example : (arrayDoc Demo.hier Demo.treeFs str!"/a/").isSome ∧
    (createArray Demo.envJ Demo.hier str!"a" Demo.arr Demo.treeFs).1 = .err .alreadyExists ∧
    (createGroup Demo.envJ Demo.hier str!"a" Demo.treeFs).1 = .err .alreadyExists ∧
    (createGroup Demo.envJ Demo.hier str!"b" Demo.treeFs).1 = .ok () := by decide +kernel

/-! ## C37 -/

/-- No path has both documents. -/
def Spec.NoBoth (h : Hier) (fs : Fs) : Prop :=
  ∀ p, Plain (segs p) → arrayDoc h fs p = none ∨ groupDoc h fs p = none

theorem noBoth_step {env : Env} {h : Hier} {op : NodeOp} {fs : Fs} (hwf : fs.WF)
    (hb : Plain (segs h.base)) (hs : GoodSuffix h.entry) (hop : op.NoDotDot) (h0 : NoBoth h fs) :
    NoBoth h (op.run env h fs) := by
  intro p hp
  obtain ⟨_, hf⟩ := NodeOp.run_frame (env := env) hwf hb hs hop
  by_cases hpq : segs op.path = segs p
  · have hga : ∀ k, docLoc h k op.path = docLoc h k p := fun k => docLoc_congr hpq
    have h0p := h0 p hp
    cases op with
    | createGroup q =>
      simp only [NodeOp.path] at hga
      have e : arrayDoc h fs q = arrayDoc h fs p := by unfold arrayDoc; rw [hga]
      by_cases ha : (arrayDoc h fs q).isSome
      · have : NodeOp.run env h (.createGroup q) fs = fs := by
          simp only [NodeOp.run, createGroup_eq hwf hb hs hop, ha, if_true]
        rw [this]; exact h0p
      · left
        unfold arrayDoc at *
        rw [hf _ (by exact docLoc_array_ne_group), ← e]
        simpa using ha
    | createArray q m =>
      simp only [NodeOp.path] at hga
      have e : groupDoc h fs q = groupDoc h fs p := by unfold groupDoc; rw [hga]
      by_cases ha : (groupDoc h fs q).isSome
      · have : NodeOp.run env h (.createArray q m) fs = fs := by
          simp only [NodeOp.run, createArray_eq hwf hb hs hop, ha, if_true]
        rw [this]; exact h0p
      · right
        unfold groupDoc at *
        rw [hf _ (by exact fun h => docLoc_array_ne_group h.symm), ← e]
        simpa using ha
    | setAttributes q b =>
      have hsame := (setAttributes_frame (env := env) (h := h) (path := q) (b := b) hwf).2.1
      have key : ∀ l, fs.content l = none → (setAttributes env h q b fs).2.content l = none := by
        intro l hl
        have := hsame.content_isSome l
        rw [hl] at this
        simpa using this
      exact h0p.imp (key _) (key _)
    | remove q =>
      obtain ⟨_, h2, _⟩ := remove_frame hwf hb hs hop
      have key : ∀ l, fs.content l = none → (remove h q fs).2.content l = none := by
        intro l hl
        rcases h2 l with h' | ⟨h', _⟩
        · rw [Fs.content_congr h']; exact hl
        · exact h'
      exact h0p.imp (key _) (key _)
    | writeChunk q m t c =>
      unfold arrayDoc groupDoc
      rw [hf _ (by exact docLoc_ne_chunk), hf _ (by exact docLoc_ne_chunk)]
      exact h0p
    | deleteChunk q m pos =>
      unfold arrayDoc groupDoc
      rw [hf _ (by exact docLoc_ne_chunk), hf _ (by exact docLoc_ne_chunk)]
      exact h0p
  · obtain ⟨h1, h2⟩ := NodeOp.run_docs (env := env) hwf hb hs hop hpq
    rw [h1, h2]; exact h0 p hp

/-- Run a history of calls, successful or not. -/
def runNodeOps (env : Env) (h : Hier) (ops : List NodeOp) (fs : Fs) : Fs :=
  ops.foldl (fun fs op => op.run env h fs) fs

/-- **C37.** From any state in which no path is both an array and a group (a fresh hierarchy in
particular), after any sequence of calls, successful or not, no path without `..` has both
documents. -/
theorem C37 (env : Env) (h : Hier) (ops : List NodeOp) (fs : Fs) (hwf : fs.WF)
    (hb : Plain (segs h.base)) (hs : GoodSuffix h.entry) (hops : ∀ op ∈ ops, op.NoDotDot)
    (h0 : NoBoth h fs) : NoBoth h (runNodeOps env h ops fs) := by
  induction ops generalizing fs with
  | nil => exact h0
  | cons op ops ih =>
    have hop := hops op (by simp)
    exact ih _ (NodeOp.run_frame hwf hb hs hop).1 (fun o ho => hops o (by simp [ho]))
      (noBoth_step hwf hb hs hop h0)

/-- A fresh hierarchy: no file below its base directory but the entry point document. -/
theorem noBoth_fresh (h : Hier) (fs : Fs)
    (hf : ∀ l b, segs h.base ++ [str!"meta"] <+: l → fs.get l ≠ some (.file b)) : NoBoth h fs := by
  intro p _
  left
  cases hc : arrayDoc h fs p with
  | none => rfl
  | some b =>
    exfalso
    obtain ⟨x, r, h1, h2⟩ := docLoc_head h str!"array" p
    refine hf (docLoc h str!"array" p) b ?_ (Fs.content_eq_some.mp hc)
    rw [h1, h2]; exact ⟨r, by simp⟩

example : NoBoth Demo.hier (openOrCreate Demo.envJ str!"/h" Demo.emptyFs).2 := by
  have e : (openOrCreate Demo.envJ str!"/h" Demo.emptyFs).2 =
      ⟨[([], .dir), ([str!"h"], .dir), ([str!"h", str!"zarr.json"],
        .file (jsonText.print EntryPointMetadata.default.toJson))]⟩ := by decide +kernel
  rw [e]
  refine noBoth_fresh _ _ ?_
  intro l b hl hg
  obtain ⟨r, rfl⟩ := hl
  have : segs Demo.hier.base = [str!"h"] := by decide
  simp [this, Fs.get, Fs.lookup] at hg

example : ∀ op ∈ [NodeOp.createGroup str!"a", .createArray str!"a" Demo.arr,
    .setAttributes str!"a" Demo.newAttrs, .writeChunk str!"a" Demo.arr .u16 Demo.chunk, .remove str!"/a",
    .createArray str!"a" Demo.arr, .createGroup str!"a"], op.NoDotDot := by
  intro op hop
  simp only [List.mem_cons, List.not_mem_nil, or_false] at hop
  rcases hop with rfl | rfl | rfl | rfl | rfl | rfl | rfl
  all_goals (simp only [NodeOp.NoDotDot]; decide)

/-! ## C38 -/

/-- **C38 (violated).** After `remove("a")` the array `a/c1` is still there. -/
theorem C38_violated :
    (remove Demo.hier str!"a" Demo.treeFs).1 = .ok () ∧
    (nodeExists Demo.hier str!"a/c1" (remove Demo.hier str!"a" Demo.treeFs).2).1 = .ok true ∧
    (getArrayMetadata Demo.envJ Demo.hier str!"a/c1" (remove Demo.hier str!"a" Demo.treeFs).2).1
      = .ok Demo.arr := by decide +kernel

/-- **C38 (partial).** After `remove(path)` returns `Ok`, both documents of the node are gone, its
metadata and attributes cannot be read, `exists` is false unless a file has the name of the node's
directory, and every chunk read at `path` or below returns `None`. Missing: the documents of nodes
below `path`, which survive (`C38_violated`). -/
theorem C38_partial (env : Env) (h : Hier) (path : Str) (fs : Fs) (hwf : fs.WF)
    (hb : Plain (segs h.base)) (hs : GoodSuffix h.entry) (hp : Plain (segs path))
    (hr : (remove h path fs).1 = .ok ()) :
    let fs' := (remove h path fs).2
    arrayDoc h fs' path = none ∧ groupDoc h fs' path = none ∧
    (getArrayMetadata env h path fs').1 = .err .notFound ∧
    (listAttributes env h path fs').1 = .err .notFound ∧
    ('.' ∉ stripDot h.entry.metadataKeySuffix → fs.content (implicitLoc h path) = none →
      (nodeExists h path fs').1 = .ok false) ∧
    (∀ q m t pos, segs path <+: segs q → Plain (segs (chunkKey q m pos)) → m.inBounds pos = .ok true →
      (readChunk env h q m t pos fs').1 = .ok none) := by
  obtain ⟨w, f, g⟩ := remove_frame hwf hb hs hp
  obtain ⟨g1, g2, g3⟩ := g hr
  simp only
  refine ⟨g1, g2, ?_, ?_, ?_, ?_⟩
  · simp only [getArrayMetadata, M.bind_apply, storeGet_array w hb hs hp, g1]; simp
  · simp [listAttributes, nodeMetadataKey, storeExists_array w hb hs hp, storeExists_group w hb hs hp,
      g1, g2]
  · intro hd hi
    rw [nodeExists_eq w hb hs hd hp, g1, g2]
    rcases f (implicitLoc h path) with h' | ⟨h', _⟩
    · simp [Fs.content_congr h', hi]
    · simp [h']
  · intro q m t pos hq hpl hin
    have : dataLoc h path <+: h.loc (chunkKey q m pos) :=
      dataLoc_prefix_chunk.mpr (hq.trans (List.prefix_append _ _))
    have hc : (remove h path fs).2.content (h.loc (chunkKey q m pos)) = none := by
      simp [Fs.content, g3 _ this]
    have hget := storeGet_eq w (hb.append hpl)
    rw [hc] at hget
    rw [readChunk_inBounds hin hget]

example : (remove Demo.hier str!"a" Demo.treeFs).1 = .ok () ∧
    (readChunk Demo.envJ Demo.hier str!"a" Demo.arr .u16 [1] Demo.treeFs).1 = .ok (some Demo.chunk) ∧
    (readChunk Demo.envJ Demo.hier str!"a" Demo.arr .u16 [1] (remove Demo.hier str!"a" Demo.treeFs).2).1
      = .ok none := by decide +kernel

/-! ## C39 -/

/-- **C39 (violated).** `remove("a/c1")` deletes the chunk at position 1 of the array `a`. -/
theorem C39_violated :
    (remove Demo.hier str!"a/c1" Demo.treeFs).1 = .ok () ∧ ¬ segs str!"a/c1" <+: segs str!"a" ∧
    (readChunk Demo.envJ Demo.hier str!"a" Demo.arr .u16 [1] Demo.treeFs).1 = .ok (some Demo.chunk) ∧
    (readChunk Demo.envJ Demo.hier str!"a" Demo.arr .u16 [1]
      (remove Demo.hier str!"a/c1" Demo.treeFs).2).1 = .ok none := by decide +kernel

/-- **C39 (partial).** `remove(path)` leaves the metadata and attributes of every node with another
path as they were, and every chunk of every node `q` that is neither `path` nor below it, provided
`path` is not below `q` by a component starting with `c`. Missing: that case (`C39_violated`). -/
theorem C39_partial (env : Env) (h : Hier) (path q : Str) (fs : Fs) (hwf : fs.WF)
    (hb : Plain (segs h.base)) (hs : GoodSuffix h.entry) (hp : Plain (segs path)) (hq : Plain (segs q)) :
    let fs' := (remove h path fs).2
    (segs path ≠ segs q →
      arrayDoc h fs' q = arrayDoc h fs q ∧ groupDoc h fs' q = groupDoc h fs q ∧
      (getArrayMetadata env h q fs').1 = (getArrayMetadata env h q fs).1 ∧
      (listAttributes env h q fs').1 = (listAttributes env h q fs).1) ∧
    (¬ segs path <+: segs q → (∀ s t, segs path = segs q ++ s :: t → s.head? ≠ some 'c') →
      ∀ m t pos, Plain (segs (chunkKey q m pos)) →
        (readChunk env h q m t pos fs').1 = (readChunk env h q m t pos fs).1) := by
  simp only
  constructor
  · intro hne
    obtain ⟨w, _⟩ := NodeOp.run_frame (env := env) (op := .remove path) hwf hb hs hp
    obtain ⟨h1, h2⟩ := NodeOp.run_docs (env := env) (op := .remove path) hwf hb hs hp hne
    simp only [NodeOp.run] at w h1 h2
    refine ⟨h1, h2, ?_, ?_⟩
    · simp only [getArrayMetadata, M.bind_apply, storeGet_array w hb hs hq, storeGet_array hwf hb hs hq, h1]
      cases arrayDoc h fs q <;> simp
    · simp only [listAttributes, nodeMetadataKey, M.bind_apply, storeExists_array w hb hs hq,
        storeExists_array hwf hb hs hq, h1]
      cases ha : arrayDoc h fs q with
      | some b =>
        simp only [Option.isSome_some, if_true, M.pure_apply, storeGet_array w hb hs hq,
          storeGet_array hwf hb hs hq, h1, ha, M.lift_apply, Outcome.ofOption_some]
        cases env.json.parse b <;> simp
      | none =>
        simp only [Option.isSome_none, Bool.false_eq_true, if_false, M.bind_apply,
          storeExists_group w hb hs hq, storeExists_group hwf hb hs hq, h2]
        cases hg : groupDoc h fs q with
        | none => simp
        | some b =>
          simp only [Option.isSome_some, if_true, M.pure_apply, storeGet_group w hb hs hq,
            storeGet_group hwf hb hs hq, h2, hg, M.lift_apply, Outcome.ofOption_some]
          cases env.json.parse b <;> simp
  · intro hnp hc m t pos hpl
    obtain ⟨w, f⟩ := NodeOp.run_frame (env := env) (op := .remove path) hwf hb hs hp
    apply readChunk_congr
    rw [show (remove h path fs).2 = NodeOp.run env h (.remove path) fs from rfl,
      storeGet_eq w (hb.append hpl), storeGet_eq hwf (hb.append hpl), f]
    simp only [NodeOp.Touches]
    rintro (h1 | h1 | h1)
    · exact docLoc_ne_chunk h1.symm
    · exact docLoc_ne_chunk h1.symm
    · rw [dataLoc_prefix_chunk] at h1
      rcases prefix_append_cases h1 with h2 | ⟨r, hr, h2⟩
      · exact hnp h2
      · obtain ⟨x, tl, htl⟩ := chunkTail_head m.separator pos
        rw [htl] at h2
        cases r with
        | nil => exact hnp (by rw [hr]; simp)
        | cons s r =>
          rw [List.cons_prefix_cons] at h2
          exact hc s r hr (by rw [h2.1]; rfl)

example : (∀ s t, segs str!"a/c1" = segs str!"ab" ++ s :: t → s.head? ≠ some 'c') ∧
    ¬ segs str!"a" <+: segs str!"ab" := by
  refine ⟨?_, by decide⟩
  intro s t h
  have : segs str!"a/c1" = [str!"a", str!"c1"] := by decide
  have h2 : segs str!"ab" = [str!"ab"] := by decide
  rw [this, h2] at h
  simp at h

/-! ## C60 -/

/-- **C60 (violated).** Creating the array `x` makes `exists("x.array.json")` true: the check for an
implicit group looks for a file where the group's directory would be. -/
theorem C60_violated :
    segs str!"x" ≠ segs str!"x.array.json" ∧
    (nodeExists Demo.hier str!"x.array.json" Demo.treeFs).1 = .ok false ∧
    (nodeExists Demo.hier str!"x.array.json"
      (createArray Demo.envJ Demo.hier str!"x" Demo.arr Demo.treeFs).2).1 = .ok true := by decide +kernel

theorem storeExists_of_get {h : Hier} {key : Str} {fs : Fs} {b : Bytes}
    (hg : storeGet h key fs = (.ok (some b), fs)) : storeExists h key fs = (.ok true, fs) := by
  simp only [storeGet, M.read_apply] at hg
  simp only [storeExists, M.read_apply]
  cases hp : getPath h.base key with
  | ok t =>
    rw [hp] at hg
    simp only [Outcome.bind_ok] at hg ⊢
    cases hf : fs.isFile (segs t) with
    | true => rfl
    | false => simp [hf] at hg
  | err e => rw [hp] at hg; simp at hg
  | panic => rw [hp] at hg; simp at hg

theorem storeExists_ok_of_set {h : Hier} {key : Str} {fs fs' : Fs} {v : Bytes × Outcome Unit}
    (hset : storeSet h key v fs = (.ok (), fs')) : storeExists h key fs' = (.ok true, fs') :=
  storeExists_of_get (storeGet_of_storeSet hset)

/-- `get_path` does not depend on the state, so neither does the success of `exists`. -/
theorem storeExists_ok_any {h : Hier} {key : Str} {fs : Fs} {b : Bool}
    (hk : (storeExists h key fs).1 = .ok b) (fs' : Fs) : ∃ b', storeExists h key fs' = (.ok b', fs') := by
  simp only [storeExists, M.read_apply] at hk ⊢
  cases hp : getPath h.base key with
  | ok t => exact ⟨_, rfl⟩
  | err e => rw [hp] at hk; simp at hk
  | panic => rw [hp] at hk; simp at hk

/-- `exists` is true after a successful creation, at any path. -/
theorem exists_after_create {env : Env} {h : Hier} {path : Str} {fs fs' : Fs} :
    (∀ m, createArray env h path m fs = (.ok (), fs') → nodeExists h path fs' = (.ok true, fs')) ∧
    (createGroup env h path fs = (.ok (), fs') → nodeExists h path fs' = (.ok true, fs')) := by
  have ea : storeExists h (arrayMetadataKey h.entry path) fs
      = ((storeExists h (arrayMetadataKey h.entry path) fs).1, fs) := rfl
  have eg : storeExists h (groupMetadataKey h.entry path) fs
      = ((storeExists h (groupMetadataKey h.entry path) fs).1, fs) := rfl
  constructor
  · intro m hc
    simp only [createArray, M.bind_apply] at hc
    rw [eg] at hc
    cases hg : (storeExists h (groupMetadataKey h.entry path) fs).1 with
    | ok g =>
      rw [hg] at hc
      cases g with
      | true => simp at hc
      | false =>
        simp only [Bool.false_eq_true, if_false, M.bind_apply] at hc
        rw [ea] at hc
        cases ha : (storeExists h (arrayMetadataKey h.entry path) fs).1 with
        | ok a =>
          rw [ha] at hc
          cases a with
          | true => simp at hc
          | false =>
            simp only [Bool.false_eq_true, if_false] at hc
            simp [nodeExists, storeExists_ok_of_set hc]
        | err e => rw [ha] at hc; simp at hc
        | panic => rw [ha] at hc; simp at hc
    | err e => rw [hg] at hc; simp at hc
    | panic => rw [hg] at hc; simp at hc
  · intro hc
    simp only [createGroup, M.bind_apply] at hc
    rw [ea] at hc
    cases ha : (storeExists h (arrayMetadataKey h.entry path) fs).1 with
    | ok a =>
      rw [ha] at hc
      cases a with
      | true => simp at hc
      | false =>
        simp only [Bool.false_eq_true, if_false, M.bind_apply] at hc
        rw [eg] at hc
        obtain ⟨b', hb'⟩ := storeExists_ok_any ha fs'
        have hgt : storeExists h (groupMetadataKey h.entry path) fs' = (.ok true, fs') := by
          cases hg : (storeExists h (groupMetadataKey h.entry path) fs).1 with
          | ok g =>
            rw [hg] at hc
            cases g with
            | true =>
              simp at hc
              subst hc
              rw [eg, hg]
            | false =>
              simp only [Bool.false_eq_true, if_false] at hc
              exact storeExists_ok_of_set hc
          | err e => rw [hg] at hc; simp at hc
          | panic => rw [hg] at hc; simp at hc
        simp only [nodeExists, M.bind_apply, hb']
        cases b' with
        | true => simp
        | false => simp [hgt]
    | err e => rw [ha] at hc; simp at hc
    | panic => rw [ha] at hc; simp at hc

theorem arrayExists_of_exists {env : Env} {h : Hier} {path : Str} {fs : Fs} {r : Outcome ArrayMetadata}
    (h1 : nodeExists h path fs = (.ok true, fs)) (h2 : getArrayMetadata env h path fs = (r, fs)) :
    (arrayExists env h path fs).1 = .ok true ↔ ∃ m, r = .ok m := by
  cases r <;> simp [arrayExists, h1, h2]

/-- `array_exists` is true exactly when the metadata can be read, at any path. -/
theorem arrayExists_iff {env : Env} {h : Hier} {path : Str} {fs : Fs} :
    (arrayExists env h path fs).1 = .ok true ↔ ∃ m, (getArrayMetadata env h path fs).1 = .ok m := by
  have e0 := (getArrayMetadata_ro env h path).eq fs
  have hne := (nodeExists_ro h path).eq fs
  constructor
  · intro ha
    have hn : (nodeExists h path fs).1 = .ok true := by
      cases hn : (nodeExists h path fs).1 with
      | ok b =>
        cases b with
        | true => rfl
        | false => rw [hn] at hne; simp [arrayExists, hne] at ha
      | err e => rw [hn] at hne; simp [arrayExists, hne] at ha
      | panic => rw [hn] at hne; simp [arrayExists, hne] at ha
    rw [hn] at hne
    exact (arrayExists_of_exists hne e0).mp ha
  · rintro ⟨m, hm⟩
    have hget : ∃ b, storeGet h (arrayMetadataKey h.entry path) fs = (.ok (some b), fs) := by
      simp only [getArrayMetadata, M.bind_apply] at hm
      have es : storeGet h (arrayMetadataKey h.entry path) fs
          = ((storeGet h (arrayMetadataKey h.entry path) fs).1, fs) := rfl
      rw [es] at hm ⊢
      cases hv : (storeGet h (arrayMetadataKey h.entry path) fs).1 with
      | ok v =>
        cases v with
        | some b => exact ⟨b, rfl⟩
        | none => rw [hv] at hm; simp at hm
      | err e => rw [hv] at hm; simp at hm
      | panic => rw [hv] at hm; simp at hm
    obtain ⟨b, hb⟩ := hget
    have hex := storeExists_of_get hb
    have hne : nodeExists h path fs = (.ok true, fs) := by simp [nodeExists, hex]
    exact (arrayExists_of_exists hne e0).mpr ⟨m, hm⟩

/-- The result of `array_exists` for a path without `..`: it depends on the array document only. -/
theorem arrayExists_eq {env : Env} {h : Hier} {path : Str} {fs : Fs} (hwf : fs.WF)
    (hb : Plain (segs h.base)) (hs : GoodSuffix h.entry) (hd : '.' ∉ stripDot h.entry.metadataKeySuffix)
    (hp : Plain (segs path)) :
    arrayExists env h path fs = (match arrayDoc h fs path with
      | none => .ok false
      | some b => match parseArrayMetadata env b with
        | .ok _ => .ok true
        | .err _ => .ok false
        | .panic => .panic, fs) := by
  have hgm : getArrayMetadata env h path fs = (match arrayDoc h fs path with
      | none => .err .notFound
      | some b => parseArrayMetadata env b, fs) := by
    simp only [getArrayMetadata, M.bind_apply, storeGet_array hwf hb hs hp]
    cases arrayDoc h fs path <;> simp
  cases ha : arrayDoc h fs path with
  | none =>
    rw [ha] at hgm
    cases hc : ((groupDoc h fs path).isSome || (fs.content (implicitLoc h path)).isSome) with
    | false =>
      have : nodeExists h path fs = (.ok false, fs) := by
        rw [nodeExists_eq hwf hb hs hd hp, ha]
        simp only [Option.isSome_none, Bool.false_or, hc]
      simp [arrayExists, this]
    | true =>
      have : nodeExists h path fs = (.ok true, fs) := by
        rw [nodeExists_eq hwf hb hs hd hp, ha]
        simp only [Option.isSome_none, Bool.false_or, hc]
      simp [arrayExists, this, hgm]
  | some b =>
    rw [ha] at hgm
    have : nodeExists h path fs = (.ok true, fs) := by
      rw [nodeExists_eq hwf hb hs hd hp, ha]; simp
    cases hpm : parseArrayMetadata env b <;> simp [arrayExists, this, hgm, hpm]

/-- A document stays until its node is removed. -/
theorem docs_stay {env : Env} {h : Hier} {path : Str} (hb : Plain (segs h.base)) (hs : GoodSuffix h.entry)
    {ops : List NodeOp} {fs : Fs} (hwf : fs.WF) (hops : ∀ op ∈ ops, op.NoDotDot)
    (hnr : ∀ p, NodeOp.remove p ∈ ops → segs p ≠ segs path)
    (h0 : (arrayDoc h fs path).isSome ∨ (groupDoc h fs path).isSome) :
    (runNodeOps env h ops fs).WF ∧ ((arrayDoc h (runNodeOps env h ops fs) path).isSome ∨
      (groupDoc h (runNodeOps env h ops fs) path).isSome) := by
  induction ops generalizing fs with
  | nil => exact ⟨hwf, h0⟩
  | cons op ops ih =>
    have hop := hops op (by simp)
    obtain ⟨w, f⟩ := NodeOp.run_frame (env := env) hwf hb hs hop
    refine ih w (fun o ho => hops o (by simp [ho])) (fun p hp => hnr p (by simp [hp])) ?_
    by_cases hpq : segs op.path = segs path
    · have hga : ∀ k, docLoc h k op.path = docLoc h k path := fun k => docLoc_congr hpq
      cases op with
      | createGroup q =>
        simp only [NodeOp.path] at hga
        have e1 : arrayDoc h fs q = arrayDoc h fs path := by unfold arrayDoc; rw [hga]
        have e2 : groupDoc h fs q = groupDoc h fs path := by unfold groupDoc; rw [hga]
        have : NodeOp.run env h (.createGroup q) fs = fs := by
          simp only [NodeOp.run, createGroup_eq hwf hb hs hop, e1, e2]
          rcases h0 with h0 | h0
          · simp [h0]
          · by_cases h1 : (arrayDoc h fs path).isSome <;> simp [h0, h1]
        show (arrayDoc h (NodeOp.run env h _ fs) path).isSome ∨ (groupDoc h (NodeOp.run env h _ fs) path).isSome
        rw [this]; exact h0
      | createArray q m =>
        simp only [NodeOp.path] at hga
        have e1 : arrayDoc h fs q = arrayDoc h fs path := by unfold arrayDoc; rw [hga]
        have e2 : groupDoc h fs q = groupDoc h fs path := by unfold groupDoc; rw [hga]
        have : NodeOp.run env h (.createArray q m) fs = fs := by
          simp only [NodeOp.run, createArray_eq hwf hb hs hop, e1, e2]
          rcases h0 with h0 | h0
          · simp [h0]
          · by_cases h1 : (arrayDoc h fs path).isSome <;> simp [h0, h1]
        show (arrayDoc h (NodeOp.run env h _ fs) path).isSome ∨ (groupDoc h (NodeOp.run env h _ fs) path).isSome
        rw [this]; exact h0
      | setAttributes q b =>
        have hsame := (setAttributes_frame (env := env) (h := h) (path := q) (b := b) hwf).2.1
        unfold arrayDoc groupDoc at *
        simp only [NodeOp.run, hsame.content_isSome]
        exact h0
      | remove q => exact absurd hpq (hnr q (by simp))
      | writeChunk q m t c =>
        show (arrayDoc h (NodeOp.run env h _ fs) path).isSome ∨ (groupDoc h (NodeOp.run env h _ fs) path).isSome
        unfold arrayDoc groupDoc
        rw [f _ (by exact docLoc_ne_chunk), f _ (by exact docLoc_ne_chunk)]
        exact h0
      | deleteChunk q m pos =>
        show (arrayDoc h (NodeOp.run env h _ fs) path).isSome ∨ (groupDoc h (NodeOp.run env h _ fs) path).isSome
        unfold arrayDoc groupDoc
        rw [f _ (by exact docLoc_ne_chunk), f _ (by exact docLoc_ne_chunk)]
        exact h0
    · obtain ⟨h1, h2⟩ := NodeOp.run_docs (env := env) hwf hb hs hop hpq
      show (arrayDoc h (NodeOp.run env h _ fs) path).isSome ∨ (groupDoc h (NodeOp.run env h _ fs) path).isSome
      rw [h1, h2]; exact h0

/-- **C60 (partial).**
(1) At any path, `exists` is true after a successful `create_array` or `create_group`.
(2) At any path, `array_exists` is true exactly when `get_array_metadata` succeeds.
(3) For paths without `..`, `exists` stays true through any history of calls that does not remove the
node. (4) `array_exists` is not affected by any call on another node, and `exists` is not unless the
other node's document has the name of this node (`C60_violated`). The metadata suffix has no inner
dot. Missing: nodes named like another node's document. -/
theorem C60_partial (env : Env) (h : Hier) (path : Str) (fs : Fs) :
    (∀ fs', ((∃ m, createArray env h path m fs = (.ok (), fs')) ∨ createGroup env h path fs = (.ok (), fs')) →
      nodeExists h path fs' = (.ok true, fs')) ∧
    ((arrayExists env h path fs).1 = .ok true ↔ ∃ m, (getArrayMetadata env h path fs).1 = .ok m) ∧
    (fs.WF → Plain (segs h.base) → GoodSuffix h.entry → '.' ∉ stripDot h.entry.metadataKeySuffix →
      Plain (segs path) →
      (((arrayDoc h fs path).isSome ∨ (groupDoc h fs path).isSome) → ∀ ops : List NodeOp,
        (∀ op ∈ ops, op.NoDotDot) → (∀ p, NodeOp.remove p ∈ ops → segs p ≠ segs path) →
        (nodeExists h path (runNodeOps env h ops fs)).1 = .ok true) ∧
      (∀ op : NodeOp, op.NoDotDot → segs op.path ≠ segs path →
        (arrayExists env h path (op.run env h fs)).1 = (arrayExists env h path fs).1 ∧
        (implicitLoc h path ≠ docLoc h str!"array" op.path →
          implicitLoc h path ≠ docLoc h str!"group" op.path →
          (nodeExists h path (op.run env h fs)).1 = (nodeExists h path fs).1))) := by
  refine ⟨?_, arrayExists_iff, ?_⟩
  · rintro fs' (⟨m, hm⟩ | hg)
    · exact exists_after_create.1 m hm
    · exact exists_after_create.2 hg
  · intro hwf hb hs hd hp
    constructor
    · intro h0 ops hops hnr
      obtain ⟨w, h1⟩ := docs_stay (env := env) hb hs hwf hops hnr h0
      rw [nodeExists_eq w hb hs hd hp]
      rcases h1 with h1 | h1 <;> simp [h1]
    · intro op hop hne
      obtain ⟨w, f⟩ := NodeOp.run_frame (env := env) hwf hb hs hop
      obtain ⟨h1, h2⟩ := NodeOp.run_docs (env := env) hwf hb hs hop hne
      refine ⟨by rw [arrayExists_eq w hb hs hd hp, arrayExists_eq hwf hb hs hd hp, h1], ?_⟩
      intro ha hg
      rw [nodeExists_eq w hb hs hd hp, nodeExists_eq hwf hb hs hd hp, h1, h2, f]
      have hmd : ∀ r, implicitLoc h path ≠ segs h.base ++ str!"data" :: r := by
        intro r he
        have := List.append_cancel_left he
        simp at this
      cases op with
      | createGroup p => exact hg
      | createArray p m => exact ha
      | setAttributes p b => exact fun h => h.elim ha hg
      | remove p =>
        refine fun h => h.elim ha (fun h => h.elim hg ?_)
        rintro ⟨r, hr⟩
        rw [dataLoc, List.append_assoc] at hr
        exact hmd _ hr.symm
      | writeChunk p m t c =>
        obtain ⟨r, hr⟩ := chunkLoc_head h p m c.gridPosition
        intro h; exact hmd r (h.trans hr)
      | deleteChunk p m pos =>
        obtain ⟨r, hr⟩ := chunkLoc_head h p m pos
        intro h; exact hmd r (h.trans hr)

example : (arrayDoc Demo.hier Demo.treeFs str!"a").isSome ∧
    '.' ∉ stripDot Demo.hier.entry.metadataKeySuffix ∧ '/' ∉ Demo.hier.entry.metadataKeySuffix ∧
    implicitLoc Demo.hier str!"b" ≠ docLoc Demo.hier str!"array" str!"a" ∧
    (nodeExists Demo.hier str!"a" Demo.treeFs).1 = .ok true ∧
    (arrayExists Demo.envJ Demo.hier str!"a" Demo.treeFs).1 = .ok true ∧
    (arrayExists Demo.envJ Demo.hier str!"b" Demo.treeFs).1 = .ok false := by decide +kernel

end Zarr
