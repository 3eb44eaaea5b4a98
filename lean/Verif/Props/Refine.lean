import Verif.Lemmas.Clear
import Verif.Props.Attributes
import Verif.Props.ChunkMap
import Verif.Props.Nodes
import Verif.Props.Total
/-!
# A hierarchy with ordinary names behaves as a map: C70
-/

namespace Zarr

open Spec

/-! ## The specification -/

/-- Attributes of a node: a partial map from names to values. -/
abbrev Spec.Attrs := Str → Option Json

/-- A node: its attributes and, for an array, its metadata apart from them. -/
inductive Spec.AbsNode where
  | group (a : Attrs)
  | array (m : ArrayMetadata) (a : Attrs)

/-- An abstract hierarchy: nodes by path, and chunks by path and grid position. -/
structure Spec.AbsHier where
  node : List Str → Option AbsNode
  chunk : List Str → List Nat → Option Data

/-- Nothing there. -/
def Spec.AbsHier.empty : AbsHier := ⟨fun _ => none, fun _ _ => none⟩

/-- The calls. -/
inductive Spec.HCall where
  | createGroup (p : Str)
  | createArray (p : Str) (m : ArrayMetadata)
  | setAttributes (p : Str) (b : JsonObject)
  | remove (p : Str)
  | writeChunk (p : Str) (t : RsType) (c : DataChunk t)
  | deleteChunk (p : Str) (pos : List Nat)
  | nodeExists (p : Str)
  | arrayExists (p : Str)
  | getArrayMetadata (p : Str)
  | listAttributes (p : Str)
  | readChunk (p : Str) (t : RsType) (pos : List Nat)

/-- What a caller sees of a result. -/
inductive Spec.HResult where
  | unit (r : Outcome Unit)
  | bool (r : Outcome Bool)
  | metadata (r : Outcome (ArrayMetadata × Attrs))
  | attrs (r : Outcome Attrs)
  | data (r : Outcome (Option Data))

/-- Set the node at a path. -/
def Spec.AbsHier.put (a : AbsHier) (p : List Str) (n : AbsNode) : AbsHier :=
  { a with node := fun q => if q = p then some n else a.node q }

/-- The attributes after new ones were set. -/
def Spec.Attrs.update (a : Attrs) (b : JsonObject) : Attrs := fun k => (objGet b k).or (a k)

/-- The result of each call on an abstract hierarchy and the hierarchy afterwards. Removal deletes the
node and the chunks at the path and below; nodes below stay. -/
def Spec.HCall.abs : HCall → AbsHier → HResult × AbsHier
  | .createGroup p, a =>
    match a.node (segs p) with
    | none => (.unit (.ok ()), a.put (segs p) (.group fun _ => none))
    | some (.group _) => (.unit (.ok ()), a)
    | some (.array _ _) => (.unit (.err .alreadyExists), a)
  | .createArray p m, a =>
    match a.node (segs p) with
    | none => (.unit (.ok ()), a.put (segs p) (.array { m with attributes := [] } (objGet m.attributes)))
    | some _ => (.unit (.err .alreadyExists), a)
  | .setAttributes p b, a =>
    match a.node (segs p) with
    | none => (.unit (.err .notFound), a)
    | some (.group ats) => (.unit (.ok ()), a.put (segs p) (.group (ats.update b)))
    | some (.array m ats) => (.unit (.ok ()), a.put (segs p) (.array m (ats.update b)))
  | .remove p, a =>
    (.unit (.ok ()), ⟨fun q => if q = segs p then none else a.node q,
      fun q pos => if segs p <+: q then none else a.chunk q pos⟩)
  | .writeChunk p t c, a =>
    (.unit (.ok ()), ⟨a.node, fun q pos =>
      if q = segs p ∧ pos = c.gridPosition then some ⟨t, c.data⟩ else a.chunk q pos⟩)
  | .deleteChunk p pos', a =>
    (.bool (.ok true), ⟨a.node, fun q pos =>
      if q = segs p ∧ pos = pos' then none else a.chunk q pos⟩)
  | .nodeExists p, a => (.bool (.ok (a.node (segs p)).isSome), a)
  | .arrayExists p, a =>
    match a.node (segs p) with
    | some (.array _ _) => (.bool (.ok true), a)
    | _ => (.bool (.ok false), a)
  | .getArrayMetadata p, a =>
    match a.node (segs p) with
    | some (.array m ats) => (.metadata (.ok (m, ats)), a)
    | _ => (.metadata (.err .notFound), a)
  | .listAttributes p, a =>
    match a.node (segs p) with
    | none => (.attrs (.err .notFound), a)
    | some (.group ats) => (.attrs (.ok ats), a)
    | some (.array _ ats) => (.attrs (.ok ats), a)
  | .readChunk p _ pos, a => (.data (.ok (a.chunk (segs p) pos)), a)

/-- The results of a history of calls on an abstract hierarchy. -/
def Spec.absResults : List HCall → AbsHier → List HResult
  | [], _ => []
  | c :: cs, a => (c.abs a).1 :: absResults cs (c.abs a).2

/-! ## The calls of the code -/

/-- Perform a call; `md` gives the metadata with which the chunks of each path are accessed. -/
def Spec.HCall.run (env : Env) (h : Hier) (md : List Str → ArrayMetadata) : HCall → Fs → HResult × Fs
  | .createGroup p, fs => let r := Zarr.createGroup env h p fs; (.unit r.1, r.2)
  | .createArray p m, fs => let r := Zarr.createArray env h p m fs; (.unit r.1, r.2)
  | .setAttributes p b, fs => let r := Zarr.setAttributes env h p b fs; (.unit r.1, r.2)
  | .remove p, fs => let r := Zarr.remove h p fs; (.unit r.1, r.2)
  | .writeChunk p _ c, fs => let r := Zarr.writeChunk env h p (md (segs p)) c fs; (.unit r.1, r.2)
  | .deleteChunk p pos, fs => let r := Zarr.deleteChunk h p (md (segs p)) pos fs; (.bool r.1, r.2)
  | .nodeExists p, fs => let r := Zarr.nodeExists h p fs; (.bool r.1, r.2)
  | .arrayExists p, fs => let r := Zarr.arrayExists env h p fs; (.bool r.1, r.2)
  | .getArrayMetadata p, fs =>
    let r := Zarr.getArrayMetadata env h p fs
    (.metadata (r.1 >>= fun m => .ok ({ m with attributes := [] }, objGet m.attributes)), r.2)
  | .listAttributes p, fs => let r := Zarr.listAttributes env h p fs; (.attrs (r.1 >>= fun o => .ok (objGet o)), r.2)
  | .readChunk p t pos, fs =>
    (.data (observe env h p (md (segs p)) t pos fs), (Zarr.readChunk env h p (md (segs p)) t pos fs).2)

/-- The results of a history of calls. -/
def Spec.hResults (env : Env) (h : Hier) (md : List Str → ArrayMetadata) : List HCall → Fs → List HResult
  | [], _ => []
  | c :: cs, fs => (c.run env h md fs).1 :: hResults env h md cs (c.run env h md fs).2

/-- A chunk call with metadata `m`: inside the grid, with the array's element type. -/
structure Spec.ChunkCallOk (m : ArrayMetadata) (t : RsType) (pos : List Nat) : Prop where
  bounds : m.inBounds pos = .ok true
  type : ∃ d, effective m.dataType = some d ∧ kindOf d = kindOfRs t

/-- The calls of which the specification speaks: ordinary paths, metadata that can be stored
(`Faithful`), attributes that JSON can represent, chunk calls inside the grid with the array's type, and
for a write as many elements as a chunk has and a compressor that works. -/
def Spec.HCall.Ok (env : Env) (h : Hier) (md : List Str → ArrayMetadata) : HCall → Prop
  | .createGroup p | .remove p | .nodeExists p | .arrayExists p | .getArrayMetadata p | .listAttributes p =>
    OrdinaryPath h p
  | .createArray p m => OrdinaryPath h p ∧ Faithful env.features env.json.floats m
  | .setAttributes p b => OrdinaryPath h p ∧ (Json.obj b).canon env.json.floats 126 = true
  | .writeChunk p t c => OrdinaryPath h p ∧ ChunkCallOk (md (segs p)) t c.gridPosition ∧
      c.data.length = (md (segs p)).chunkShape.prod ∧ (md (segs p)).chunkShape.prod < 2 ^ 32 ∧
      (codecOf env.codecs (md (segs p)).compressor).Lawful ∧
      ∀ s, ((codecOf env.codecs (md (segs p)).compressor).encode s).2 = .ok ()
  | .deleteChunk p pos => OrdinaryPath h p ∧ (md (segs p)).inBounds pos = .ok true
  | .readChunk p t pos => OrdinaryPath h p ∧ ChunkCallOk (md (segs p)) t pos

/-! ## The correspondence -/

/-- The documents of a node. -/
def DocsOf (env : Env) : Option AbsNode → Option Bytes → Option Bytes → Prop
  | none, ad, gd => ad = none ∧ gd = none
  | some (.group a), ad, gd => ad = none ∧ ∃ b kvs o, gd = some b ∧ env.json.raw b = some (.obj kvs) ∧
      (Json.obj kvs).canon env.json.floats 127 = true ∧ docAttributes (.obj kvs) = .ok o ∧ a = objGet o
  | some (.array m a), ad, gd => gd = none ∧ ∃ b kvs m', ad = some b ∧ env.json.raw b = some (.obj kvs) ∧
      (Json.obj kvs).canon env.json.floats 127 = true ∧ docAttributes (.obj kvs) = .ok m'.attributes ∧
      ArrayMetadata.fromJson env.features (.obj kvs) = .ok m' ∧ checkExtensions m'.extensions = .ok () ∧
      m = { m' with attributes := [] } ∧ a = objGet m'.attributes

/-- The filesystem holds the abstract hierarchy. -/
structure Holds (env : Env) (h : Hier) (md : List Str → ArrayMetadata) (a : AbsHier) (fs : Fs) : Prop where
  wf : fs.WF
  clear : Clear h md fs
  docs : ∀ p, OrdinaryPath h p → DocsOf env (a.node (segs p)) (arrayDoc h fs p) (groupDoc h fs p)
  data : ∀ p t pos, OrdinaryPath h p → ChunkCallOk (md (segs p)) t pos →
    observe env h p (md (segs p)) t pos fs = .ok (a.chunk (segs p) pos)

theorem inBounds_length {m : ArrayMetadata} {pos : List Nat} (hb : m.inBounds pos = .ok true) :
    pos.length = m.shape.length := by
  unfold ArrayMetadata.inBounds at hb
  split at hb
  · rename_i e; exact e.symm
  · simp at hb

section
variable {env : Env} {h : Hier} {md : List Str → ArrayMetadata}

theorem observe_of_content {p : Str} {t : RsType} {pos : List Nat} {fs fs' : Fs} (hwf : fs.WF) (hwf' : fs'.WF)
    (hb : Plain (segs h.base)) (hp : Plain (segs p)) (hs : GoodSep (md (segs p)).separator)
    (hc : fs'.content (h.loc (chunkKey p (md (segs p)) pos)) = fs.content (h.loc (chunkKey p (md (segs p)) pos))) :
    observe env h p (md (segs p)) t pos fs' = observe env h p (md (segs p)) t pos fs := by
  apply observe_congr
  apply readChunk_congr
  have hpl := plain_loc_chunk (h := h) (m := md (segs p)) hb hp hs pos
  rw [storeGet_eq hwf' hpl, storeGet_eq hwf hpl, hc]

/-- A change to the document at one path only. -/
theorem Holds.put_doc {a : AbsHier} {fs fs' : Fs} (hs : ∀ q, GoodSep (md q).separator)
    (hb : Plain (segs h.base)) (hh : Holds env h md a fs)
    (hwf' : fs'.WF) (hclear : Clear h md fs') {p : Str} {n : AbsNode}
    (hother : ∀ l, l ≠ docLoc h str!"array" p → l ≠ docLoc h str!"group" p → fs'.content l = fs.content l)
    (hdoc : DocsOf env (some n) (arrayDoc h fs' p) (groupDoc h fs' p)) :
    Holds env h md (a.put (segs p) n) fs' := by
  refine ⟨hwf', hclear, ?_, ?_⟩
  · intro q hq
    simp only [AbsHier.put]
    by_cases e : segs q = segs p
    · rw [if_pos e]
      unfold arrayDoc groupDoc at hdoc ⊢
      rw [docLoc_congr e, docLoc_congr e]; exact hdoc
    · rw [if_neg e]
      have ha : arrayDoc h fs' q = arrayDoc h fs q :=
        hother _ (fun e' => e (docLoc_injective e')) docLoc_array_ne_group
      have hg : groupDoc h fs' q = groupDoc h fs q :=
        hother _ (fun e' => docLoc_array_ne_group e'.symm) (fun e' => e (docLoc_injective e'))
      rw [ha, hg]
      exact hh.docs q hq
  · intro q t pos hq hc
    rw [observe_of_content hh.wf hwf' hb hq.plain (hs _)
      (hother _ (fun e => docLoc_ne_chunk e.symm) (fun e => docLoc_ne_chunk e.symm))]
    exact hh.data q t pos hq hc

theorem DocsOf.isSome {n : Option AbsNode} {ad gd : Option Bytes} (hd : DocsOf env n ad gd) :
    (ad.isSome || gd.isSome) = n.isSome := by
  cases n with
  | none => rw [hd.1, hd.2]; rfl
  | some n =>
    cases n with
    | group a => obtain ⟨h1, b, kvs, o, h2, _⟩ := hd; rw [h1, h2]; rfl
    | array m a => obtain ⟨h1, b, kvs, o, h2, _⟩ := hd; rw [h1, h2]; rfl

theorem docAttributes_toJson {m : ArrayMetadata} {kvs : JsonObject} (hm : m.toJson = .ok (.obj kvs)) :
    docAttributes (.obj kvs) = .ok m.attributes := by
  simp only [ArrayMetadata.toJson, Outcome.bind_eq_ok, Outcome.pure_def, Outcome.ok.injEq, Json.obj.injEq] at hm
  obtain ⟨dt, _, rfl⟩ := hm
  simp [docAttributes, Json.asObject, objGet, attributesName]

/-- Storing a file of the hierarchy succeeds. -/
theorem Holds.store {a : AbsHier} {fs : Fs} (hs : ∀ q, GoodSep (md q).separator) (hh : Holds env h md a fs)
    {key : Str} (hl : FileLoc h md (h.loc key)) (hpl : Plain (h.loc key)) (v : Bytes × Outcome Unit) :
    ∃ fs', storeSet h key v fs = (v.2, fs') ∧ fs'.WF ∧ Clear h md fs' ∧
      fs'.content (h.loc key) = some v.1 ∧ ∀ l, l ≠ h.loc key → fs'.content l = fs.content l := by
  obtain ⟨fs', e, w, hget⟩ := (storeSet_spec (h := h) (key := key) v hh.wf hpl).1 (hh.clear _ hl)
  refine ⟨fs', e, w, Clear.set hs hh.clear hl hget, ?_, (storeSet_frame hh.wf hpl e).2⟩
  apply Fs.content_eq_some.mpr
  rw [hget, setSpec, if_pos rfl]

theorem step_createGroup {a : AbsHier} {fs : Fs} (hj : env.json.Lawful) (hb : Plain (segs h.base))
    (hsfx : GoodSuffix h.entry) (hs : ∀ q, GoodSep (md q).separator) (hh : Holds env h md a fs) (p : Str)
    (hp : OrdinaryPath h p) :
    ((HCall.createGroup p).run env h md fs).1 = ((HCall.createGroup p).abs a).1 ∧
    Holds env h md ((HCall.createGroup p).abs a).2 ((HCall.createGroup p).run env h md fs).2 := by
  have hd := hh.docs p hp
  simp only [HCall.run, HCall.abs, createGroup_eq hh.wf hb hsfx hp.plain]
  cases hn : a.node (segs p) with
  | none =>
    rw [hn] at hd
    rw [hd.1, hd.2]
    simp only [Option.isSome_none, Bool.false_eq_true, if_false]
    have hl : FileLoc h md (h.loc (groupMetadataKey h.entry p)) := by
      rw [loc_groupKey hsfx hp.plain]; exact .group p hp
    have hpl : Plain (h.loc (groupMetadataKey h.entry p)) := by
      rw [loc_groupKey hsfx hp.plain]; exact plain_docLoc hb hp.plain (by simp)
    obtain ⟨fs', e, w, c, hc, ho⟩ := hh.store hs hl hpl (env.json.print GroupMetadata.default.toJson, .ok ())
    rw [loc_groupKey hsfx hp.plain] at hc ho
    rw [e]
    refine ⟨rfl, hh.put_doc hs hb w c (fun l _ hg => ho l hg) ⟨?_, _, _, [], hc, hj.raw_print _ (by rfl), by rfl, by rfl, rfl⟩⟩
    rw [arrayDoc, ho _ docLoc_array_ne_group]; exact hd.1
  | some n =>
    rw [hn] at hd
    cases n with
    | group at1 =>
      obtain ⟨h1, b, kvs, o, h2, _⟩ := hd
      rw [h1, h2]
      exact ⟨rfl, hh⟩
    | array m at1 =>
      obtain ⟨h1, b, kvs, o, h2, _⟩ := hd
      rw [h1, h2]
      exact ⟨rfl, hh⟩

theorem checkExtensions_faithful {f : Features} {fl : BitVec 64 → Bool} {m : ArrayMetadata} (hm : Faithful f fl m) :
    checkExtensions m.extensions = .ok () := by
  unfold checkExtensions
  cases hf : m.extensions.find? (·.mustUnderstand) with
  | none => rfl
  | some e =>
    have h1 := List.mem_of_find?_eq_some hf
    have h2 := List.find?_some hf
    rw [(hm.exts e h1).1] at h2
    simp at h2

theorem step_createArray {a : AbsHier} {fs : Fs} (hj : env.json.Lawful) (hb : Plain (segs h.base))
    (hsfx : GoodSuffix h.entry) (hs : ∀ q, GoodSep (md q).separator) (hh : Holds env h md a fs) (p : Str)
    (m : ArrayMetadata) (hp : OrdinaryPath h p) (hm : Faithful env.features env.json.floats m) :
    ((HCall.createArray p m).run env h md fs).1 = ((HCall.createArray p m).abs a).1 ∧
    Holds env h md ((HCall.createArray p m).abs a).2 ((HCall.createArray p m).run env h md fs).2 := by
  have hd := hh.docs p hp
  simp only [HCall.run, HCall.abs, createArray_eq hh.wf hb hsfx hp.plain]
  cases hn : a.node (segs p) with
  | none =>
    rw [hn] at hd
    rw [hd.1, hd.2]
    simp only [Option.isSome_none, Bool.false_eq_true, if_false]
    have hl : FileLoc h md (h.loc (arrayMetadataKey h.entry p)) := by
      rw [loc_arrayKey hsfx hp.plain]; exact .array p hp
    have hpl : Plain (h.loc (arrayMetadataKey h.entry p)) := by
      rw [loc_arrayKey hsfx hp.plain]; exact plain_docLoc hb hp.plain (by simp)
    obtain ⟨kvs, k1, k2, k3⟩ := ArrayMetadata.roundTrip hm
    have ht : arrayMetadataText env m = (env.json.print (.obj kvs), .ok ()) := by
      simp [arrayMetadataText, k1]
    obtain ⟨fs', e, w, c, hc, ho⟩ := hh.store hs hl hpl (arrayMetadataText env m)
    rw [loc_arrayKey hsfx hp.plain] at hc ho
    rw [ht] at hc
    rw [e, ht]
    refine ⟨rfl, hh.put_doc hs hb w c (fun l ha _ => ho l ha)
      ⟨?_, _, _, m, hc, hj.raw_print _ k2, k2, docAttributes_toJson k1, k3, checkExtensions_faithful hm, rfl, rfl⟩⟩
    rw [groupDoc, ho _ (fun e => docLoc_array_ne_group e.symm)]; exact hd.2
  | some n =>
    rw [hn] at hd
    cases n with
    | group at1 =>
      obtain ⟨h1, b, kvs, o, h2, _⟩ := hd
      rw [h1, h2]
      exact ⟨rfl, hh⟩
    | array m at1 =>
      obtain ⟨h1, b, kvs, o, h2, _⟩ := hd
      rw [h1, h2]
      exact ⟨rfl, hh⟩

theorem docsCanonical {a : AbsHier} {fs : Fs} (hb : Plain (segs h.base)) (hsfx : GoodSuffix h.entry)
    (hh : Holds env h md a fs) {p : Str} (hp : OrdinaryPath h p) : DocsCanonical env h p fs := by
  have hd := hh.docs p hp
  rintro key (rfl | rfl) t j hg hpar
  · rw [storeGet_array hh.wf hb hsfx hp.plain] at hg
    have hg : arrayDoc h fs p = some t := by simpa using hg
    cases hn : a.node (segs p) with
    | none => rw [hn] at hd; rw [hd.1] at hg; simp at hg
    | some n =>
      rw [hn] at hd
      cases n with
      | group at1 => rw [hd.1] at hg; simp at hg
      | array m at1 =>
        obtain ⟨h1, b, kvs, o, h2, h3, h4, _⟩ := hd
        rw [hg] at h2; cases h2
        rw [hpar] at h3; cases h3
        exact h4
  · rw [storeGet_group hh.wf hb hsfx hp.plain] at hg
    have hg : groupDoc h fs p = some t := by simpa using hg
    cases hn : a.node (segs p) with
    | none => rw [hn] at hd; rw [hd.2] at hg; simp at hg
    | some n =>
      rw [hn] at hd
      cases n with
      | array m at1 => rw [hd.1] at hg; simp at hg
      | group at1 =>
        obtain ⟨h1, b, kvs, o, h2, h3, h4, _⟩ := hd
        rw [hg] at h2; cases h2
        rw [hpar] at h3; cases h3
        exact h4

/-- What merging does to the attributes of a document. -/
theorem docAttributes_merged {kvs b o : JsonObject} (hb : (b.map Prod.fst).Nodup)
    (ho : docAttributes (.obj kvs) = .ok o) :
    ∃ o', mergedDoc kvs b = objInsert kvs attributesName (.obj o') ∧
      docAttributes (.obj (mergedDoc kvs b)) = .ok o' ∧ objGet o' = Attrs.update (objGet o) b := by
  obtain ⟨o', e, hcase⟩ := mergedDoc_eq kvs b
  refine ⟨o', e, ?_, ?_⟩
  · rw [e]; simp [docAttributes, Json.asObject, objGet_objInsert]
  · funext k
    simp only [Attrs.update]
    rcases hcase with ⟨o1, h1, rfl⟩ | ⟨h1, rfl⟩
    · rw [objGet_mergeObj _ _ hb]
      simp [docAttributes, Json.asObject, h1] at ho
      rw [ho]
    · have : objGet kvs attributesName = none := by
        cases hg : objGet kvs attributesName with
        | none => rfl
        | some j =>
          cases j with
          | obj o => exact absurd hg (h1 o)
          | _ => simp [docAttributes, Json.asObject, hg] at ho
      simp [docAttributes, Json.asObject, this] at ho
      subst ho
      simp [objGet]

theorem step_setAttributes {a : AbsHier} {fs : Fs} (hj : env.json.Lawful) (hb : Plain (segs h.base))
    (hsfx : GoodSuffix h.entry) (hs : ∀ q, GoodSep (md q).separator) (hh : Holds env h md a fs) (p : Str)
    (b : JsonObject) (hp : OrdinaryPath h p) (hcan : (Json.obj b).canon env.json.floats 126 = true) :
    ((HCall.setAttributes p b).run env h md fs).1 = ((HCall.setAttributes p b).abs a).1 ∧
    Holds env h md ((HCall.setAttributes p b).abs a).2 ((HCall.setAttributes p b).run env h md fs).2 := by
  have hd := hh.docs p hp
  have hnd : (b.map Prod.fst).Nodup := (Json.canonObj_iff.mp hcan).2
  have hla : Plain (h.loc (arrayMetadataKey h.entry p)) := by
    rw [loc_arrayKey hsfx hp.plain]; exact plain_docLoc hb hp.plain (by simp)
  have hlg : Plain (h.loc (groupMetadataKey h.entry p)) := by
    rw [loc_groupKey hsfx hp.plain]; exact plain_docLoc hb hp.plain (by simp)
  -- success, and the state
  have main : ∀ c kvs, (arrayDoc h fs p = some c ∨ (arrayDoc h fs p = none ∧ groupDoc h fs p = some c)) →
      env.json.raw c = some (.obj kvs) → (Json.obj kvs).canon env.json.floats 127 = true →
      ∃ fs', setAttributes env h p b fs = (.ok (), fs') ∧ fs'.WF ∧
        Clear h md fs' ∧ ∃ l c', l = (if (arrayDoc h fs p).isSome then docLoc h str!"array" p else docLoc h str!"group" p) ∧
        fs'.content l = some c' ∧ env.json.raw c' = some (.obj (mergedDoc kvs b)) ∧
        (Json.obj (mergedDoc kvs b)).canon env.json.floats 127 = true ∧ ∀ x, x ≠ l → fs'.content x = fs.content x := by
    intro c kvs hc hraw hcanr
    have hpar := parse_of_raw hraw hcanr
    have hok : (setAttributes env h p b fs).1 = .ok () :=
      ((C67 env h p fs hh.wf hb hsfx hp.plain).2.2.1 b).mpr ⟨c, kvs, hc, hpar⟩
    obtain ⟨fs', hset⟩ : ∃ fs', setAttributes env h p b fs = (.ok (), fs') := ⟨_, Prod.ext hok rfl⟩
    have hcanon := docsCanonical hb hsfx hh hp
    obtain ⟨key, t, l, c1, kvs1, c', hkey, hk, _, h1, h2, _, h3, h3', h4, _, _, h4', hcan1, hoth⟩ :=
      setAttributes_after hj hcan hcanon hset
    have hw : fs'.WF := by
      have := (NodeOp.run_frame (env := env) (op := .setAttributes p b) hh.wf hb hsfx hp.plain).1
      simp only [NodeOp.run, hset] at this
      exact this
    have hl : l = (if (arrayDoc h fs p).isSome then docLoc h str!"array" p else docLoc h str!"group" p) := by
      obtain ⟨_, hk⟩ := nodeMetadataKey_ok hk
      rcases hk with ⟨rfl, hx⟩ | ⟨rfl, _, hx⟩
      · rw [storeExists_array hh.wf hb hsfx hp.plain] at hx
        have hx : (arrayDoc h fs p).isSome = true := by simpa using hx
        rw [if_pos hx, locate_key hla h1 h2, loc_arrayKey hsfx hp.plain]
      · rw [storeExists_array hh.wf hb hsfx hp.plain] at hx
        have hx : ¬ (arrayDoc h fs p).isSome = true := by simpa using hx
        rw [if_neg hx, locate_key hlg h1 h2, loc_groupKey hsfx hp.plain]
    have hcc : c1 = c ∧ kvs1 = kvs := by
      have h5 := Fs.content_eq_some.mpr h3
      rw [hl] at h5
      have : c1 = c := by
        rcases hc with hc | ⟨hc1, hc2⟩
        · rw [if_pos (by rw [hc]; rfl)] at h5
          rw [arrayDoc, h5] at hc; simpa using hc
        · rw [if_neg (by rw [hc1]; simp)] at h5
          rw [groupDoc, h5] at hc2; simpa using hc2
      refine ⟨this, ?_⟩
      rw [this, hpar] at h4
      simpa using h4.symm
    obtain ⟨rfl, rfl⟩ := hcc
    refine ⟨fs', hset, hw, ?_, l, c', hl, Fs.content_eq_some.mpr h3', h4', ?_, fun x hx => Fs.content_congr (hoth x hx)⟩
    · refine Clear.mono hh.clear fun x => ?_
      by_cases e : x = l
      · exact .inr (.inr ⟨c1, c', e ▸ h3, e ▸ h3'⟩)
      · exact .inl (hoth x e)
    · refine mergedDoc_canon hcan1 hcan
  simp only [HCall.run, HCall.abs]
  cases hn : a.node (segs p) with
  | none =>
    rw [hn] at hd
    have : setAttributes env h p b fs = (.err .notFound, fs) := by
      simp [setAttributes, nodeMetadataKey, storeExists_array hh.wf hb hsfx hp.plain,
        storeExists_group hh.wf hb hsfx hp.plain, hd.1, hd.2]
    rw [this]
    exact ⟨rfl, hh⟩
  | some n =>
    rw [hn] at hd
    cases n with
    | group at1 =>
      obtain ⟨h1, c, kvs, o, h2, h3, h4, h5, rfl⟩ := hd
      obtain ⟨fs', e, w, cl, l, c', hl, hc', hpar, hcan', hoth⟩ := main c kvs (.inr ⟨h1, h2⟩) h3 h4
      rw [if_neg (by rw [h1]; simp)] at hl
      subst hl
      obtain ⟨o', _, k2, k3⟩ := docAttributes_merged hnd h5
      rw [e]
      refine ⟨rfl, hh.put_doc hs hb w cl (fun x _ hx => hoth x hx) ⟨?_, c', _, o', hc', hpar, hcan', k2, k3.symm⟩⟩
      rw [arrayDoc, hoth _ docLoc_array_ne_group]; exact h1
    | array m at1 =>
      obtain ⟨h1, c, kvs, m', h2, h3, h4, h5, h6, h7, rfl, rfl⟩ := hd
      obtain ⟨fs', e, w, cl, l, c', hl, hc', hpar, hcan', hoth⟩ := main c kvs (.inl h2) h3 h4
      rw [if_pos (by rw [h2]; rfl)] at hl
      subst hl
      obtain ⟨o', k1, k2, k3⟩ := docAttributes_merged hnd h5
      rw [e]
      refine ⟨rfl, hh.put_doc hs hb w cl (fun x hx _ => hoth x hx)
        ⟨?_, c', _, { m' with attributes := o' }, hc', hpar, hcan', k2, ?_, h7, rfl, k3.symm⟩⟩
      · rw [groupDoc, hoth _ (fun e => docLoc_array_ne_group e.symm)]; exact h1
      · rw [k1]; exact fromJson_insert_attributes (Json.canonObj_iff.mp h4).2 (mergedDoc_dedup h4 hcan k1) h6

theorem step_remove {a : AbsHier} {fs : Fs} (hb : Plain (segs h.base))
    (hsfx : GoodSuffix h.entry) (hs : ∀ q, GoodSep (md q).separator) (hh : Holds env h md a fs) (p : Str)
    (hp : OrdinaryPath h p) :
    ((HCall.remove p).run env h md fs).1 = ((HCall.remove p).abs a).1 ∧
    Holds env h md ((HCall.remove p).abs a).2 ((HCall.remove p).run env h md fs).2 := by
  have hok : (remove h p fs).1 = .ok () :=
    (C67 env h p fs hh.wf hb hsfx hp.plain).2.2.2.1.mpr
      ⟨(hh.clear _ (.group p hp)).2, (hh.clear _ (.array p hp)).2⟩
  have hwr : (remove h p fs).2.WF :=
    (NodeOp.run_frame (env := env) (op := .remove p) hh.wf hb hsfx hp.plain).1
  obtain ⟨w, f, g⟩ := remove_frame hh.wf hb hsfx hp.plain
  obtain ⟨g1, g2, g3⟩ := g hok
  simp only [HCall.run, HCall.abs, hok]
  refine ⟨trivial, w, ?_, ?_, ?_⟩
  · -- entries change only by going away
    have hplA : Plain (h.loc (arrayMetadataKey h.entry p)) := by
      rw [loc_arrayKey hsfx hp.plain]; exact plain_docLoc hb hp.plain (by simp)
    have hplG : Plain (h.loc (groupMetadataKey h.entry p)) := by
      rw [loc_groupKey hsfx hp.plain]; exact plain_docLoc hb hp.plain (by simp)
    have hplD : Plain (h.loc (dataPathKey p)) := by
      rw [loc_dataKey]; exact plain_dataLoc hb hp.plain
    have er : ∀ (key : Str) (fs1 : Fs), fs1.WF → Plain (h.loc key) → Clear h md fs1 →
        (storeErase h key fs1).2.WF ∧ Clear h md (storeErase h key fs1).2 := by
      intro key fs1 w1 pl1 c1
      have sp := storeErase_spec w1 pl1
      refine ⟨(storeErase_frame w1 pl1 (Prod.eta _).symm).1, Clear.mono c1 fun x => ?_⟩
      rw [sp]
      split
      · simp only [Fs.get_del]
        by_cases e : x = h.loc key
        · rw [if_pos e]; exact .inr (.inl rfl)
        · rw [if_neg e]; exact .inl rfl
      · exact .inl rfl
      · exact .inl rfl
    obtain ⟨w1, c1⟩ := er _ fs hh.wf hplG hh.clear
    obtain ⟨w2, c2⟩ := er _ _ w1 hplA c1
    obtain ⟨fs3, e3, _, hg3⟩ := storeErasePrefix_spec (h := h) (key := dataPathKey p) w2 hplD
      (by rw [loc_dataKey]; exact dataLoc_ne_nil h p)
    have hst : (remove h p fs).2 = fs3 := by
      have hr := hok
      simp only [remove, M.bind_apply] at hr ⊢
      cases e1 : storeErase h (groupMetadataKey h.entry p) fs with
      | mk r1 f1 =>
        rw [e1] at hr e3
        cases r1 with
        | err e => simp at hr
        | panic => simp at hr
        | ok v1 =>
          simp only at hr e3 ⊢
          cases e2 : storeErase h (arrayMetadataKey h.entry p) f1 with
          | mk r2 f2 =>
            rw [e2] at hr e3
            cases r2 with
            | err e => simp at hr
            | panic => simp at hr
            | ok v2 => simp only at e3 ⊢; rw [e3]; rfl
    rw [hst]
    refine Clear.mono c2 fun x => ?_
    rw [hg3]
    split
    · exact .inr (.inl rfl)
    · exact .inl rfl
  · intro q hq
    simp only
    by_cases e : segs q = segs p
    · rw [if_pos e]
      refine ⟨?_, ?_⟩
      · rw [arrayDoc, docLoc_congr e]; exact g1
      · rw [groupDoc, docLoc_congr e]; exact g2
    · rw [if_neg e]
      obtain ⟨h1, h2⟩ := NodeOp.run_docs (env := env) (op := .remove p) hh.wf hb hsfx hp.plain (Ne.symm e)
      simp only [NodeOp.run] at h1 h2
      rw [h1, h2]
      exact hh.docs q hq
  · intro q t pos hq hc
    simp only
    by_cases e : segs p <+: segs q
    · rw [if_pos e]
      have hpl := plain_segs_chunkKey (m := md (segs q)) hq.plain (hs _) pos
      have := (C38_partial env h p fs hh.wf hb hsfx hp.plain hok).2.2.2.2.2 q (md (segs q)) t pos e hpl hc.bounds
      unfold observe
      rw [this]; rfl
    · rw [if_neg e]
      rw [← hh.data q t pos hq hc]
      apply observe_of_content hh.wf w hb hq.plain (hs _)
      rcases f (h.loc (chunkKey q (md (segs q)) pos)) with h1 | ⟨_, h1 | h1 | h1⟩
      · exact Fs.content_congr h1
      · exact absurd h1.symm docLoc_ne_chunk
      · exact absurd h1.symm docLoc_ne_chunk
      · exfalso
        rw [dataLoc_prefix_chunk] at h1
        rcases prefix_append_cases h1 with h2 | ⟨r, hr, h2⟩
        · exact e h2
        · cases r with
          | nil => exact e (by rw [hr]; simp)
          | cons s r =>
            obtain ⟨s', tl, htl, hlike⟩ := chunkTail_like (md (segs q)).separator pos (hs _)
            rw [htl, List.cons_prefix_cons] at h2
            exact (hp s (by rw [hr]; simp)).chunk (h2.1 ▸ hlike)

theorem Holds.docs_frame {a : AbsHier} {fs fs' : Fs} (hh : Holds env h md a fs) {q : Str} {m : ArrayMetadata}
    {pos : List Nat} (ho : ∀ l, l ≠ h.loc (chunkKey q m pos) → fs'.content l = fs.content l) (p : Str)
    (hp : OrdinaryPath h p) : DocsOf env (a.node (segs p)) (arrayDoc h fs' p) (groupDoc h fs' p) := by
  rw [arrayDoc, ho _ docLoc_ne_chunk, groupDoc, ho _ docLoc_ne_chunk]
  exact hh.docs p hp

theorem step_writeChunk {a : AbsHier} {fs : Fs} (hb : Plain (segs h.base))
    (hs : ∀ q, GoodSep (md q).separator) (hh : Holds env h md a fs) (p : Str)
    (t : RsType) (c : DataChunk t) (hok : (HCall.writeChunk p t c).Ok env h md) :
    ((HCall.writeChunk p t c).run env h md fs).1 = ((HCall.writeChunk p t c).abs a).1 ∧
    Holds env h md ((HCall.writeChunk p t c).abs a).2 ((HCall.writeChunk p t c).run env h md fs).2 := by
  obtain ⟨hp, ⟨hin, d, hd, hk⟩, hlen, hlt, hlaw, htot⟩ := hok
  have hpl := plain_loc_chunk (h := h) (m := md (segs p)) hb hp.plain (hs _) c.gridPosition
  have hfit : (ChunkOp.write p (md (segs p)) t c).Fits env :=
    ⟨hp.plain, hs _, hlaw, htot, hlen, hlt, d, hd, hk⟩
  obtain ⟨sg, _, hwb⟩ := writeChunkBytes_fits (ext := env.codecs) (native := env.native)
    (m := md (segs p)) (c := c) (effective_iff.mpr hd) ((eqModuloEndian_iff_kind _ _ _).mpr hk)
    (by rw [hlen, Nat.mod_eq_of_lt hlt]; rfl)
  have hbytes : (writeChunkBytes env.codecs env.native (md (segs p)) c).2 = .ok () := by
    rw [hwb]; exact htot sg
  obtain ⟨fs', e, w, cl, hc, ho⟩ := hh.store hs (.chunk p c.gridPosition hp (inBounds_length hin)) hpl
    (writeChunkBytes env.codecs env.native (md (segs p)) c)
  rw [hbytes] at e
  have hw : writeChunk env h p (md (segs p)) c fs = (.ok (), fs') := e
  simp only [HCall.run, HCall.abs, hw]
  refine ⟨trivial, w, cl, hh.docs_frame ho, ?_⟩
  intro q t' pos hq hcq
  obtain ⟨hin', d', hd', hk'⟩ := hcq
  have := C05 env h q (md (segs q)) t' pos d' [ChunkOp.write p (md (segs p)) t c] fs hh.wf hb hq.plain (hs _) hin' hd' hk'
    (by simpa using hfit) (by simp only [List.mem_singleton, forall_eq]; intro e; simp only [ChunkOp.meta, ChunkOp.path] at e ⊢; rw [e])
  simp only [runOps, ChunkOp.run, hw, List.zip_cons_cons, List.zip_nil_left, Spec.cell, Outcome.isOk, ChunkOp.path,
    ChunkOp.pos, true_and] at this
  rw [this, hh.data q t' pos hq ⟨hin', d', hd', hk'⟩]
  by_cases e1 : segs q = segs p ∧ pos = c.gridPosition
  · simp only [e1, and_self, if_true, Spec.newValue]
  · have e2 : ¬ (segs p = segs q ∧ c.gridPosition = pos) := fun hh => e1 ⟨hh.1.symm, hh.2.symm⟩
    simp only [e1, e2, if_false]

theorem step_deleteChunk {a : AbsHier} {fs : Fs} (hb : Plain (segs h.base))
    (hs : ∀ q, GoodSep (md q).separator) (hh : Holds env h md a fs) (p : Str)
    (pos' : List Nat) (hok : (HCall.deleteChunk p pos').Ok env h md) :
    ((HCall.deleteChunk p pos').run env h md fs).1 = ((HCall.deleteChunk p pos').abs a).1 ∧
    Holds env h md ((HCall.deleteChunk p pos').abs a).2 ((HCall.deleteChunk p pos').run env h md fs).2 := by
  obtain ⟨hp, hin⟩ := hok
  have hpl := plain_loc_chunk (h := h) (m := md (segs p)) hb hp.plain (hs _) pos'
  have hfit : (ChunkOp.delete p (md (segs p)) pos').Fits env := ⟨hp.plain, hs _, trivial⟩
  have hnd := (hh.clear _ (.chunk p pos' hp (inBounds_length hin))).2
  have sp := storeErase_spec hh.wf hpl
  obtain ⟨w, f, _⟩ := storeErase_frame hh.wf hpl (Prod.eta (storeErase h (chunkKey p (md (segs p)) pos') fs)).symm
  have hres : (storeErase h (chunkKey p (md (segs p)) pos') fs).1 = .ok true := by
    rw [sp]
    cases hg : fs.get (h.loc (chunkKey p (md (segs p)) pos')) with
    | none => rfl
    | some n => cases n with
      | dir => exact absurd hg hnd
      | file b => rfl
  obtain ⟨fs', e⟩ : ∃ fs', deleteChunk h p (md (segs p)) pos' fs = (.ok true, fs') := ⟨_, Prod.ext hres rfl⟩
  have hfs : (storeErase h (chunkKey p (md (segs p)) pos') fs).2 = fs' := congrArg Prod.snd e
  rw [hfs] at w f
  simp only [HCall.run, HCall.abs, e]
  refine ⟨trivial, w, ?_, ?_, ?_⟩
  · refine Clear.mono hh.clear fun x => ?_
    rw [← hfs, sp]
    split
    · simp only [Fs.get_del]
      by_cases e : x = h.loc (chunkKey p (md (segs p)) pos')
      · rw [if_pos e]; exact .inr (.inl rfl)
      · rw [if_neg e]; exact .inl rfl
    · exact .inl rfl
    · exact .inl rfl
  · refine hh.docs_frame (q := p) (m := md (segs p)) (pos := pos') fun l hl => ?_
    rcases f l with h1 | h1
    · exact Fs.content_congr h1
    · exact absurd h1 hl
  · intro q t' pos hq hcq
    obtain ⟨hin', d', hd', hk'⟩ := hcq
    have := C05 env h q (md (segs q)) t' pos d' [ChunkOp.delete p (md (segs p)) pos'] fs hh.wf hb hq.plain (hs _) hin' hd' hk'
      (by simpa using hfit) (by simp only [List.mem_singleton, forall_eq]; intro e; simp only [ChunkOp.meta, ChunkOp.path] at e ⊢; rw [e])
    simp only [runOps, ChunkOp.run, e, List.zip_cons_cons, List.zip_nil_left, Spec.cell, Outcome.isOk, ChunkOp.path,
      ChunkOp.pos, true_and] at this
    rw [this, hh.data q t' pos hq ⟨hin', d', hd', hk'⟩]
    by_cases e1 : segs q = segs p ∧ pos = pos'
    · simp only [e1, and_self, if_true, Spec.newValue]
    · have e2 : ¬ (segs p = segs q ∧ pos' = pos) := fun hh => e1 ⟨hh.1.symm, hh.2.symm⟩
      simp only [e1, e2, if_false]

/-- No file stands where a path without documents would be found as an implicit group. -/
theorem Holds.implicit {a : AbsHier} {fs : Fs} (hh : Holds env h md a fs) {p : Str} (hp : OrdinaryPath h p) :
    fs.content (implicitLoc h p) = none := by
  have hx : segs (p ++ '/' :: str!"x") = segs p ++ [str!"x"] := by
    rw [segs_append_sep, segs_single str!"x" (by decide) (by decide) (by decide)]
  have hord : OrdinaryPath h (p ++ '/' :: str!"x") := by
    intro s hs
    rw [hx] at hs
    rcases List.mem_append.mp hs with hs | hs
    · exact hp s hs
    · simp only [List.mem_singleton] at hs
      subst hs
      refine ⟨by decide, ?_, ?_, ?_⟩
      · rintro (h1 | ⟨d, r, h1, _⟩)
        · exact absurd h1 (by decide)
        · simp at h1
      · intro h1; have := h1.length_le; simp at this
      · intro h1; have := h1.length_le; simp at this
  obtain ⟨i, x, e1, e2⟩ := docLoc_split h str!"group" (p ++ '/' :: str!"x")
  rw [hx] at e1
  have hi : i = str!"meta" :: str!"root" :: segs p := by
    have e3 : (str!"meta" :: str!"root" :: segs p) ++ [str!"x"] = i ++ [x] := e1
    exact (List.append_inj' e3 rfl).1.symm
  have hw := (hh.clear _ (.group _ hord)).1 (implicitLoc h p)
  rw [e2, hi] at hw
  have hw := hw ⟨[_], by rw [implicitLoc, List.append_assoc, List.append_assoc]; rfl⟩
    (by intro e; have := congrArg List.length e; simp [implicitLoc] at this)
  cases hc : fs.content (implicitLoc h p) with
  | none => rfl
  | some b => exact absurd (Fs.content_eq_some.mp hc) (hw b)

theorem Holds.nodeExists {a : AbsHier} {fs : Fs} (hb : Plain (segs h.base)) (hsfx : GoodSuffix h.entry)
    (hdot : '.' ∉ stripDot h.entry.metadataKeySuffix) (hh : Holds env h md a fs) {p : Str} (hp : OrdinaryPath h p) :
    Zarr.nodeExists h p fs = (.ok (a.node (segs p)).isSome, fs) := by
  rw [nodeExists_eq hh.wf hb hsfx hdot hp.plain, hh.implicit hp, (hh.docs p hp).isSome]
  simp

theorem Holds.getArrayMetadata {a : AbsHier} {fs : Fs} (hb : Plain (segs h.base)) (hsfx : GoodSuffix h.entry)
    (hh : Holds env h md a fs) {p : Str} (hp : OrdinaryPath h p) :
    (∃ m ats m', a.node (segs p) = some (.array m ats) ∧ m = { m' with attributes := [] } ∧ ats = objGet m'.attributes ∧
      Zarr.getArrayMetadata env h p fs = (.ok m', fs)) ∨
    ((∀ m ats, a.node (segs p) ≠ some (.array m ats)) ∧ Zarr.getArrayMetadata env h p fs = (.err .notFound, fs)) := by
  have hd := hh.docs p hp
  have hnone : arrayDoc h fs p = none → Zarr.getArrayMetadata env h p fs = (.err .notFound, fs) := by
    intro e
    simp [Zarr.getArrayMetadata, storeGet_array hh.wf hb hsfx hp.plain, e, Outcome.ofOption]
  cases hn : a.node (segs p) with
  | none =>
    rw [hn] at hd
    exact .inr ⟨by simp, hnone hd.1⟩
  | some n =>
    rw [hn] at hd
    cases n with
    | group at1 => exact .inr ⟨by simp, hnone hd.1⟩
    | array m at1 =>
      obtain ⟨h1, b, kvs, m', h2, h3, h4, h5, h6, h7, h8, h9⟩ := hd
      refine .inl ⟨m, at1, m', rfl, h8, h9, ?_⟩
      simp [Zarr.getArrayMetadata, storeGet_array hh.wf hb hsfx hp.plain, h2, Outcome.ofOption, parseArrayMetadata, h3, h6, h7]

theorem Holds.listAttributes {a : AbsHier} {fs : Fs} (hb : Plain (segs h.base)) (hsfx : GoodSuffix h.entry)
    (hh : Holds env h md a fs) {p : Str} (hp : OrdinaryPath h p) :
    ((Zarr.listAttributes env h p fs).1 >>= fun o => .ok (objGet o)) = (match a.node (segs p) with
      | none => .err .notFound
      | some (.group ats) => .ok ats
      | some (.array _ ats) => .ok ats) ∧ (Zarr.listAttributes env h p fs).2 = fs := by
  have hd := hh.docs p hp
  cases hn : a.node (segs p) with
  | none =>
    rw [hn] at hd
    simp [Zarr.listAttributes, nodeMetadataKey, storeExists_array hh.wf hb hsfx hp.plain,
      storeExists_group hh.wf hb hsfx hp.plain, hd.1, hd.2]
  | some n =>
    rw [hn] at hd
    cases n with
    | group at1 =>
      obtain ⟨h1, b, kvs, o, h2, h3, h4, h5, h6⟩ := hd
      simp [Zarr.listAttributes, nodeMetadataKey, storeExists_array hh.wf hb hsfx hp.plain,
        storeExists_group hh.wf hb hsfx hp.plain, storeGet_group hh.wf hb hsfx hp.plain, h1, h2, parse_of_raw h3 h4, h5, h6, Outcome.ofOption]
    | array m at1 =>
      obtain ⟨h1, b, kvs, m', h2, h3, h4, h5, h6, h7, h8, h9⟩ := hd
      simp [Zarr.listAttributes, nodeMetadataKey, storeExists_array hh.wf hb hsfx hp.plain,
        storeGet_array hh.wf hb hsfx hp.plain, h2, parse_of_raw h3 h4, h5, h9, Outcome.ofOption]

theorem arrayExists_of {p : Str} {fs : Fs} {b : Bool} (hne : Zarr.nodeExists h p fs = (.ok b, fs)) :
    (∀ m, Zarr.getArrayMetadata env h p fs = (.ok m, fs) → Zarr.arrayExists env h p fs = (.ok b, fs)) ∧
    (∀ e, Zarr.getArrayMetadata env h p fs = (.err e, fs) → Zarr.arrayExists env h p fs = (.ok false, fs)) := by
  unfold Zarr.arrayExists
  rw [M.bind_apply, hne]
  generalize Zarr.getArrayMetadata env h p = g
  cases b with
  | false => exact ⟨fun _ _ => rfl, fun _ _ => rfl⟩
  | true =>
    constructor
    · intro m hm
      show (match g fs with
        | (.ok _, fs') => ((.ok true : Outcome Bool), fs')
        | (.err _, fs') => (.ok false, fs')
        | (.panic, fs') => (.panic, fs')) = _
      rw [hm]
    · intro e hm
      show (match g fs with
        | (.ok _, fs') => ((.ok true : Outcome Bool), fs')
        | (.err _, fs') => (.ok false, fs')
        | (.panic, fs') => (.panic, fs')) = _
      rw [hm]

theorem step {a : AbsHier} {fs : Fs} (hj : env.json.Lawful) (hb : Plain (segs h.base))
    (hsfx : GoodSuffix h.entry) (hdot : '.' ∉ stripDot h.entry.metadataKeySuffix)
    (hs : ∀ q, GoodSep (md q).separator) (hh : Holds env h md a fs) (c : HCall) (hok : c.Ok env h md) :
    (c.run env h md fs).1 = (c.abs a).1 ∧ Holds env h md (c.abs a).2 (c.run env h md fs).2 := by
  cases c with
  | createGroup p => exact step_createGroup hj hb hsfx hs hh p hok
  | createArray p m => exact step_createArray hj hb hsfx hs hh p m hok.1 hok.2
  | setAttributes p b => exact step_setAttributes hj hb hsfx hs hh p b hok.1 hok.2
  | remove p => exact step_remove hb hsfx hs hh p hok
  | writeChunk p t c => exact step_writeChunk hb hs hh p t c hok
  | deleteChunk p pos => exact step_deleteChunk hb hs hh p pos hok
  | nodeExists p =>
    simp only [HCall.run, HCall.abs, hh.nodeExists hb hsfx hdot hok]
    exact ⟨trivial, hh⟩
  | arrayExists p =>
    have hp : OrdinaryPath h p := hok
    have hne := hh.nodeExists hb hsfx hdot hp
    simp only [HCall.run, HCall.abs]
    rcases hh.getArrayMetadata hb hsfx hp with ⟨m, ats, m', h1, _, _, h4⟩ | ⟨h1, h4⟩
    · rw [h1] at hne ⊢
      rw [(arrayExists_of hne).1 _ h4]
      exact ⟨rfl, hh⟩
    · rw [(arrayExists_of hne).2 _ h4]
      cases hn : a.node (segs p) with
      | none => exact ⟨rfl, hh⟩
      | some n =>
        cases n with
        | group at1 => exact ⟨rfl, hh⟩
        | array m ats => exact absurd hn (h1 m ats)
  | getArrayMetadata p =>
    have hp : OrdinaryPath h p := hok
    simp only [HCall.run, HCall.abs]
    rcases hh.getArrayMetadata hb hsfx hp with ⟨m, ats, m', h1, h2, h3, h4⟩ | ⟨h1, h4⟩
    · rw [h4, h1, h2, h3]; exact ⟨rfl, hh⟩
    · rw [h4]
      cases hn : a.node (segs p) with
      | none => exact ⟨rfl, hh⟩
      | some n =>
        cases n with
        | group at1 => exact ⟨rfl, hh⟩
        | array m ats => exact absurd hn (h1 m ats)
  | listAttributes p =>
    have hp : OrdinaryPath h p := hok
    obtain ⟨h1, h2⟩ := hh.listAttributes hb hsfx hp
    simp only [HCall.run, HCall.abs, h1, h2]
    cases hn : a.node (segs p) with
    | none => exact ⟨rfl, hh⟩
    | some n => cases n <;> exact ⟨rfl, hh⟩
  | readChunk p t pos =>
    obtain ⟨hp, hc⟩ := hok
    have hpl := plain_loc_chunk (h := h) (m := md (segs p)) hb hp.plain (hs _) pos
    have hst : (Zarr.readChunk env h p (md (segs p)) t pos fs).2 = fs := by
      rw [readChunk_inBounds hc.bounds (storeGet_eq hh.wf hpl)]
      split <;> rfl
    simp only [HCall.run, HCall.abs, hh.data p t pos hp hc, hst]
    exact ⟨trivial, hh⟩

/-- A directory without a hierarchy holds the empty one. -/
theorem Holds.fresh {fs : Fs} (hb : Plain (segs h.base)) (hs : ∀ q, GoodSep (md q).separator) (hwf : fs.WF)
    (hf : FreshDir h fs) : Holds env h md AbsHier.empty fs := by
  have hno : ∀ l, FileLoc h md l → fs.content l = none := by
    intro l hl
    obtain ⟨x, r, rfl, hx, hr⟩ := FileLoc.below hl
    unfold Fs.content
    rw [hf.1 _ _ rfl (by simp) (by simp [hr])]
  refine ⟨hwf, Clear.fresh hf, fun p hp => ⟨hno _ (.array p hp), hno _ (.group p hp)⟩, ?_⟩
  intro p t pos hp hc
  have hpl := plain_loc_chunk (h := h) (m := md (segs p)) hb hp.plain (hs _) pos
  have hg := storeGet_eq hwf hpl
  rw [hno _ (.chunk p pos hp (inBounds_length hc.bounds))] at hg
  unfold observe
  rw [readChunk_inBounds hc.bounds hg]
  rfl

theorem results_of_holds {a : AbsHier} {fs : Fs} (hj : env.json.Lawful) (hb : Plain (segs h.base))
    (hsfx : GoodSuffix h.entry) (hdot : '.' ∉ stripDot h.entry.metadataKeySuffix)
    (hs : ∀ q, GoodSep (md q).separator) (hh : Holds env h md a fs) (calls : List HCall)
    (hok : ∀ c ∈ calls, c.Ok env h md) : hResults env h md calls fs = absResults calls a := by
  induction calls generalizing a fs with
  | nil => rfl
  | cons c cs ih =>
    obtain ⟨h1, h2⟩ := step hj hb hsfx hdot hs hh c (hok c (by simp))
    rw [hResults, absResults, h1, ih h2 fun c hc => hok c (by simp [hc])]

end

/-- **C70** In a directory without a hierarchy, every history of calls gives the results that it gives on
a map from paths to nodes and from paths and grid positions to chunks: nodes, attributes, metadata and
chunks do not interfere with each other. -/
theorem C70 (env : Env) (h : Hier) (md : List Str → ArrayMetadata) (calls : List HCall) (fs : Fs) (hwf : fs.WF)
    (hj : env.json.Lawful) (hb : Plain (segs h.base)) (hsfx : GoodSuffix h.entry)
    (hdot : '.' ∉ stripDot h.entry.metadataKeySuffix) (hs : ∀ q, GoodSep (md q).separator)
    (hf : FreshDir h fs) (hok : ∀ c ∈ calls, c.Ok env h md) :
    hResults env h md calls fs = absResults calls AbsHier.empty :=
  results_of_holds hj hb hsfx hdot hs (.fresh hb hs hwf hf) calls hok

/-! ## A concrete case -/

/-- Create a group and below it an array, write and read a chunk, set attributes, look, remove the group's
path and look again. -/
def Demo.history : List HCall :=
  [.createGroup str!"/a", .createArray Demo.path Demo.arr, .createArray str!"a" Demo.arr,
   .setAttributes str!"/a" Demo.newAttrs, .writeChunk Demo.path .u16 Demo.chunk, .readChunk str!"a/b" .u16 [1],
   .listAttributes str!"a", .getArrayMetadata str!"/a/b", .remove str!"/a", .nodeExists str!"/a",
   .arrayExists str!"/a/b", .readChunk str!"a/b" .u16 [1], .deleteChunk Demo.path [2]]

theorem Demo.ordinary {s : Str} (h : s = str!"a" ∨ s = str!"b") : OrdinaryName Demo.hier s := by
  rcases h with rfl | rfl <;> refine ⟨by decide, ?_, by decide, by decide⟩ <;>
    (rintro (h1 | ⟨d, r, h1, _⟩) <;> simp at h1)

theorem Demo.ordinaryPath {p : Str} (h : (segs p).all (fun s => decide (s = str!"a" ∨ s = str!"b")) = true) :
    OrdinaryPath Demo.hier p := fun s hs => Demo.ordinary (of_decide_eq_true (List.all_eq_true.mp h s hs))

theorem Demo.arr_faithful : Faithful Demo.envJ.features Demo.envJ.json.floats Demo.arr where
  shape := by simp [Demo.arr]
  chunkShape := by simp [Demo.arr]
  core := by simp [Demo.arr, TypeFaithful]
  fallback := by simp [Demo.arr]
  fill := by simp [Demo.arr]
  exts := by simp [Demo.arr]
  attrs := by simp [Demo.arr, Json.canon, Json.canonObj]
  comp := by simp [Demo.arr, CompressionType.WellTyped, CompressionType.enabled]

theorem Demo.history_ok : ∀ c ∈ Demo.history, c.Ok Demo.envJ Demo.hier fun _ => Demo.arr := by
  have hc : ∀ n, n < 3 → Demo.arr.inBounds [n] = .ok true := by
    intro n hn
    have : n = 0 ∨ n = 1 ∨ n = 2 := by omega
    rcases this with rfl | rfl | rfl <;> decide
  have hcall : ∀ n, n < 3 → ChunkCallOk Demo.arr .u16 [n] := fun n hn => ⟨hc n hn, _, rfl, rfl⟩
  simp only [Demo.history, List.forall_mem_cons, HCall.Ok]
  refine ⟨Demo.ordinaryPath (by decide), ⟨Demo.ordinaryPath (by decide), Demo.arr_faithful⟩,
    ⟨Demo.ordinaryPath (by decide), Demo.arr_faithful⟩, ⟨Demo.ordinaryPath (by decide), by decide⟩,
    ⟨Demo.ordinaryPath (by decide), hcall 1 (by decide), rfl, by decide, ?_, ?_⟩,
    ⟨Demo.ordinaryPath (by decide), hcall 1 (by decide)⟩, Demo.ordinaryPath (by decide), Demo.ordinaryPath (by decide),
    Demo.ordinaryPath (by decide), Demo.ordinaryPath (by decide), Demo.ordinaryPath (by decide),
    ⟨Demo.ordinaryPath (by decide), hcall 1 (by decide)⟩, ⟨Demo.ordinaryPath (by decide), hc 2 (by decide)⟩, by simp⟩
  · exact rawCodec_lawful
  · intro s; rfl

theorem Demo.fresh : FreshDir Demo.hier Demo.emptyFs := by
  constructor
  · intro l r hl hr _
    have : l ≠ [] := by rw [hl]; simp [hr]
    simp [Demo.emptyFs, Fs.get, Fs.lookup, Ne.symm this]
  · intro l b hl
    by_cases h : l = []
    · subst h; simp [Demo.emptyFs, Fs.get, Fs.lookup]
    · simp [Demo.emptyFs, Fs.get, Fs.lookup, Ne.symm h]

/-- The history meets the hypotheses, and its results are these. -/
example : hResults Demo.envJ Demo.hier (fun _ => Demo.arr) Demo.history Demo.emptyFs =
    [.unit (.ok ()), .unit (.ok ()), .unit (.err .alreadyExists), .unit (.ok ()), .unit (.ok ()),
     .data (.ok (some ⟨.u16, Demo.chunk.data⟩)),
     .attrs (.ok (Attrs.update (fun _ => none) Demo.newAttrs)), .metadata (.ok (Demo.arr, fun _ => none)),
     .unit (.ok ()), .bool (.ok false), .bool (.ok true), .data (.ok none), .bool (.ok true)] := by
  rw [C70 Demo.envJ Demo.hier (fun _ => Demo.arr) Demo.history Demo.emptyFs Demo.emptyFs_wf jsonText_lawful
    (by decide) (by unfold GoodSuffix; decide) (by decide) (fun _ => .inl rfl) Demo.fresh Demo.history_ok]
  rfl

end Zarr
