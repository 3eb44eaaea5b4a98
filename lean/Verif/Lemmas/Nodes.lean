import Verif.Spec.Keys
import Verif.Lemmas.Attributes
import Verif.Lemmas.ChunkKey
/-! What each node operation can change. -/

namespace Zarr

open Spec

/-- One call of the writing API. -/
inductive NodeOp where
  | createGroup (path : Str)
  | createArray (path : Str) (m : ArrayMetadata)
  | setAttributes (path : Str) (b : JsonObject)
  | remove (path : Str)
  | writeChunk (path : Str) (m : ArrayMetadata) (t : RsType) (c : DataChunk t)
  | deleteChunk (path : Str) (m : ArrayMetadata) (pos : List Nat)

namespace NodeOp

/-- The path argument of a call. -/
def path : NodeOp → Str
  | .createGroup p | .createArray p _ | .setAttributes p _ | .remove p | .writeChunk p _ _ _
  | .deleteChunk p _ _ => p

/-- Run a call; the state afterwards whatever it returns. -/
def run (env : Env) (h : Hier) : NodeOp → Fs → Fs
  | .createGroup p, fs => (Zarr.createGroup env h p fs).2
  | .createArray p m, fs => (Zarr.createArray env h p m fs).2
  | .setAttributes p b, fs => (Zarr.setAttributes env h p b fs).2
  | .remove p, fs => (Zarr.remove h p fs).2
  | .writeChunk p m _ c, fs => (Zarr.writeChunk env h p m c fs).2
  | .deleteChunk p m pos, fs => (Zarr.deleteChunk h p m pos fs).2

/-- No `..` in the path, nor in the name of a chunk (which the separator could bring in). -/
def NoDotDot : NodeOp → Prop
  | .writeChunk p m _ c => Plain (segs p) ∧ Plain (segs (chunkKey p m c.gridPosition))
  | .deleteChunk p m pos => Plain (segs p) ∧ Plain (segs (chunkKey p m pos))
  | .createGroup p | .createArray p _ | .setAttributes p _ | .remove p => Plain (segs p)

theorem NoDotDot.path {op : NodeOp} (h : op.NoDotDot) : Plain (segs op.path) := by
  cases op <;> first | exact h | exact h.1

/-- The files a call may change. -/
def Touches (h : Hier) (l : Loc) : NodeOp → Prop
  | .createGroup p => l = docLoc h str!"group" p
  | .createArray p _ => l = docLoc h str!"array" p
  | .setAttributes p _ => l = docLoc h str!"array" p ∨ l = docLoc h str!"group" p
  | .remove p => l = docLoc h str!"array" p ∨ l = docLoc h str!"group" p ∨ dataLoc h p <+: l
  | .writeChunk p m _ c => l = h.loc (chunkKey p m c.gridPosition)
  | .deleteChunk p m pos => l = h.loc (chunkKey p m pos)

end NodeOp

theorem Fs.WF.put_existing {fs : Fs} (h : fs.WF) {l : Loc} {b b' : Bytes}
    (hl : fs.get l = some (.file b)) : (fs.put l (.file b')).WF := by
  have hne : l ≠ [] := by rintro rfl; rw [h.root] at hl; simp at hl
  obtain ⟨i, a, rfl⟩ : ∃ i a, l = i ++ [a] :=
    ⟨l.dropLast, l.getLast hne, (List.dropLast_concat_getLast hne).symm⟩
  exact h.put_file (h.parent _ _ _ hl) (by rw [hl]; simp)

/-- `set_attributes` returns the filesystem it got, or replaces the content of the document. -/
theorem setAttributes_state (env : Env) (h : Hier) (path : Str) (b : JsonObject) (fs : Fs) :
    (setAttributes env h path b fs).2 = fs ∨
    ∃ fs', setAttributes env h path b fs = (.ok (), fs') := by
  simp only [setAttributes, M.bind_apply]
  cases hk : nodeMetadataKey h path fs with
  | mk r s =>
    cases r with
    | err e =>
      left
      simp only [nodeMetadataKey, M.bind_apply] at hk
      have ea : storeExists h (arrayMetadataKey h.entry path) fs
          = ((storeExists h (arrayMetadataKey h.entry path) fs).1, fs) := rfl
      have eg : storeExists h (groupMetadataKey h.entry path) fs
          = ((storeExists h (groupMetadataKey h.entry path) fs).1, fs) := rfl
      rw [ea] at hk
      cases ha : (storeExists h (arrayMetadataKey h.entry path) fs).1 with
      | ok a =>
        rw [ha] at hk
        cases a with
        | true => simp at hk
        | false =>
          simp only [Bool.false_eq_true, if_false, M.bind_apply] at hk
          rw [eg] at hk
          cases hg : (storeExists h (groupMetadataKey h.entry path) fs).1 with
          | ok g => rw [hg] at hk; cases g <;> simp at hk; exact hk.2.symm
          | err e => rw [hg] at hk; simp at hk; exact hk.2.symm
          | panic => rw [hg] at hk; simp at hk
      | err e => rw [ha] at hk; simp at hk; exact hk.2.symm
      | panic => rw [ha] at hk; simp at hk
    | panic =>
      left
      simp only [nodeMetadataKey, M.bind_apply] at hk
      have ea : storeExists h (arrayMetadataKey h.entry path) fs
          = ((storeExists h (arrayMetadataKey h.entry path) fs).1, fs) := rfl
      have eg : storeExists h (groupMetadataKey h.entry path) fs
          = ((storeExists h (groupMetadataKey h.entry path) fs).1, fs) := rfl
      rw [ea] at hk
      cases ha : (storeExists h (arrayMetadataKey h.entry path) fs).1 with
      | ok a =>
        rw [ha] at hk
        cases a with
        | true => simp at hk
        | false =>
          simp only [Bool.false_eq_true, if_false, M.bind_apply] at hk
          rw [eg] at hk
          cases hg : (storeExists h (groupMetadataKey h.entry path) fs).1 with
          | ok g => rw [hg] at hk; cases g <;> simp at hk
          | err e => rw [hg] at hk; simp at hk
          | panic => rw [hg] at hk; simp at hk; exact hk.symm
      | err e => rw [ha] at hk; simp at hk
      | panic => rw [ha] at hk; simp at hk; exact hk.symm
    | ok key =>
      obtain ⟨hs, hk'⟩ := nodeMetadataKey_ok hk
      have hs : fs = s := hs.symm
      subst hs
      have hex : (storeExists h key fs).1 = .ok true := by
        rcases hk' with ⟨_, h⟩ | ⟨_, h, _⟩ <;> exact h
      obtain ⟨t, l, c, h1, h2, h3⟩ := storeExists_true hex
      simp only [storeGet_located h1 h2 h3, M.lift_apply, Outcome.ofOption_some]
      cases hp : env.json.parse c with
      | none => left; simp
      | some j =>
        simp only [Outcome.ofOption_some]
        cases j with
        | obj kvs =>
          simp only [Json.asObj]
          right
          by_cases hm : mergedDoc kvs b = kvs
          · simp [hm]
          · simp [hm, storeSet_located h1 h2 h3]
        | _ => left; simp [Json.asObj]

/-- `set_attributes`: the tree stays a tree, no file appears or disappears, and only the node's
documents can change. -/
theorem setAttributes_frame {env : Env} {h : Hier} {path : Str} {b : JsonObject} {fs : Fs}
    (hwf : fs.WF) :
    (setAttributes env h path b fs).2.WF ∧ fs.Same (setAttributes env h path b fs).2 ∧
    ∀ l, (setAttributes env h path b fs).2.get l ≠ fs.get l →
      ∃ key t, (key = arrayMetadataKey h.entry path ∨ key = groupMetadataKey h.entry path) ∧
        getPath h.base key = .ok t ∧ fs.locate (segs t) = .ok l := by
  rcases setAttributes_state env h path b fs with hs | ⟨fs', hs⟩
  · rw [hs]; exact ⟨hwf, fun l => ⟨Iff.rfl, Iff.rfl⟩, fun l hl => absurd rfl hl⟩
  · obtain ⟨key, t, l, c, kvs, hk, h1, h2, h3, h4, h5⟩ := setAttributes_ok hs
    rw [hs]
    have hkey : key = arrayMetadataKey h.entry path ∨ key = groupMetadataKey h.entry path := by
      obtain ⟨_, ⟨rfl, _⟩ | ⟨rfl, _⟩⟩ := nodeMetadataKey_ok hk
      · exact .inl rfl
      · exact .inr rfl
    simp only
    split at h5
    · subst h5; exact ⟨hwf, fun l => ⟨Iff.rfl, Iff.rfl⟩, fun l hl => absurd rfl hl⟩
    · subst h5
      refine ⟨hwf.put_existing h3, Fs.Same.put h3, fun x hx => ?_⟩
      rw [Fs.get_put] at hx
      by_cases hxl : x = l
      · subst hxl; exact ⟨key, t, hkey, h1, h2⟩
      · rw [if_neg hxl] at hx; exact absurd rfl hx

theorem locate_key {h : Hier} {key t : Str} {fs : Fs} {l : Loc} (hp : Plain (h.loc key))
    (h1 : getPath h.base key = .ok t) (h2 : fs.locate (segs t) = .ok l) : l = h.loc key := by
  obtain ⟨t', ht', hs⟩ := getPath_loc hp
  rw [h1] at ht'
  cases ht'
  rw [hs] at h2
  exact Fs.locate_plain_ok hp h2

/-- The result of `create_group` for a path without `..`. -/
theorem createGroup_eq {env : Env} {h : Hier} {path : Str} {fs : Fs} (hwf : fs.WF)
    (hb : Plain (segs h.base)) (hs : GoodSuffix h.entry) (hp : Plain (segs path)) :
    createGroup env h path fs =
      if (arrayDoc h fs path).isSome then (.err .alreadyExists, fs)
      else if (groupDoc h fs path).isSome then (.ok (), fs)
      else storeSet h (groupMetadataKey h.entry path)
        (env.json.print GroupMetadata.default.toJson, .ok ()) fs := by
  simp only [createGroup, M.bind_apply, storeExists_array hwf hb hs hp]
  cases (arrayDoc h fs path).isSome with
  | true => simp
  | false =>
    simp only [Bool.false_eq_true, if_false, M.bind_apply, storeExists_group hwf hb hs hp]
    cases (groupDoc h fs path).isSome with
    | true => simp
    | false => simp

/-- The result of `create_array` for a path without `..`. -/
theorem createArray_eq {env : Env} {h : Hier} {path : Str} {m : ArrayMetadata} {fs : Fs} (hwf : fs.WF)
    (hb : Plain (segs h.base)) (hs : GoodSuffix h.entry) (hp : Plain (segs path)) :
    createArray env h path m fs =
      if (groupDoc h fs path).isSome then (.err .alreadyExists, fs)
      else if (arrayDoc h fs path).isSome then (.err .alreadyExists, fs)
      else storeSet h (arrayMetadataKey h.entry path) (arrayMetadataText env m) fs := by
  simp only [createArray, M.bind_apply, storeExists_group hwf hb hs hp]
  cases (groupDoc h fs path).isSome with
  | true => simp
  | false =>
    simp only [Bool.false_eq_true, if_false, M.bind_apply, storeExists_array hwf hb hs hp]
    cases (arrayDoc h fs path).isSome with
    | true => simp
    | false => simp

theorem dataLoc_ne_nil (h : Hier) (path : Str) : dataLoc h path ≠ [] := by simp [dataLoc]

/-- `remove`: what is left. -/
theorem remove_frame {h : Hier} {path : Str} {fs : Fs} (hwf : fs.WF) (hb : Plain (segs h.base))
    (hs : GoodSuffix h.entry) (hp : Plain (segs path)) :
    (remove h path fs).2.WF ∧
    (∀ l, (remove h path fs).2.get l = fs.get l ∨
      ((remove h path fs).2.content l = none ∧
        (l = docLoc h str!"array" path ∨ l = docLoc h str!"group" path ∨ dataLoc h path <+: l))) ∧
    ((remove h path fs).1 = .ok () →
      arrayDoc h (remove h path fs).2 path = none ∧ groupDoc h (remove h path fs).2 path = none ∧
      ∀ l, dataLoc h path <+: l → (remove h path fs).2.get l = none) := by
  have lg := loc_groupKey hs hp
  have la := loc_arrayKey hs hp
  have ld := loc_dataKey h path
  have pg : Plain (h.loc (groupMetadataKey h.entry path)) := by
    rw [lg]; exact plain_docLoc hb hp (by simp)
  have pa : Plain (h.loc (arrayMetadataKey h.entry path)) := by
    rw [la]; exact plain_docLoc hb hp (by simp)
  have pd : Plain (h.loc (dataPathKey path)) := by rw [ld]; exact plain_dataLoc hb hp
  cases e1 : storeErase h (groupMetadataKey h.entry path) fs with
  | mk r1 fs1 =>
    obtain ⟨w1, f1, n1⟩ := storeErase_frame hwf pg e1
    rw [lg] at f1 n1
    have step1 : ∀ l, fs1.get l = fs.get l ∨ (fs1.content l = none ∧ l = docLoc h str!"group" path) := by
      intro l
      rcases f1 l with h' | h'
      · exact .inl h'
      · exact .inr ⟨h' ▸ n1, h'⟩
    cases r1 with
    | err e =>
      have hr : remove h path fs = (.err e, fs1) := by simp [remove, e1]
      rw [hr]
      refine ⟨w1, fun l => ?_, fun hne => by simp at hne⟩
      rcases step1 l with h' | ⟨h', h''⟩
      · exact .inl h'
      · exact .inr ⟨h', .inr (.inl h'')⟩
    | panic =>
      have hr : remove h path fs = (.panic, fs1) := by simp [remove, e1]
      rw [hr]
      refine ⟨w1, fun l => ?_, fun hne => by simp at hne⟩
      rcases step1 l with h' | ⟨h', h''⟩
      · exact .inl h'
      · exact .inr ⟨h', .inr (.inl h'')⟩
    | ok v1 =>
      cases e2 : storeErase h (arrayMetadataKey h.entry path) fs1 with
      | mk r2 fs2 =>
        obtain ⟨w2, f2, n2⟩ := storeErase_frame w1 pa e2
        rw [la] at f2 n2
        have step2 : ∀ l, fs2.get l = fs.get l ∨ (fs2.content l = none ∧
            (l = docLoc h str!"array" path ∨ l = docLoc h str!"group" path)) := by
          intro l
          rcases f2 l with h' | h'
          · rcases step1 l with h1 | ⟨h1, h1'⟩
            · exact .inl (h'.trans h1)
            · exact .inr ⟨by rw [Fs.content_congr h', h1], .inr h1'⟩
          · exact .inr ⟨h' ▸ n2, .inl h'⟩
        have ng : fs2.content (docLoc h str!"group" path) = none := by
          rcases f2 (docLoc h str!"group" path) with h' | h'
          · rw [Fs.content_congr h', n1]
          · exact absurd h'.symm docLoc_array_ne_group
        cases r2 with
        | err e =>
          have hr : remove h path fs = (.err e, fs2) := by simp [remove, e1, e2]
          rw [hr]
          refine ⟨w2, fun l => ?_, fun hne => by simp at hne⟩
          rcases step2 l with h' | ⟨h', h''⟩
          · exact .inl h'
          · exact .inr ⟨h', h''.imp id .inl⟩
        | panic =>
          have hr : remove h path fs = (.panic, fs2) := by simp [remove, e1, e2]
          rw [hr]
          refine ⟨w2, fun l => ?_, fun hne => by simp at hne⟩
          rcases step2 l with h' | ⟨h', h''⟩
          · exact .inl h'
          · exact .inr ⟨h', h''.imp id .inl⟩
        | ok v2 =>
          obtain ⟨fs3, e3, w3, f3⟩ := storeErasePrefix_spec (h := h) (key := dataPathKey path) w2 pd
            (by rw [ld]; exact dataLoc_ne_nil h path)
          rw [ld] at f3
          have hr : remove h path fs = (.ok (), fs3) := by simp [remove, e1, e2, e3]
          rw [hr]
          have gone : ∀ l, fs2.content l = none → fs3.content l = none := by
            intro l hl
            unfold Fs.content at hl ⊢
            rw [f3 l]
            by_cases hpre : dataLoc h path <+: l
            · rw [if_pos hpre]
            · rw [if_neg hpre]; exact hl
          refine ⟨w3, fun l => ?_, fun _ => ⟨gone _ n2, gone _ ng, fun l hl => by rw [f3 l, if_pos hl]⟩⟩
          by_cases hpre : dataLoc h path <+: l
          · right
            exact ⟨by simp [Fs.content, f3 l, hpre], .inr (.inr hpre)⟩
          · rcases step2 l with h' | ⟨h', h''⟩
            · left; rw [f3 l, if_neg hpre]; exact h'
            · exact .inr ⟨gone l h', h''.imp id .inl⟩

/-- A call changes no file it does not touch, and leaves a tree. -/
theorem NodeOp.run_frame {env : Env} {h : Hier} {op : NodeOp} {fs : Fs} (hwf : fs.WF)
    (hb : Plain (segs h.base)) (hs : GoodSuffix h.entry) (hp : op.NoDotDot) :
    (op.run env h fs).WF ∧ ∀ l, ¬ op.Touches h l → (op.run env h fs).content l = fs.content l := by
  have pg : ∀ {p}, Plain (segs p) → Plain (h.loc (groupMetadataKey h.entry p)) := by
    intro p hp; rw [loc_groupKey hs hp]; exact plain_docLoc hb hp (by simp)
  have pa : ∀ {p}, Plain (segs p) → Plain (h.loc (arrayMetadataKey h.entry p)) := by
    intro p hp; rw [loc_arrayKey hs hp]; exact plain_docLoc hb hp (by simp)
  cases op with
  | createGroup p =>
    simp only [NodeOp.NoDotDot] at hp
    simp only [NodeOp.run, NodeOp.Touches, createGroup_eq hwf hb hs hp]
    split
    · exact ⟨hwf, fun _ _ => rfl⟩
    · split
      · exact ⟨hwf, fun _ _ => rfl⟩
      · have := storeSet_frame (h := h) (key := groupMetadataKey h.entry p)
          (v := (env.json.print GroupMetadata.default.toJson, .ok ())) hwf (pg hp) (Prod.eta _).symm
        rw [loc_groupKey hs hp] at this
        exact this
  | createArray p m =>
    simp only [NodeOp.NoDotDot] at hp
    simp only [NodeOp.run, NodeOp.Touches, createArray_eq hwf hb hs hp]
    split
    · exact ⟨hwf, fun _ _ => rfl⟩
    · split
      · exact ⟨hwf, fun _ _ => rfl⟩
      · have := storeSet_frame (h := h) (key := arrayMetadataKey h.entry p)
          (v := arrayMetadataText env m) hwf (pa hp) (Prod.eta _).symm
        rw [loc_arrayKey hs hp] at this
        exact this
  | setAttributes p b =>
    simp only [NodeOp.NoDotDot] at hp
    obtain ⟨h1, _, h2⟩ := setAttributes_frame (env := env) (h := h) (path := p) (b := b) hwf
    refine ⟨h1, fun l hl => Fs.content_congr (Classical.byContradiction fun hne => ?_)⟩
    obtain ⟨key, t, hk | hk, ht, hl'⟩ := h2 l hne
    · subst hk
      have := locate_key (pa hp) ht hl'
      rw [loc_arrayKey hs hp] at this
      exact hl (.inl this)
    · subst hk
      have := locate_key (pg hp) ht hl'
      rw [loc_groupKey hs hp] at this
      exact hl (.inr this)
  | remove p =>
    simp only [NodeOp.NoDotDot] at hp
    obtain ⟨h1, h2, _⟩ := remove_frame hwf hb hs hp
    refine ⟨h1, fun l hl => ?_⟩
    rcases h2 l with h' | ⟨_, h'⟩
    · exact Fs.content_congr h'
    · exact absurd h' hl
  | writeChunk p m t c =>
    exact storeSet_frame (h := h) (key := chunkKey p m c.gridPosition)
      (v := writeChunkBytes env.codecs env.native m c) hwf (hb.append hp.2) (Prod.eta _).symm
  | deleteChunk p m pos =>
    obtain ⟨h1, h2, _⟩ := storeErase_frame (h := h) (key := chunkKey p m pos) hwf (hb.append hp.2)
      (Prod.eta _).symm
    refine ⟨h1, fun l hl => ?_⟩
    rcases h2 l with h' | h'
    · exact Fs.content_congr h'
    · exact absurd h' hl

theorem docLoc_head (h : Hier) (kind path : Str) : ∃ x r, docLoc h kind path = segs h.base ++ x :: r ∧
    x = str!"meta" := by
  have e : docLoc h kind path = segs h.base ++ str!"meta" ::
      extLast (metaExt kind h.entry.metadataKeySuffix) (str!"root" :: segs path) := by
    rw [docLoc_eq]; rfl
  exact ⟨_, _, e, rfl⟩

theorem chunkLoc_head (h : Hier) (path : Str) (m : ArrayMetadata) (pos : List Nat) :
    ∃ r, h.loc (chunkKey path m pos) = segs h.base ++ str!"data" :: r :=
  ⟨_, by rw [Hier.loc, segs_chunkKey]⟩

theorem docLoc_ne_chunk {h : Hier} {kind path path' : Str} {m : ArrayMetadata} {pos : List Nat} :
    docLoc h kind path ≠ h.loc (chunkKey path' m pos) := by
  obtain ⟨x, r, h1, h2⟩ := docLoc_head h kind path
  obtain ⟨r', h3⟩ := chunkLoc_head h path' m pos
  rw [h1, h3, h2]
  intro he
  have := List.append_cancel_left he
  simp at this

theorem docLoc_not_data {h : Hier} {kind path path' : Str} : ¬ dataLoc h path' <+: docLoc h kind path := by
  rintro ⟨r, hr⟩
  obtain ⟨x, r', h1, h2⟩ := docLoc_head h kind path
  rw [h1, h2, dataLoc, List.append_assoc] at hr
  have := List.append_cancel_left hr
  simp at this

theorem docLoc_congr {h : Hier} {kind p q : Str} (he : segs p = segs q) :
    docLoc h kind p = docLoc h kind q := by
  unfold docLoc; rw [he]

theorem dataLoc_congr {h : Hier} {p q : Str} (he : segs p = segs q) : dataLoc h p = dataLoc h q := by
  unfold dataLoc; rw [he]

/-- What a call does to the documents of a node with another path: nothing. -/
theorem NodeOp.run_docs {env : Env} {h : Hier} {op : NodeOp} {fs : Fs} (hwf : fs.WF)
    (hb : Plain (segs h.base)) (hs : GoodSuffix h.entry) (hp : op.NoDotDot) {q : Str}
    (hq : segs op.path ≠ segs q) :
    arrayDoc h (op.run env h fs) q = arrayDoc h fs q ∧ groupDoc h (op.run env h fs) q = groupDoc h fs q := by
  obtain ⟨_, hf⟩ := NodeOp.run_frame (env := env) hwf hb hs hp
  have ha : ∀ {k : Str} {p : Str}, segs p ≠ segs q → docLoc h k q ≠ docLoc h k p := by
    intro k p hne he; exact hne (docLoc_injective he).symm
  constructor
  · apply hf
    cases op with
    | createGroup p => exact docLoc_array_ne_group
    | createArray p m => exact ha hq
    | setAttributes p b => exact fun h => h.elim (ha hq) docLoc_array_ne_group
    | remove p => exact fun h => h.elim (ha hq) (fun h => h.elim docLoc_array_ne_group docLoc_not_data)
    | writeChunk p m t c => exact docLoc_ne_chunk
    | deleteChunk p m pos => exact docLoc_ne_chunk
  · apply hf
    cases op with
    | createGroup p => exact ha hq
    | createArray p m => exact fun h => docLoc_array_ne_group h.symm
    | setAttributes p b => exact fun h => h.elim (fun h => docLoc_array_ne_group h.symm) (ha hq)
    | remove p =>
      exact fun h => h.elim (fun h => docLoc_array_ne_group h.symm) (fun h => h.elim (ha hq) docLoc_not_data)
    | writeChunk p m t c => exact docLoc_ne_chunk
    | deleteChunk p m pos => exact docLoc_ne_chunk

theorem Fs.Same.content_isSome {fs fs' : Fs} (h : fs.Same fs') (l : Loc) :
    (fs'.content l).isSome = (fs.content l).isSome := by
  obtain ⟨h1, h2⟩ := h l
  unfold Fs.content
  cases hg : fs.get l with
  | none => rw [h1.mp hg]
  | some n =>
    cases n with
    | dir => rw [h2.mp hg]
    | file b =>
      cases hg' : fs'.get l with
      | none => rw [h1.mpr hg'] at hg; simp at hg
      | some n' =>
        cases n' with
        | dir => rw [h2.mpr hg'] at hg; simp at hg
        | file b' => rfl

/-- The first component of a chunk's location below the array's directory starts with `c`. -/
theorem chunkTail_head (sep : Str) (pos : List Nat) :
    ∃ x t, chunkTail sep pos = ('c' :: x) :: t := by
  unfold chunkTail segs
  rw [splitOn, if_neg (by decide)]
  cases hsp : splitOn '/' (joinCoords sep pos) with
  | nil => exact absurd hsp (splitOn_ne_nil _ _)
  | cons a as => simp

theorem prefix_append_cases {α : Type} {a b c : List α} (h : a <+: b ++ c) :
    a <+: b ∨ ∃ r, a = b ++ r ∧ r <+: c := by
  by_cases hl : a.length ≤ b.length
  · exact .inl (List.prefix_of_prefix_length_le h (List.prefix_append b c) hl)
  · obtain ⟨r, rfl⟩ := List.prefix_of_prefix_length_le (List.prefix_append b c) h (by omega)
    exact .inr ⟨r, rfl, (List.prefix_append_right_inj b).mp h⟩

/-- Whether a removed data directory holds a chunk. -/
theorem dataLoc_prefix_chunk {h : Hier} {p q : Str} {m : ArrayMetadata} {pos : List Nat} :
    dataLoc h p <+: h.loc (chunkKey q m pos) ↔ segs p <+: segs q ++ chunkTail m.separator pos := by
  rw [Hier.loc, segs_chunkKey, dataLoc, List.prefix_append_right_inj]
  simp [List.cons_prefix_cons]

/-- The location that `exists` looks at for an implicit group. -/
def Spec.implicitLoc (h : Hier) (path : Str) : Loc :=
  segs h.base ++ ([str!"meta", str!"root"] ++ segs path)

theorem setExtension_nil_append {d n e : Str} (hn : '/' ∉ n) (he : '/' ∉ e) (he' : '.' ∉ e) (h0 : n ≠ [])
    (h1 : n ≠ str!".") :
    setExtension (d ++ '/' :: (n ++ '.' :: e)) [] = d ++ '/' :: n := by
  have hn1 : '/' ∉ n ++ '.' :: e := by simp [hn, he]
  have hne : n ++ '.' :: e ≠ str!"." := by
    cases n with
    | nil => exact absurd rfl h0
    | cons a as => simp
  have hsl := splitLast_append_name d (n ++ '.' :: e) hn1 (by simp) hne
  unfold setExtension fileName
  rw [hsl]
  by_cases hdd : n ++ '.' :: e = str!".."
  · have hn : n = str!"." ∧ e = [] := by
      cases n with
      | nil => exact absurd rfl h0
      | cons a as =>
        cases as with
        | nil => simp at hdd; exact ⟨by rw [hdd.1], hdd.2⟩
        | cons b bs => cases bs <;> simp at hdd
    exact absurd hn.1 h1
  · simp [hdd, stemExt_append n e h0 he']

theorem segs_implicitKey {e : EntryPointMetadata} (he : GoodSuffix e) (hd : '.' ∉ stripDot e.metadataKeySuffix)
    {path : Str} (hp : Plain (segs path)) :
    segs (setExtension (setExtension (groupMetadataKey e path) []) []) = str!"meta" :: str!"root" :: segs path := by
  have hj : segs (joinPath metaRoot (canonicalizePath path))
      = str!"meta" :: str!"root" :: segs path := by
    rw [segs_joinPath _ _ (rel_canonicalizePath path), segs_canonicalizePath]; rfl
  obtain ⟨d, n, hsl, hn1, hn2, hn3, hseg, hfn⟩ :=
    splitLast_spec (joinPath_root metaRoot (canonicalizePath path) (rel_canonicalizePath path) ⟨_, rfl⟩)
      (by rw [hj]; simp)
  have hplain : Plain (str!"meta" :: str!"root" :: segs path) := by
    unfold Plain at *; simp [dotdot] at *; exact hp
  have hndd : n ≠ str!".." := by
    intro h
    apply hplain
    rw [← hj, hseg, h]; simp [dotdot]
  rw [if_neg hndd] at hfn
  have e1 : addExtension (joinPath metaRoot (canonicalizePath path)) str!"group"
      = d ++ '/' :: (n ++ '.' :: str!"group") := by
    rw [addExtension_spec hsl hfn (by simp)]; simp
  have hn' : '/' ∉ n ++ '.' :: str!"group" := by simp [hn1]
  have hn0' : n ++ '.' :: str!"group" ≠ [] := by simp
  have hnd' : n ++ '.' :: str!"group" ≠ str!"." := by
    cases n with
    | nil => exact absurd rfl hn2
    | cons a as => simp
  have hnn' : n ++ '.' :: str!"group" ≠ str!".." := by
    intro h
    have := congrArg List.length h
    simp at this
  have hsl' := splitLast_append_name d (n ++ '.' :: str!"group") hn' hn0' hnd'
  have hfn' : fileName (d ++ '/' :: (n ++ '.' :: str!"group")) = some (n ++ '.' :: str!"group") := by
    unfold fileName
    rw [hsl']
    simp only [hn0', hnn', false_or, if_false]
  have e2 : groupMetadataKey e path
      = d ++ '/' :: (n ++ '.' :: str!"group" ++ '.' :: stripDot e.metadataKeySuffix) := by
    unfold groupMetadataKey
    rw [e1]
    unfold addExtension extension setExtension
    rw [hfn', hsl']
    simp [stemExt_append n str!"group" hn2 (by decide)]
  rw [e2, setExtension_nil_append hn' (notMem_stripDot he) hd hn0' hnd',
    setExtension_nil_append hn1 (by decide) (by decide) hn2 hn3, segs_append_sep, ← hj, hseg,
    segs_single n hn1 hn2 hn3]

/-- `exists` on a path without `..`, for a metadata suffix with no inner dot. -/
theorem nodeExists_eq {h : Hier} {path : Str} {fs : Fs} (hwf : fs.WF) (hb : Plain (segs h.base))
    (hs : GoodSuffix h.entry) (hd : '.' ∉ stripDot h.entry.metadataKeySuffix) (hp : Plain (segs path)) :
    nodeExists h path fs = (.ok ((arrayDoc h fs path).isSome || (groupDoc h fs path).isSome ||
      (fs.content (implicitLoc h path)).isSome), fs) := by
  have hl : h.loc (setExtension (setExtension (groupMetadataKey h.entry path) []) []) = implicitLoc h path := by
    rw [Hier.loc, segs_implicitKey hs hd hp]; rfl
  have hpl : Plain (h.loc (setExtension (setExtension (groupMetadataKey h.entry path) []) [])) := by
    rw [hl]; exact hb.append (Plain.append (by decide) hp)
  simp only [nodeExists, M.bind_apply, storeExists_array hwf hb hs hp]
  cases (arrayDoc h fs path).isSome with
  | true => simp
  | false =>
    simp only [Bool.false_eq_true, if_false, M.bind_apply, storeExists_group hwf hb hs hp]
    cases (groupDoc h fs path).isSome with
    | true => simp
    | false => simp [storeExists_eq hwf hpl, hl]

end Zarr
