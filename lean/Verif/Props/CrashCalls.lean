import Verif.Lemmas.CrashCalls
import Verif.Props.Attributes
import Verif.Props.ChunkMap
import Verif.Props.Refine
/-!
# Crashes inside API calls: C71, C72, C73, C74
-/

namespace Zarr

open Spec

/-- What a call returns; `()` counts as `true`. -/
def NodeOp.result (env : Env) (h : Hier) (fs : Fs) : NodeOp → Outcome Bool
  | .createGroup p => (Zarr.createGroup env h p fs).1 >>= fun _ => .ok true
  | .createArray p m => (Zarr.createArray env h p m fs).1 >>= fun _ => .ok true
  | .setAttributes p b => (Zarr.setAttributes env h p b fs).1 >>= fun _ => .ok true
  | .remove p => (Zarr.remove h p fs).1 >>= fun _ => .ok true
  | .writeChunk p m _ c => (Zarr.writeChunk env h p m c fs).1 >>= fun _ => .ok true
  | .deleteChunk p m pos => (Zarr.deleteChunk h p m pos fs).1

/-- `s` is a state of the filesystem between two system calls of the call, where a crash can leave it. -/
def NodeOp.Crash (env : Env) (h : Hier) (fs s : Fs) : NodeOp → Prop
  | .createGroup p => s ∈ createGroupStates env h p fs
  | .createArray p m => s ∈ createArrayStates env h p m fs
  | .setAttributes p b => s ∈ setAttributesStates env h p b fs
  | .remove p => RemoveState h p fs s
  | .writeChunk p m _ c => s ∈ writeChunkStates env h p m c fs
  | .deleteChunk p m pos => s ∈ deleteChunkStates h p m pos fs

/-! ## What a call writes -/

/-- The calls that write one file. -/
def NodeOp.Sets : NodeOp → Prop
  | .remove _ | .deleteChunk _ _ _ => False
  | _ => True

/-- The result of a call that changes nothing, or the key and value it stores. -/
def NodeOp.plan (env : Env) (h : Hier) (fs : Fs) : NodeOp → Outcome Bool ⊕ Str × Bytes × Outcome Unit
  | .createGroup p =>
    if (arrayDoc h fs p).isSome then .inl (.err .alreadyExists)
    else if (groupDoc h fs p).isSome then .inl (.ok true)
    else .inr (groupMetadataKey h.entry p, env.json.print GroupMetadata.default.toJson, .ok ())
  | .createArray p m =>
    if (groupDoc h fs p).isSome then .inl (.err .alreadyExists)
    else if (arrayDoc h fs p).isSome then .inl (.err .alreadyExists)
    else .inr (arrayMetadataKey h.entry p, arrayMetadataText env m)
  | .setAttributes p b =>
    match (arrayDoc h fs p).or (groupDoc h fs p) with
    | none => .inl (.err .notFound)
    | some t =>
      match (env.json.parse t).bind Json.asObject with
      | some kvs =>
        if mergedDoc kvs b = kvs then .inl (.ok true)
        else .inr (if (arrayDoc h fs p).isSome then arrayMetadataKey h.entry p else groupMetadataKey h.entry p,
          env.json.print (.obj (mergedDoc kvs b)), .ok ())
      | none => .inl (.err .json)
  | .writeChunk p m _ c => .inr (chunkKey p m c.gridPosition, writeChunkBytes env.codecs env.native m c)
  | .remove _ | .deleteChunk _ _ _ => .inl (.ok true)

/-- `r` and `s` describe the call on `fs`. -/
def NodeOp.Plan (env : Env) (h : Hier) (fs : Fs) (op : NodeOp) :
    Outcome Bool ⊕ Str × Bytes × Outcome Unit → Prop
  | .inl r => op.result env h fs = r ∧ op.run env h fs = fs ∧ ∀ s, op.Crash env h fs s ↔ s = fs
  | .inr (key, v) => Plain (h.loc key) ∧ op.Touches h (h.loc key) ∧
      op.result env h fs = ((storeSet h key v fs).1 >>= fun _ => .ok true) ∧
      op.run env h fs = (storeSet h key v fs).2 ∧ ∀ s, op.Crash env h fs s ↔ s ∈ setStates h key v.1 fs

section
variable {env : Env} {h : Hier} {fs : Fs}

theorem createGroupStates_eq (hwf : fs.WF) (hb : Plain (segs h.base)) (hs : GoodSuffix h.entry) {p : Str}
    (hp : Plain (segs p)) : createGroupStates env h p fs =
      if (arrayDoc h fs p).isSome then [fs] else if (groupDoc h fs p).isSome then [fs]
      else setStates h (groupMetadataKey h.entry p) (env.json.print GroupMetadata.default.toJson) fs := by
  unfold createGroupStates
  generalize setStates h (groupMetadataKey h.entry p) (env.json.print GroupMetadata.default.toJson) fs = r
  rw [storeExists_array hwf hb hs hp, storeExists_group hwf hb hs hp]
  cases (arrayDoc h fs p).isSome <;> cases (groupDoc h fs p).isSome <;> rfl

theorem createArrayStates_eq (hwf : fs.WF) (hb : Plain (segs h.base)) (hs : GoodSuffix h.entry) {p : Str}
    {m : ArrayMetadata} (hp : Plain (segs p)) : createArrayStates env h p m fs =
      if (groupDoc h fs p).isSome then [fs] else if (arrayDoc h fs p).isSome then [fs]
      else setStates h (arrayMetadataKey h.entry p) (arrayMetadataText env m).1 fs := by
  unfold createArrayStates
  generalize setStates h (arrayMetadataKey h.entry p) (arrayMetadataText env m).1 fs = r
  rw [storeExists_array hwf hb hs hp, storeExists_group hwf hb hs hp]
  cases (arrayDoc h fs p).isSome <;> cases (groupDoc h fs p).isSome <;> rfl

/-- `set_attributes` and its states once the key and the document are known. -/
theorem setAttributes_bad {p : Str} {b : JsonObject} {key : Str} {t : Bytes}
    (hk : nodeMetadataKey h p fs = (.ok key, fs)) (hg : storeGet h key fs = (.ok (some t), fs))
    (hd : (env.json.parse t).bind Json.asObject = none) :
    setAttributes env h p b fs = (.err .json, fs) ∧ setAttributesStates env h p b fs = [fs] := by
  simp only [setAttributes, setAttributesStates, M.bind_apply, hk, hg, onOk, M.lift_apply, Outcome.ofOption_some]
  cases hj : env.json.parse t with
  | none => simp
  | some j =>
    rw [hj] at hd
    simp only [Outcome.ofOption_some]
    cases j with
    | obj kvs => simp [Json.asObject] at hd
    | _ => simp [Json.asObj]

theorem setAttributes_known {p : Str} {b kvs : JsonObject} {key : Str} {t : Bytes}
    (hk : nodeMetadataKey h p fs = (.ok key, fs)) (hg : storeGet h key fs = (.ok (some t), fs))
    (hd : (env.json.parse t).bind Json.asObject = some kvs) :
    (mergedDoc kvs b = kvs → setAttributes env h p b fs = (.ok (), fs) ∧
      setAttributesStates env h p b fs = [fs]) ∧
    (mergedDoc kvs b ≠ kvs → setAttributes env h p b fs =
        storeSet h key (env.json.print (.obj (mergedDoc kvs b)), .ok ()) fs ∧
      setAttributesStates env h p b fs = setStates h key (env.json.print (.obj (mergedDoc kvs b))) fs) := by
  have hpar : env.json.parse t = some (.obj kvs) := by
    cases hj : env.json.parse t with
    | none => rw [hj] at hd; simp at hd
    | some j =>
      rw [hj] at hd
      cases j with
      | obj o => simp [Json.asObject] at hd; rw [hd]
      | _ => simp [Json.asObject] at hd
  constructor
  · intro hm
    simp only [setAttributes, setAttributesStates, onOk, M.bind_apply, hk, hg, M.lift_apply, Outcome.ofOption_some, hpar, Json.asObj]
    simp [hm]
  · intro hm
    simp only [setAttributes, setAttributesStates, onOk, M.bind_apply, hk, hg, M.lift_apply, Outcome.ofOption_some, hpar, Json.asObj]
    simp [hm]

theorem nodeMetadataKey_eq (hwf : fs.WF) (hb : Plain (segs h.base)) (hs : GoodSuffix h.entry) {p : Str}
    (hp : Plain (segs p)) : nodeMetadataKey h p fs =
      (if (arrayDoc h fs p).isSome then .ok (arrayMetadataKey h.entry p)
        else if (groupDoc h fs p).isSome then .ok (groupMetadataKey h.entry p) else .err .notFound, fs) := by
  simp only [nodeMetadataKey, M.bind_apply, storeExists_array hwf hb hs hp]
  cases (arrayDoc h fs p).isSome with
  | true => simp
  | false =>
    simp only [Bool.false_eq_true, if_false, M.bind_apply, storeExists_group hwf hb hs hp]
    cases (groupDoc h fs p).isSome with
    | true => simp
    | false => simp

theorem NodeOp.plan_setAttributes {p : Str} {b : JsonObject} {key : Str} {t : Bytes}
    (hk : nodeMetadataKey h p fs = (.ok key, fs)) (hg : storeGet h key fs = (.ok (some t), fs))
    (hpl : Plain (h.loc key)) (ht : (NodeOp.setAttributes p b).Touches h (h.loc key)) :
    (NodeOp.setAttributes p b).Plan env h fs (match (env.json.parse t).bind Json.asObject with
      | some kvs => if mergedDoc kvs b = kvs then .inl (.ok true) else
          .inr (key, env.json.print (.obj (mergedDoc kvs b)), .ok ())
      | none => .inl (.err .json)) := by
  have hinl : ∀ (r : Outcome Unit) (r' : Outcome Bool), (r >>= fun _ => .ok true) = r' →
      Zarr.setAttributes env h p b fs = (r, fs) → setAttributesStates env h p b fs = [fs] →
      (NodeOp.setAttributes p b).Plan env h fs (.inl r') := by
    intro r r' e0 e1 e2
    refine ⟨?_, ?_, fun s => ?_⟩
    · rw [NodeOp.result, e1, e0]
    · rw [NodeOp.run, e1]
    · rw [NodeOp.Crash, e2, List.mem_singleton]
  cases hd : (env.json.parse t).bind Json.asObject with
  | none =>
    obtain ⟨h1, h2⟩ := setAttributes_bad (env := env) (b := b) hk hg hd
    exact hinl _ _ rfl h1 h2
  | some kvs =>
    obtain ⟨h1, h2⟩ := setAttributes_known (env := env) (b := b) hk hg hd
    simp only
    by_cases hm : mergedDoc kvs b = kvs
    · obtain ⟨h1, h2⟩ := h1 hm
      rw [if_pos hm]
      exact hinl _ _ rfl h1 h2
    · obtain ⟨h1, h2⟩ := h2 hm
      rw [if_neg hm]
      refine ⟨hpl, ht, ?_, ?_, fun s => ?_⟩
      · rw [NodeOp.result, h1]
      · rw [NodeOp.run, h1]
      · rw [NodeOp.Crash, h2]

theorem NodeOp.plan_spec (hwf : fs.WF) (hb : Plain (segs h.base)) (hs : GoodSuffix h.entry) {op : NodeOp}
    (hp : op.NoDotDot) (hop : op.Sets) : op.Plan env h fs (op.plan env h fs) := by
  have pg : ∀ {p}, Plain (segs p) → Plain (h.loc (groupMetadataKey h.entry p)) := by
    intro p hp; rw [loc_groupKey hs hp]; exact plain_docLoc hb hp (by simp)
  have pa : ∀ {p}, Plain (segs p) → Plain (h.loc (arrayMetadataKey h.entry p)) := by
    intro p hp; rw [loc_arrayKey hs hp]; exact plain_docLoc hb hp (by simp)
  cases op with
  | remove p => exact absurd hop (by simp [NodeOp.Sets])
  | deleteChunk p m pos => exact absurd hop (by simp [NodeOp.Sets])
  | writeChunk p m t c => exact ⟨hb.append hp.2, rfl, rfl, rfl, fun s => Iff.rfl⟩
  | createGroup p =>
    have hp : Plain (segs p) := hp
    have e1 := createGroup_eq (env := env) hwf hb hs hp
    have e2 := createGroupStates_eq (env := env) hwf hb hs hp
    simp only [NodeOp.plan]
    by_cases ha : (arrayDoc h fs p).isSome = true
    · rw [if_pos ha] at e1 e2 ⊢
      refine ⟨?_, ?_, fun s => ?_⟩
      · rw [NodeOp.result, e1]; rfl
      · rw [NodeOp.run, e1]
      · rw [NodeOp.Crash, e2, List.mem_singleton]
    · rw [if_neg ha] at e1 e2 ⊢
      by_cases hg : (groupDoc h fs p).isSome = true
      · rw [if_pos hg] at e1 e2 ⊢
        refine ⟨?_, ?_, fun s => ?_⟩
        · rw [NodeOp.result, e1]; rfl
        · rw [NodeOp.run, e1]
        · rw [NodeOp.Crash, e2, List.mem_singleton]
      · rw [if_neg hg] at e1 e2 ⊢
        refine ⟨pg hp, by rw [loc_groupKey hs hp]; rfl, ?_, ?_, fun s => ?_⟩
        · rw [NodeOp.result, e1]
        · rw [NodeOp.run, e1]
        · rw [NodeOp.Crash, e2]
  | createArray p m =>
    have hp : Plain (segs p) := hp
    have e1 := createArray_eq (env := env) (m := m) hwf hb hs hp
    have e2 := createArrayStates_eq (env := env) (m := m) hwf hb hs hp
    simp only [NodeOp.plan]
    by_cases ha : (groupDoc h fs p).isSome = true
    · rw [if_pos ha] at e1 e2 ⊢
      refine ⟨?_, ?_, fun s => ?_⟩
      · rw [NodeOp.result, e1]; rfl
      · rw [NodeOp.run, e1]
      · rw [NodeOp.Crash, e2, List.mem_singleton]
    · rw [if_neg ha] at e1 e2 ⊢
      by_cases hg : (arrayDoc h fs p).isSome = true
      · rw [if_pos hg] at e1 e2 ⊢
        refine ⟨?_, ?_, fun s => ?_⟩
        · rw [NodeOp.result, e1]; rfl
        · rw [NodeOp.run, e1]
        · rw [NodeOp.Crash, e2, List.mem_singleton]
      · rw [if_neg hg] at e1 e2 ⊢
        refine ⟨pa hp, by rw [loc_arrayKey hs hp]; rfl, ?_, ?_, fun s => ?_⟩
        · rw [NodeOp.result, e1]
        · rw [NodeOp.run, e1]
        · rw [NodeOp.Crash, e2]
  | setAttributes p b =>
    have hp : Plain (segs p) := hp
    have hkey := nodeMetadataKey_eq hwf hb hs hp
    simp only [NodeOp.plan]
    cases ha : arrayDoc h fs p with
    | some t =>
      simp only [Option.some_or, Option.isSome_some, if_true]
      exact NodeOp.plan_setAttributes (by rw [hkey, ha]; rfl) (by rw [storeGet_array hwf hb hs hp, ha]) (pa hp)
        (by rw [loc_arrayKey hs hp]; exact .inl rfl)
    | none =>
      simp only [Option.none_or, Option.isSome_none, Bool.false_eq_true, if_false]
      cases hg : groupDoc h fs p with
      | some t =>
        exact NodeOp.plan_setAttributes (by rw [hkey, ha, hg]; rfl) (by rw [storeGet_group hwf hb hs hp, hg]) (pg hp)
          (by rw [loc_groupKey hs hp]; exact .inr rfl)
      | none =>
        have hk : nodeMetadataKey h p fs = (.err .notFound, fs) := by rw [hkey, ha, hg]; rfl
        have e1 : Zarr.setAttributes env h p b fs = (.err .notFound, fs) := by
          simp only [Zarr.setAttributes, M.bind_apply, hk]
        have e2 : setAttributesStates env h p b fs = [fs] := by
          simp only [setAttributesStates, hk, onOk]
        refine ⟨?_, ?_, fun s => ?_⟩
        · rw [NodeOp.result, e1]; rfl
        · rw [NodeOp.run, e1]
        · rw [NodeOp.Crash, e2, List.mem_singleton]

/-- What a call writes depends only on the contents of the files. -/
theorem NodeOp.plan_congr {s : Fs} (hc : ∀ l, s.content l = fs.content l) (op : NodeOp) :
    op.plan env h s = op.plan env h fs := by
  have ha : ∀ p, arrayDoc h s p = arrayDoc h fs p := fun p => hc _
  have hg : ∀ p, groupDoc h s p = groupDoc h fs p := fun p => hc _
  cases op with
  | createGroup p => rw [NodeOp.plan, NodeOp.plan, ha, hg]
  | createArray p m => rw [NodeOp.plan, NodeOp.plan, ha, hg]
  | setAttributes p b => rw [NodeOp.plan, NodeOp.plan, ha, hg]
  | writeChunk p m t c => rfl
  | remove p => rfl
  | deleteChunk p m pos => rfl

/-- The entries in the states of a write. -/
theorem setStates_get {key : Str} {value : Bytes} {s : Fs} (hwf : fs.WF) (hp : Plain (h.loc key))
    (hs : s ∈ setStates h key value fs) :
    s.WF ∧ ∀ l, s.get l = fs.get l ∨
      (l <+: h.loc key ∧ l ≠ h.loc key ∧ fs.get l = none ∧ s.get l = some .dir) ∨
      (l = h.loc key ∧ Writable fs (h.loc key) ∧ ∃ n, s.get l = some (.file (value.take n))) := by
  rcases setStates_cases hwf hp hs with ⟨h1, q, hq, h2⟩ | ⟨n, hn⟩
  · refine ⟨h1, fun l => ?_⟩
    rw [h2, Fs.mkdirSpec]
    by_cases hc : l <+: q ∧ fs.get l = none
    · rw [if_pos hc]
      refine .inr (.inl ⟨hc.1.trans (hq.trans (List.dropLast_prefix _)), ?_, hc.2, rfl⟩)
      intro e
      have h3 := (hc.1.trans hq).length_le
      rw [e, List.length_dropLast] at h3
      have h4 : (h.loc key).length = 0 := by omega
      rw [List.length_eq_zero_iff] at h4
      rw [h4] at e
      rw [e, hwf.root] at hc
      simp at hc
    · rw [if_neg hc]; exact .inl rfl
  · obtain ⟨w, _, hw, hg⟩ := storeSet_ok hwf hp hn
    refine ⟨hw, fun l => ?_⟩
    rw [hg, setSpec]
    by_cases e : l = h.loc key
    · rw [if_pos e]; exact .inr (.inr ⟨e, w, n, rfl⟩)
    · rw [if_neg e]
      by_cases hc : l <+: h.loc key ∧ fs.get l = none
      · rw [if_pos hc]; exact .inr (.inl ⟨hc.1, e, hc.2, rfl⟩)
      · rw [if_neg hc]; exact .inl rfl

/-- A write interrupted anywhere can be repeated. -/
theorem setStates_again {key : Str} {v : Bytes × Outcome Unit} {s : Fs} (hwf : fs.WF) (hp : Plain (h.loc key))
    (hw : Writable fs (h.loc key)) (hs : s ∈ setStates h key v.1 fs) :
    (storeSet h key v s).1 = (storeSet h key v fs).1 ∧
    ∀ l, (storeSet h key v s).2.get l = (storeSet h key v fs).2.get l := by
  obtain ⟨w, hg⟩ := setStates_get hwf hp hs
  have hws : Writable s (h.loc key) := by
    constructor
    · intro l hl hne b hf
      rcases hg l with e | ⟨_, _, _, e⟩ | ⟨e, _⟩
      · exact hw.1 l hl hne b (e ▸ hf)
      · rw [e] at hf; simp at hf
      · exact hne e
    · intro hf
      rcases hg (h.loc key) with e | ⟨_, e, _⟩ | ⟨_, _, n, e⟩
      · exact hw.2 (e ▸ hf)
      · exact e rfl
      · rw [e] at hf; simp at hf
  obtain ⟨f1, e1, _, g1⟩ := (storeSet_spec (h := h) (key := key) v hwf hp).1 hw
  obtain ⟨f2, e2, _, g2⟩ := (storeSet_spec (h := h) (key := key) v w hp).1 hws
  rw [e1, e2]
  refine ⟨rfl, fun l => ?_⟩
  rw [g1, g2, setSpec, setSpec]
  by_cases e : l = h.loc key
  · rw [if_pos e, if_pos e]
  · rw [if_neg e, if_neg e]
    rcases hg l with e' | ⟨c1, _, c2, e'⟩ | ⟨e', _⟩
    · rw [e']
    · rw [e', if_neg (by simp), if_pos ⟨c1, c2⟩]
    · exact absurd e' e

/-- The contents of the files in the states of a write. -/
theorem setStates_files {key : Str} {v : Bytes × Outcome Unit} {s : Fs} (hwf : fs.WF) (hp : Plain (h.loc key))
    (hs : s ∈ setStates h key v.1 fs) :
    (∀ l, l ≠ h.loc key → s.content l = fs.content l) ∧
    (s.content (h.loc key) = fs.content (h.loc key) ∨
      ∃ n, s.content (h.loc key) = some (v.1.take n) ∧ (storeSet h key v fs).2.content (h.loc key) = some v.1) := by
  obtain ⟨_, hg⟩ := setStates_get hwf hp hs
  constructor
  · intro l hl
    rcases hg l with e | ⟨_, _, e, e'⟩ | ⟨e, _⟩
    · exact Fs.content_congr e
    · simp [Fs.content, e, e']
    · exact absurd e hl
  · rcases hg (h.loc key) with e | ⟨_, e, _⟩ | ⟨_, w, n, e⟩
    · exact .inl (Fs.content_congr e)
    · exact absurd rfl e
    · obtain ⟨f1, e1, _, g1⟩ := (storeSet_spec (h := h) (key := key) v hwf hp).1 w
      refine .inr ⟨n, Fs.content_eq_some.mpr e, ?_⟩
      rw [e1]
      apply Fs.content_eq_some.mpr
      rw [g1, setSpec, if_pos rfl]

/-- The states of `remove` and the state after it. -/
theorem removeState_files {path : Str} {s : Fs} (hwf : fs.WF) (hb : Plain (segs h.base))
    (hs : GoodSuffix h.entry) (hp : Plain (segs path)) (hc : RemoveState h path fs s) (l : Loc) :
    s.content l = fs.content l ∨ s.content l = (remove h path fs).2.content l := by
  have pg : Plain (h.loc (groupMetadataKey h.entry path)) := by
    rw [loc_groupKey hs hp]; exact plain_docLoc hb hp (by simp)
  have pa : Plain (h.loc (arrayMetadataKey h.entry path)) := by
    rw [loc_arrayKey hs hp]; exact plain_docLoc hb hp (by simp)
  by_cases hg : fs.get (docLoc h str!"group" path) = some .dir
  · have e1 : storeErase h (groupMetadataKey h.entry path) fs = (.err .isADirectory, fs) := by
      rw [storeErase_spec hwf pg, loc_groupKey hs hp, hg]
    have : s = fs := by
      simpa [RemoveState, eraseStates, e1] using hc
    rw [this]; exact .inl rfl
  · cases e1 : storeErase h (groupMetadataKey h.entry path) fs with
    | mk r1 f1 =>
      obtain ⟨w1, g1, _⟩ := storeErase_frame hwf pg e1
      rw [loc_groupKey hs hp] at g1
      by_cases ha : fs.get (docLoc h str!"array" path) = some .dir
      · have ha1 : f1.get (docLoc h str!"array" path) = some .dir := by
          rcases g1 (docLoc h str!"array" path) with e | e
          · rw [e, ha]
          · exact absurd e docLoc_array_ne_group
        have e2 : storeErase h (arrayMetadataKey h.entry path) f1 = (.err .isADirectory, f1) := by
          rw [storeErase_spec w1 pa, loc_arrayKey hs hp, ha1]
        have hr1 : r1 = .ok true := by
          have := congrArg Prod.fst e1
          rw [storeErase_spec hwf pg, loc_groupKey hs hp] at this
          cases hf : fs.get (docLoc h str!"group" path) with
          | none => rw [hf] at this; exact this.symm
          | some n =>
            cases n with
            | dir => exact absurd hf hg
            | file b => rw [hf] at this; exact this.symm
        subst hr1
        have hr : remove h path fs = (.err .isADirectory, f1) := by simp [remove, e1, e2]
        have : s = fs ∨ s = f1 := by
          have := hc
          simp [RemoveState, eraseStates, e1, e2] at this
          rcases this with h1 | h1
          · exact .inl h1
          · exact .inr h1
        rw [hr]
        rcases this with rfl | rfl
        · exact .inl rfl
        · exact .inr rfl
      · obtain ⟨fs', e, _, g⟩ := remove_spec hwf hb hs hp hg ha
        obtain ⟨_, g2⟩ := removeState_spec hwf hb hs hp hc
        rcases g2 l with e2 | ⟨e2, e3⟩
        · exact .inl (Fs.content_congr e2)
        · right
          rw [e]
          apply Fs.content_congr
          rw [g, if_pos e3, e2]

/-! ## C71 -/

theorem getArrayMetadata_congr {s : Fs} {q : Str} (hwf : fs.WF) (hws : s.WF) (hb : Plain (segs h.base))
    (hs : GoodSuffix h.entry) (hq : Plain (segs q)) (ha : arrayDoc h s q = arrayDoc h fs q) :
    (getArrayMetadata env h q s).1 = (getArrayMetadata env h q fs).1 := by
  simp only [getArrayMetadata, M.bind_apply, storeGet_array hwf hb hs hq, storeGet_array hws hb hs hq, ha, M.lift_apply]
  cases Outcome.ofOption ErrKind.notFound (arrayDoc h fs q) <;> rfl

theorem listAttributes_congr {s : Fs} {q : Str} (hwf : fs.WF) (hws : s.WF) (hb : Plain (segs h.base))
    (hs : GoodSuffix h.entry) (hq : Plain (segs q)) (ha : arrayDoc h s q = arrayDoc h fs q)
    (hg : groupDoc h s q = groupDoc h fs q) :
    (listAttributes env h q s).1 = (listAttributes env h q fs).1 := by
  have hnk : (nodeMetadataKey h q s).1 = (nodeMetadataKey h q fs).1 ∧ (nodeMetadataKey h q s).2 = s ∧
      (nodeMetadataKey h q fs).2 = fs ∧ ∀ key, (nodeMetadataKey h q fs).1 = .ok key →
        (storeGet h key s).1 = (storeGet h key fs).1 := by
    simp only [nodeMetadataKey, M.bind_apply, storeExists_array hwf hb hs hq, storeExists_array hws hb hs hq, ha]
    cases (arrayDoc h fs q).isSome with
    | true =>
      refine ⟨rfl, rfl, rfl, ?_⟩
      rintro key hk
      simp at hk
      subst hk
      rw [storeGet_array hwf hb hs hq, storeGet_array hws hb hs hq, ha]
    | false =>
      simp only [Bool.false_eq_true, if_false, M.bind_apply, storeExists_group hwf hb hs hq,
        storeExists_group hws hb hs hq, hg]
      cases (groupDoc h fs q).isSome with
      | true =>
        refine ⟨rfl, rfl, rfl, ?_⟩
        rintro key hk
        simp at hk
        subst hk
        rw [storeGet_group hwf hb hs hq, storeGet_group hws hb hs hq, hg]
      | false => exact ⟨rfl, rfl, rfl, fun key hk => by simp at hk⟩
  obtain ⟨h1, h2, h3, h4⟩ := hnk
  simp only [listAttributes, M.bind_apply]
  cases e1 : nodeMetadataKey h q s with
  | mk r1 s1 =>
    cases e2 : nodeMetadataKey h q fs with
    | mk r2 s2 =>
      rw [e1] at h1 h2
      rw [e2] at h1 h3 h4
      simp only at h1 h2 h3 h4
      subst h1 h2 h3
      cases r1 with
      | err e => rfl
      | panic => rfl
      | ok key =>
        have h5 := h4 key rfl
        simp only
        have k1 : storeGet h key s1 = ((storeGet h key s1).1, s1) := rfl
        have k2 : storeGet h key s2 = ((storeGet h key s2).1, s2) := rfl
        rw [k1, k2, h5]
        cases (storeGet h key s2).1 with
        | err e => rfl
        | panic => rfl
        | ok v =>
          simp only [M.lift_apply]
          cases Outcome.ofOption ErrKind.notFound v with
          | err e => rfl
          | panic => rfl
          | ok b =>
            simp only
            cases Outcome.ofOption ErrKind.json (env.json.parse b) <;> rfl

/-- Files of other nodes. -/
theorem NodeOp.not_touches {op : NodeOp} {q : Str} (hq : segs q ≠ segs op.path) :
    ¬ op.Touches h (docLoc h str!"array" q) ∧ ¬ op.Touches h (docLoc h str!"group" q) := by
  have ha : ∀ {k : Str} {p : Str}, segs q ≠ segs p → docLoc h k q ≠ docLoc h k p := by
    intro k p hne he; exact hne (docLoc_injective he)
  have hga : ∀ {p : Str}, docLoc h str!"group" q ≠ docLoc h str!"array" p := fun e => docLoc_array_ne_group e.symm
  cases op with
  | createGroup p => exact ⟨docLoc_array_ne_group, ha hq⟩
  | createArray p m => exact ⟨ha hq, hga⟩
  | setAttributes p b => exact ⟨fun e => e.elim (ha hq) docLoc_array_ne_group, fun e => e.elim hga (ha hq)⟩
  | remove p => exact ⟨fun e => e.elim (ha hq) (fun e => e.elim docLoc_array_ne_group docLoc_not_data),
      fun e => e.elim hga (fun e => e.elim (ha hq) docLoc_not_data)⟩
  | writeChunk p m t c => exact ⟨docLoc_ne_chunk, docLoc_ne_chunk⟩
  | deleteChunk p m pos => exact ⟨docLoc_ne_chunk, docLoc_ne_chunk⟩

/-- **C71.** If the process dies inside a call, the filesystem is still a tree, every file the call
does not concern has its content, and every file holds what it held before the call, what it would
hold after it, or a prefix of that. So the metadata and attributes of every other node and every chunk
that the call does not concern read as before. -/
theorem C71 (env : Env) (h : Hier) (op : NodeOp) (fs s : Fs) (hwf : fs.WF) (hb : Plain (segs h.base))
    (hs : GoodSuffix h.entry) (hp : op.NoDotDot) (hc : op.Crash env h fs s) :
    s.WF ∧
    (∀ l, ¬ op.Touches h l → s.content l = fs.content l) ∧
    (∀ l, s.content l = fs.content l ∨ s.content l = (op.run env h fs).content l ∨
      ∃ v n, (op.run env h fs).content l = some v ∧ s.content l = some (v.take n)) ∧
    (∀ q, Plain (segs q) → segs q ≠ segs op.path →
      (getArrayMetadata env h q s).1 = (getArrayMetadata env h q fs).1 ∧
      (listAttributes env h q s).1 = (listAttributes env h q fs).1) ∧
    (∀ q m t pos, Plain (segs (chunkKey q m pos)) → ¬ op.Touches h (h.loc (chunkKey q m pos)) →
      (readChunk env h q m t pos s).1 = (readChunk env h q m t pos fs).1) := by
  have key : s.WF ∧ (∀ l, ¬ op.Touches h l → s.content l = fs.content l) ∧
      (∀ l, s.content l = fs.content l ∨ s.content l = (op.run env h fs).content l ∨
        ∃ v n, (op.run env h fs).content l = some v ∧ s.content l = some (v.take n)) := by
    by_cases hop : op.Sets
    · have hpl := NodeOp.plan_spec (env := env) hwf hb hs hp hop
      cases hplan : op.plan env h fs with
      | inl r =>
        rw [hplan] at hpl
        have e := (hpl.2.2 s).mp hc
        subst e
        exact ⟨hwf, fun _ _ => rfl, fun _ => .inl rfl⟩
      | inr kv =>
        obtain ⟨key, v⟩ := kv
        rw [hplan] at hpl
        obtain ⟨p1, p2, _, p4, p5⟩ := hpl
        have hm := (p5 s).mp hc
        obtain ⟨f1, f2⟩ := setStates_files hwf p1 hm
        refine ⟨(setStates_get hwf p1 hm).1, fun l hl => f1 l (fun e => hl (e ▸ p2)), fun l => ?_⟩
        by_cases e : l = h.loc key
        · subst e
          rcases f2 with f2 | ⟨n, f2, f3⟩
          · exact .inl f2
          · exact .inr (.inr ⟨v.1, n, by rw [p4]; exact f3, f2⟩)
        · exact .inl (f1 l e)
    · cases op with
      | remove p =>
        have hp : Plain (segs p) := hp
        obtain ⟨w, g⟩ := removeState_spec hwf hb hs hp hc
        refine ⟨w, fun l hl => ?_, fun l => ?_⟩
        · rcases g l with e | ⟨_, e | e | e⟩
          · exact Fs.content_congr e
          · exact absurd (.inr (.inl e)) hl
          · exact absurd (.inl e) hl
          · exact absurd (.inr (.inr e)) hl
        · rcases removeState_files hwf hb hs hp hc l with e | e
          · exact .inl e
          · exact .inr (.inl e)
      | deleteChunk p m pos =>
        obtain ⟨w, g⟩ := eraseStates_spec hwf (hb.append hp.2) hc
        refine ⟨w, fun l hl => ?_, fun l => ?_⟩
        · rcases g l with e | ⟨_, e⟩
          · exact Fs.content_congr e
          · exact absurd e hl
        · simp only [NodeOp.Crash, deleteChunkStates, eraseStates, List.mem_cons, List.not_mem_nil, or_false] at hc
          rcases hc with rfl | rfl
          · exact .inl rfl
          · exact .inr (.inl rfl)
      | _ => exact absurd trivial hop
  obtain ⟨w, f, g⟩ := key
  refine ⟨w, f, g, fun q hq hne => ?_, fun q m t pos hq hnt => ?_⟩
  · obtain ⟨n1, n2⟩ := NodeOp.not_touches (h := h) hne
    exact ⟨getArrayMetadata_congr hwf w hb hs hq (f _ n1), listAttributes_congr hwf w hb hs hq (f _ n1) (f _ n2)⟩
  · apply readChunk_congr
    have hpl : Plain (h.loc (chunkKey q m pos)) := hb.append hq
    rw [storeGet_eq w hpl, storeGet_eq hwf hpl, f _ hnt]

/-- The states of a call include the one it starts from and the one it ends in. -/
theorem NodeOp.crash_ends (env : Env) (h : Hier) (op : NodeOp) (fs : Fs) (hwf : fs.WF) (hb : Plain (segs h.base))
    (hs : GoodSuffix h.entry) (hp : op.NoDotDot) :
    op.Crash env h fs fs ∧ ∃ s, op.Crash env h fs s ∧ ∀ l, s.get l = (op.run env h fs).get l := by
  by_cases hop : op.Sets
  · have hpl := NodeOp.plan_spec (env := env) hwf hb hs hp hop
    cases hplan : op.plan env h fs with
    | inl r =>
      rw [hplan] at hpl
      exact ⟨(hpl.2.2 fs).mpr rfl, fs, (hpl.2.2 fs).mpr rfl, by rw [hpl.2.1]; exact fun _ => rfl⟩
    | inr kv =>
      obtain ⟨key, v⟩ := kv
      rw [hplan] at hpl
      obtain ⟨_, _, _, p4, p5⟩ := hpl
      obtain ⟨e1, e2⟩ := setStates_ends h key v fs fs
      refine ⟨(p5 fs).mpr (List.mem_of_mem_head? e1), _, (p5 (storeSet h key v fs).2).mpr ?_, by rw [p4]; exact fun _ => rfl⟩
      rw [← e2]
      cases hl : (setStates h key v.1 fs).getLast? with
      | none => rw [List.getLast?_eq_none_iff.mp hl] at e1; simp at e1
      | some a => exact List.mem_of_getLast? hl
  · cases op with
    | remove p =>
      refine ⟨.inl (List.mem_cons_self ..), ?_⟩
      have hp : Plain (segs p) := hp
      have pd : Plain (h.loc (dataPathKey p)) := by rw [loc_dataKey]; exact plain_dataLoc hb hp
      have pg : Plain (h.loc (groupMetadataKey h.entry p)) := by
        rw [loc_groupKey hs hp]; exact plain_docLoc hb hp (by simp)
      have pa : Plain (h.loc (arrayMetadataKey h.entry p)) := by
        rw [loc_arrayKey hs hp]; exact plain_docLoc hb hp (by simp)
      show ∃ s, RemoveState h p fs s ∧ ∀ l, s.get l = (Zarr.remove h p fs).2.get l
      unfold RemoveState
      simp only [Zarr.remove, M.bind_apply]
      cases e1 : storeErase h (groupMetadataKey h.entry p) fs with
      | mk r1 f1 =>
        have w1 := (storeErase_frame hwf pg e1).1
        cases r1 with
        | err e => exact ⟨f1, .inl (by simp [eraseStates, e1]), fun _ => rfl⟩
        | panic => exact ⟨f1, .inl (by simp [eraseStates, e1]), fun _ => rfl⟩
        | ok b1 =>
          simp only
          cases e2 : storeErase h (arrayMetadataKey h.entry p) f1 with
          | mk r2 f2 =>
            have w2 := (storeErase_frame w1 pa e2).1
            cases r2 with
            | err e => exact ⟨f2, .inr ⟨⟨b1, rfl⟩, .inl (by simp [eraseStates, e2])⟩, fun _ => rfl⟩
            | panic => exact ⟨f2, .inr ⟨⟨b1, rfl⟩, .inl (by simp [eraseStates, e2])⟩, fun _ => rfl⟩
            | ok b2 =>
              obtain ⟨s, k1, k2⟩ := erasePrefixState_last w2 pd (by rw [loc_dataKey]; exact dataLoc_ne_nil h p)
              refine ⟨s, .inr ⟨⟨b1, rfl⟩, .inr ⟨⟨b2, rfl⟩, k1⟩⟩, fun l => ?_⟩
              rw [k2]
              simp only
              cases storeErasePrefix h (dataPathKey p) f2 with
              | mk r3 f3 => cases r3 <;> rfl
    | deleteChunk p m pos =>
      refine ⟨?_, _, ?_, fun _ => rfl⟩
      · simp [NodeOp.Crash, deleteChunkStates, eraseStates]
      · simp [NodeOp.Crash, deleteChunkStates, eraseStates, NodeOp.run, Zarr.deleteChunk]
    | _ => exact absurd trivial hop

/-! ## C72 -/

/-- A call that would have succeeded gives, when repeated after a crash inside it, the same result and
the same filesystem as if there had been no crash. -/
def Spec.Repeatable (env : Env) (h : Hier) (fs : Fs) (op : NodeOp) : Prop :=
  ∀ s b, op.Crash env h fs s → op.result env h fs = .ok b →
    op.result env h s = .ok b ∧ ∀ l, (op.run env h s).get l = (op.run env h fs).get l

theorem storeSet_isOk {key : Str} {v : Bytes × Outcome Unit} {b : Bool} (hwf : fs.WF) (hp : Plain (h.loc key))
    (hok : ((storeSet h key v fs).1 >>= fun _ => (.ok true : Outcome Bool)) = .ok b) : Writable fs (h.loc key) := by
  apply Classical.byContradiction
  intro hw
  obtain ⟨e, he⟩ := (storeSet_spec (h := h) (key := key) v hwf hp).2 hw
  rw [he] at hok
  simp at hok

/-- **C72, the part that holds.** `remove`, `write_chunk` and `delete_chunk` can be repeated after a
crash inside them. So can every call if the crash came before any file changed. -/
theorem C72_partial (env : Env) (h : Hier) (op : NodeOp) (fs : Fs) (hwf : fs.WF) (hb : Plain (segs h.base))
    (hs : GoodSuffix h.entry) (hp : op.NoDotDot) :
    (∀ p, op = .remove p → Repeatable env h fs op) ∧
    (∀ p m t c, op = .writeChunk p m t c → Repeatable env h fs op) ∧
    (∀ p m pos, op = .deleteChunk p m pos → Repeatable env h fs op) ∧
    (∀ s b, op.Crash env h fs s → (∀ l, s.content l = fs.content l) → op.result env h fs = .ok b →
      op.result env h s = .ok b ∧ ∀ l, (op.run env h s).get l = (op.run env h fs).get l) := by
  have hrm : ∀ p, op = .remove p → Repeatable env h fs op := by
    rintro p rfl s b hc hok
    have hp : Plain (segs p) := hp
    have hok' : (remove h p fs).1 = .ok () := by
      simp only [NodeOp.result] at hok
      cases hr : (remove h p fs).1 with
      | ok u => rfl
      | err e => rw [hr] at hok; simp at hok
      | panic => rw [hr] at hok; simp at hok
    have pg : Plain (h.loc (groupMetadataKey h.entry p)) := by
      rw [loc_groupKey hs hp]; exact plain_docLoc hb hp (by simp)
    have pa : Plain (h.loc (arrayMetadataKey h.entry p)) := by
      rw [loc_arrayKey hs hp]; exact plain_docLoc hb hp (by simp)
    have hg : fs.get (docLoc h str!"group" p) ≠ some .dir := by
      intro e
      have e1 : storeErase h (groupMetadataKey h.entry p) fs = (.err .isADirectory, fs) := by
        rw [storeErase_spec hwf pg, loc_groupKey hs hp, e]
      simp [remove, e1] at hok'
    have ha : fs.get (docLoc h str!"array" p) ≠ some .dir := by
      intro e
      cases e1 : storeErase h (groupMetadataKey h.entry p) fs with
      | mk r1 f1 =>
        obtain ⟨w1, g1, _⟩ := storeErase_frame hwf pg e1
        rw [loc_groupKey hs hp] at g1
        have ha1 : f1.get (docLoc h str!"array" p) = some .dir := by
          rcases g1 (docLoc h str!"array" p) with e' | e'
          · rw [e', e]
          · exact absurd e' docLoc_array_ne_group
        have e2 : storeErase h (arrayMetadataKey h.entry p) f1 = (.err .isADirectory, f1) := by
          rw [storeErase_spec w1 pa, loc_arrayKey hs hp, ha1]
        cases r1 <;> simp [remove, e1, e2] at hok'
    obtain ⟨w, g⟩ := removeState_spec hwf hb hs hp hc
    have nd : ∀ l, fs.get l ≠ some .dir → s.get l ≠ some .dir := by
      intro l hl
      rcases g l with e | ⟨e, _⟩
      · rw [e]; exact hl
      · rw [e]; simp
    obtain ⟨f1, e1, _, g1⟩ := remove_spec hwf hb hs hp hg ha
    obtain ⟨f2, e2, _, g2⟩ := remove_spec w hb hs hp (nd _ hg) (nd _ ha)
    simp only [NodeOp.result, NodeOp.run, e1, e2] at hok ⊢
    refine ⟨hok, fun l => ?_⟩
    rw [g1, g2]
    by_cases c : l = docLoc h str!"group" p ∨ l = docLoc h str!"array" p ∨ dataLoc h p <+: l
    · rw [if_pos c, if_pos c]
    · rw [if_neg c, if_neg c]
      rcases g l with e | ⟨_, e⟩
      · exact e
      · exact absurd e c
  have hdel : ∀ p m pos, op = .deleteChunk p m pos → Repeatable env h fs op := by
    rintro p m pos rfl s b hc hok
    have hpl : Plain (h.loc (chunkKey p m pos)) := hb.append hp.2
    simp only [NodeOp.Crash, deleteChunkStates, eraseStates, List.mem_cons, List.not_mem_nil, or_false] at hc
    rcases hc with rfl | rfl
    · exact ⟨hok, fun _ => rfl⟩
    · simp only [NodeOp.result, NodeOp.run, deleteChunk] at hok ⊢
      rw [storeErase_spec hwf hpl] at hok ⊢
      cases hg : fs.get (h.loc (chunkKey p m pos)) with
      | none =>
        rw [hg] at hok
        simp only at hok ⊢
        rw [storeErase_spec hwf hpl, hg]
        exact ⟨hok, fun _ => rfl⟩
      | some n =>
        cases n with
        | dir => rw [hg] at hok; simp at hok
        | file c =>
          rw [hg] at hok
          simp only at hok ⊢
          rw [storeErase_spec (hwf.del_file hg) hpl, Fs.get_del, if_pos rfl]
          exact ⟨hok, fun _ => rfl⟩
  have hset : op.Sets → ∀ s b, op.Crash env h fs s → op.plan env h s = op.plan env h fs →
      op.result env h fs = .ok b →
      op.result env h s = .ok b ∧ ∀ l, (op.run env h s).get l = (op.run env h fs).get l := by
    intro hop s b hc hpc hok
    have hpl := NodeOp.plan_spec (env := env) hwf hb hs hp hop
    have hpl2 := NodeOp.plan_spec (env := env) (C71 env h op fs s hwf hb hs hp hc).1 hb hs hp hop
    rw [hpc] at hpl2
    cases hplan : op.plan env h fs with
    | inl r =>
      rw [hplan] at hpl
      have e := (hpl.2.2 s).mp hc
      subst e
      exact ⟨hok, fun _ => rfl⟩
    | inr kv =>
      obtain ⟨key, v⟩ := kv
      rw [hplan] at hpl hpl2
      obtain ⟨p1, _, p3, p4, p5⟩ := hpl
      obtain ⟨_, _, q3, q4, _⟩ := hpl2
      rw [p3] at hok
      obtain ⟨r1, r2⟩ := setStates_again (v := v) hwf p1 (storeSet_isOk hwf p1 hok) ((p5 s).mp hc)
      rw [q3, q4, p4, r1]
      exact ⟨hok, r2⟩
  refine ⟨hrm, ?_, hdel, ?_⟩
  · rintro p m t c rfl s b hc hok
    exact hset trivial s b hc rfl hok
  · intro s b hc hcont hok
    by_cases hop : op.Sets
    · exact hset hop s b hc (NodeOp.plan_congr hcont op) hok
    · cases op with
      | remove p => exact hrm p rfl s b hc hok
      | deleteChunk p m pos => exact hdel p m pos rfl s b hc hok
      | _ => exact absurd trivial hop

/-- Every prefix of the value occurs in a write that is not refused. -/
theorem setStates_prefix {key : Str} {value : Bytes} (hwf : fs.WF) (hp : Plain (h.loc key))
    (hw : Writable fs (h.loc key)) {n : Nat} (hn : n ≤ value.length) :
    ∃ s ∈ setStates h key value fs, s.content (h.loc key) = some (value.take n) := by
  obtain ⟨s, e, _, hg⟩ := (storeSet_spec (h := h) (key := key) (value.take n, .ok ()) hwf hp).1 hw
  refine ⟨s, ?_, Fs.content_eq_some.mpr (by rw [hg, setSpec, if_pos rfl])⟩
  unfold storeSet at e
  unfold setStates
  cases hgp : getPath h.base key with
  | err x => rw [hgp] at e; simp at e
  | panic => rw [hgp] at e; simp at e
  | ok target =>
    rw [hgp] at e
    simp only at e ⊢
    have hmk : (if (segs target).isEmpty = true ∨ fs.pathExists (segs target).dropLast = true
        then ((.ok () : Outcome Unit), fs) else Fs.mkdirAll (segs target).dropLast fs) =
      (if ((segs target).isEmpty || fs.pathExists (segs target).dropLast) = true
        then ((.ok () : Outcome Unit), fs) else Fs.mkdirAll (segs target).dropLast fs) := by
      simp only [Bool.or_eq_true]
    rw [hmk] at e
    generalize (if ((segs target).isEmpty || fs.pathExists (segs target).dropLast) = true then []
      else Fs.mkdirAllStates (segs target).dropLast fs) = dirs
    generalize (if ((segs target).isEmpty || fs.pathExists (segs target).dropLast) = true
      then ((.ok () : Outcome Unit), fs) else Fs.mkdirAll (segs target).dropLast fs) = mk at e ⊢
    obtain ⟨o, fs1⟩ := mk
    cases o with
    | err x => simp at e
    | panic => simp at e
    | ok u =>
      simp only at e ⊢
      cases ho : Fs.openCreate (segs target) fs1 with
      | err x => rw [ho] at e; simp at e
      | panic => rw [ho] at e; simp at e
      | ok r =>
        obtain ⟨l, fs2⟩ := r
        rw [ho] at e
        simp only [Prod.mk.injEq, true_and] at e
        subst e
        simp only [writeStates, List.drop_nil, List.append_nil]
        refine List.mem_cons_of_mem _ (List.mem_append_right _ (List.mem_cons_of_mem _ ?_))
        exact List.mem_map.mpr ⟨n, by simp only [List.mem_range]; omega, rfl⟩

/-- **C72 fails.** Every `create_group` that makes a group passes through a state in which repeating it
returns `Ok` and changes nothing although the group cannot be read. Every `create_array` that makes an
array passes through one in which repeating it fails with `AlreadyExists` although the array cannot be
read. Every `set_attributes` that changes a document passes through one in which repeating it fails and
the node can no longer be read: its attributes, and for an array its metadata, are lost. -/
theorem C72_violated (hj : env.json.Lawful) (hwf : fs.WF) (hb : Plain (segs h.base)) (hs : GoodSuffix h.entry)
    {p : Str} (hp : Plain (segs p)) :
    (arrayDoc h fs p = none → groupDoc h fs p = none → Writable fs (docLoc h str!"group" p) →
      ∃ s, (NodeOp.createGroup p).Crash env h fs s ∧ createGroup env h p s = (.ok (), s) ∧
        ∀ o, (listAttributes env h p s).1 ≠ .ok o) ∧
    (∀ m, arrayDoc h fs p = none → groupDoc h fs p = none → Writable fs (docLoc h str!"array" p) →
      ∃ s, (NodeOp.createArray p m).Crash env h fs s ∧ createArray env h p m s = (.err .alreadyExists, s) ∧
        ∀ m', (getArrayMetadata env h p s).1 ≠ .ok m') ∧
    (∀ b fs', setAttributes env h p b fs = (.ok (), fs') → fs' ≠ fs →
      ∃ s, (NodeOp.setAttributes p b).Crash env h fs s ∧ setAttributes env h p b s = (.err .json, s) ∧
        (∀ o, (listAttributes env h p s).1 ≠ .ok o) ∧ ∀ m, (getArrayMetadata env h p s).1 ≠ .ok m) := by
  have pg : Plain (h.loc (groupMetadataKey h.entry p)) := by
    rw [loc_groupKey hs hp]; exact plain_docLoc hb hp (by simp)
  have pa : Plain (h.loc (arrayMetadataKey h.entry p)) := by
    rw [loc_arrayKey hs hp]; exact plain_docLoc hb hp (by simp)
  refine ⟨?_, ?_, ?_⟩
  · intro ha hg hw
    rw [← loc_groupKey hs hp] at hw
    obtain ⟨s, hm, hc⟩ := setStates_prefix (value := env.json.print GroupMetadata.default.toJson) hwf pg hw
      (Nat.zero_le _)
    have w := (setStates_get hwf pg hm).1
    rw [List.take_zero, loc_groupKey hs hp] at hc
    have ha' : arrayDoc h s p = none := by
      rw [arrayDoc, (setStates_files (v := (_, .ok ())) hwf pg hm).1 _ (by
        rw [loc_groupKey hs hp]; exact docLoc_array_ne_group)]
      exact ha
    have hg' : groupDoc h s p = some [] := hc
    refine ⟨s, ?_, ?_, ?_⟩
    · rw [NodeOp.Crash, createGroupStates_eq hwf hb hs hp, ha, hg]; exact hm
    · rw [createGroup_eq w hb hs hp, ha', hg']; rfl
    · intro o
      simp [listAttributes, nodeMetadataKey_eq w hb hs hp, ha', hg', storeGet_group w hb hs hp, hj.parse_nil]
  · intro m ha hg hw
    rw [← loc_arrayKey hs hp] at hw
    obtain ⟨s, hm, hc⟩ := setStates_prefix (value := (arrayMetadataText env m).1) hwf pa hw (Nat.zero_le _)
    have w := (setStates_get hwf pa hm).1
    rw [List.take_zero, loc_arrayKey hs hp] at hc
    have hg' : groupDoc h s p = none := by
      rw [groupDoc, (setStates_files (v := (_, .ok ())) hwf pa hm).1 _ (by
        rw [loc_arrayKey hs hp]; exact fun e => docLoc_array_ne_group e.symm)]
      exact hg
    have ha' : arrayDoc h s p = some [] := hc
    refine ⟨s, ?_, ?_, ?_⟩
    · rw [NodeOp.Crash, createArrayStates_eq hwf hb hs hp, ha, hg]; exact hm
    · rw [createArray_eq w hb hs hp, ha', hg']; rfl
    · intro m'
      simp [getArrayMetadata, storeGet_array w hb hs hp, ha', parseArrayMetadata, hj.raw_nil]
  · intro b fs' hset hne
    obtain ⟨key, t, l, c, kvs, hk, h1, h2, h3, h4, h5⟩ := setAttributes_ok hset
    have hm : mergedDoc kvs b ≠ kvs := fun e => hne (by rw [h5, if_pos e])
    have hkey := nodeMetadataKey_eq hwf hb hs hp
    rw [hk] at hkey
    have hpl : Plain (h.loc key) := by
      obtain ⟨_, ⟨rfl, _⟩ | ⟨rfl, _⟩⟩ := nodeMetadataKey_ok hk
      · exact pa
      · exact pg
    have hl := locate_key hpl h1 h2
    rw [hl] at h3
    have hw : Writable fs (h.loc key) := by
      refine ⟨fun x hx hne' d hd => ?_, by rw [h3]; simp⟩
      rw [hwf.dir_of_prefix hx hne' h3] at hd
      simp at hd
    obtain ⟨s, hms, hc⟩ := setStates_prefix (value := env.json.print (.obj (mergedDoc kvs b))) hwf hpl hw (Nat.zero_le _)
    have w := (setStates_get hwf hpl hms).1
    have hother := (setStates_files (v := (_, .ok ())) hwf hpl hms).1
    rw [List.take_zero] at hc
    have hst := ((setAttributes_known (env := env) (b := b) hk (storeGet_located h1 h2 (hl ▸ h3))
      (kvs := kvs) (by rw [h4]; rfl)).2 hm).2
    -- the document that is read afterwards is empty
    have hks : nodeMetadataKey h p s = (.ok key, s) ∧ storeGet h key s = (.ok (some []), s) ∧
        (arrayDoc h s p = some [] ∨ arrayDoc h s p = none) := by
      have hget : storeGet h key s = (.ok (some []), s) := by rw [storeGet_eq w hpl, hc]
      rw [nodeMetadataKey_eq w hb hs hp]
      by_cases ha : (arrayDoc h fs p).isSome = true
      · rw [if_pos ha] at hkey
        have hkey : key = arrayMetadataKey h.entry p := by simpa using hkey
        subst hkey
        rw [loc_arrayKey hs hp] at hc
        have ha' : arrayDoc h s p = some [] := hc
        rw [ha']
        exact ⟨rfl, hget, .inl rfl⟩
      · rw [if_neg ha] at hkey
        by_cases hg : (groupDoc h fs p).isSome = true
        · rw [if_pos hg] at hkey
          have hkey : key = groupMetadataKey h.entry p := by simpa using hkey
          subst hkey
          have ha' : arrayDoc h s p = none := by
            rw [arrayDoc, hother _ (by rw [loc_groupKey hs hp]; exact docLoc_array_ne_group)]
            simpa [arrayDoc] using ha
          rw [loc_groupKey hs hp] at hc
          have hg' : groupDoc h s p = some [] := hc
          rw [ha', hg']
          exact ⟨rfl, hget, .inr rfl⟩
        · rw [if_neg hg] at hkey; simp at hkey
    obtain ⟨k1, k2, k3⟩ := hks
    refine ⟨s, ?_, (setAttributes_bad k1 k2 (by rw [hj.parse_nil]; rfl)).1, fun o => ?_, fun m => ?_⟩
    · rw [NodeOp.Crash, hst]; exact hms
    · simp [listAttributes, k1, k2, hj.parse_nil]
    · rcases k3 with k3 | k3
      · simp [getArrayMetadata, storeGet_array w hb hs hp, k3, parseArrayMetadata, hj.raw_nil]
      · simp [getArrayMetadata, storeGet_array w hb hs hp, k3]

/-! ## C73 -/

/-- **C73, the part that holds.** If the process dies inside `remove` or `delete_chunk`, every file has
either the content it had before or the one the call would leave. -/
theorem C73_partial (env : Env) (h : Hier) (fs : Fs) (hwf : fs.WF) (hb : Plain (segs h.base)) (hs : GoodSuffix h.entry) :
    (∀ p s, Plain (segs p) → (NodeOp.remove p).Crash env h fs s → ∀ l,
      s.content l = fs.content l ∨ s.content l = (remove h p fs).2.content l) ∧
    (∀ p m pos s, Plain (segs (chunkKey p m pos)) → (NodeOp.deleteChunk p m pos).Crash env h fs s → ∀ l,
      s.content l = fs.content l ∨ s.content l = (deleteChunk h p m pos fs).2.content l) := by
  refine ⟨fun p s hp hc l => removeState_files hwf hb hs hp hc l, fun p m pos s _ hc l => ?_⟩
  simp only [NodeOp.Crash, deleteChunkStates, eraseStates, List.mem_cons, List.not_mem_nil, or_false] at hc
  rcases hc with rfl | rfl
  · exact .inl rfl
  · exact .inr rfl

/-- A filesystem with one chunk. -/
def Demo.chunkFs : Fs :=
  (writeChunk Demo.env Demo.hier Demo.path Demo.arr
    (⟨[1], [(1#16 : BitVec 16), (2#16 : BitVec 16)]⟩ : DataChunk .u16) Demo.emptyFs).2

/-- **C73 fails** for `write_chunk` (and for `set_attributes`, see `C72_violated`): a crash while a chunk
is being replaced can lose both its old and its new value. -/
theorem C73_violated :
    (readChunk Demo.env Demo.hier Demo.path Demo.arr .u16 [1] Demo.chunkFs).1
      = .ok (some ⟨[1], [(1#16 : BitVec 16), (2#16 : BitVec 16)]⟩) ∧
    (writeChunk Demo.env Demo.hier Demo.path Demo.arr Demo.chunk Demo.chunkFs).1 = .ok () ∧
    ∃ s ∈ writeChunkStates Demo.env Demo.hier Demo.path Demo.arr Demo.chunk Demo.chunkFs,
      (readChunk Demo.env Demo.hier Demo.path Demo.arr .u16 [1] s).1 = .err .unexpectedEof := by
  decide +kernel

/-! ## C74 -/

/-- **C74.** A group or array whose creation was interrupted anywhere can be made by removing it and
creating it again. -/
theorem C74 (hj : env.json.Lawful) (hwf : fs.WF) (hb : Plain (segs h.base)) (hs : GoodSuffix h.entry)
    {p : Str} (hp : Plain (segs p)) (hwg : Writable fs (docLoc h str!"group" p))
    (hwa : Writable fs (docLoc h str!"array" p)) :
    (∀ s, (NodeOp.createGroup p).Crash env h fs s → ∃ s1 s2, remove h p s = (.ok (), s1) ∧
      createGroup env h p s1 = (.ok (), s2) ∧ (listAttributes env h p s2).1 = .ok []) ∧
    (∀ m s, Faithful env.features env.json.floats m → (NodeOp.createArray p m).Crash env h fs s →
      ∃ s1 s2, remove h p s = (.ok (), s1) ∧ createArray env h p m s1 = (.ok (), s2) ∧
        (getArrayMetadata env h p s2).1 = .ok m) := by
  have pg : Plain (h.loc (groupMetadataKey h.entry p)) := by
    rw [loc_groupKey hs hp]; exact plain_docLoc hb hp (by simp)
  have pa : Plain (h.loc (arrayMetadataKey h.entry p)) := by
    rw [loc_arrayKey hs hp]; exact plain_docLoc hb hp (by simp)
  have hlen : ∀ k, (docLoc h k p).length = (segs h.base).length + (segs p).length + 2 := by
    intro k
    obtain ⟨i, a, e1, e2⟩ := docLoc_split h k p
    have := congrArg List.length e1
    rw [e2]
    simp at this ⊢
    omega
  -- in every such state the locations stay free
  have free : ∀ (key : Str) (v : Bytes) (s : Fs), Plain (h.loc key) →
      (h.loc key = docLoc h str!"group" p ∨ h.loc key = docLoc h str!"array" p) → s ∈ setStates h key v fs →
      ∀ k, (k = str!"group" ∨ k = str!"array") → Writable s (docLoc h k p) := by
    intro key v s hpl hkey hm k hk
    have hwk : Writable fs (docLoc h k p) := hk.elim (fun e => e ▸ hwg) (fun e => e ▸ hwa)
    have hl : (h.loc key).length = (docLoc h k p).length := by
      rcases hkey with e | e <;> rw [e, hlen, hlen]
    obtain ⟨_, g⟩ := setStates_get hwf hpl hm
    constructor
    · intro l hl1 hl2 b hf
      rcases g l with e | ⟨_, _, _, e⟩ | ⟨e, _⟩
      · exact hwk.1 l hl1 hl2 b (e ▸ hf)
      · rw [e] at hf; simp at hf
      · exact hl2 (hl1.eq_of_length (by rw [e, hl]))
    · intro hf
      rcases g (docLoc h k p) with e | ⟨c1, c2, _, _⟩ | ⟨_, _, n, e⟩
      · exact hwk.2 (e ▸ hf)
      · exact c2 (c1.eq_of_length hl.symm)
      · rw [e] at hf; simp at hf
  -- and the removal makes room for both
  have room : ∀ s, s.WF → Writable s (docLoc h str!"group" p) → Writable s (docLoc h str!"array" p) →
      ∃ s1, remove h p s = (.ok (), s1) ∧ s1.WF ∧ arrayDoc h s1 p = none ∧ groupDoc h s1 p = none ∧
        Writable s1 (docLoc h str!"group" p) ∧ Writable s1 (docLoc h str!"array" p) := by
    intro s w w1 w2
    obtain ⟨s1, e, ws, g⟩ := remove_spec w hb hs hp w1.2 w2.2
    have hn : ∀ l, (l = docLoc h str!"group" p ∨ l = docLoc h str!"array" p ∨ dataLoc h p <+: l) → s1.get l = none := by
      intro l hl; rw [g, if_pos hl]
    have mono : ∀ l, Writable s l → s1.get l = none → Writable s1 l := by
      intro l hw h0
      refine ⟨fun x hx hne b hf => ?_, by rw [h0]; simp⟩
      rw [g] at hf
      split at hf
      · simp at hf
      · exact hw.1 x hx hne b hf
    refine ⟨s1, e, ws, ?_, ?_, mono _ w1 (hn _ (.inl rfl)), mono _ w2 (hn _ (.inr (.inl rfl)))⟩
    · rw [arrayDoc, Fs.content, hn _ (.inr (.inl rfl))]
    · rw [groupDoc, Fs.content, hn _ (.inl rfl)]
  constructor
  · intro s hc
    have hfr : s.WF ∧ Writable s (docLoc h str!"group" p) ∧ Writable s (docLoc h str!"array" p) := by
      refine ⟨(C71 env h (.createGroup p) fs s hwf hb hs hp hc).1, ?_⟩
      rw [NodeOp.Crash, createGroupStates_eq hwf hb hs hp] at hc
      split at hc
      · rw [List.mem_singleton] at hc; rw [hc]; exact ⟨hwg, hwa⟩
      · split at hc
        · rw [List.mem_singleton] at hc; rw [hc]; exact ⟨hwg, hwa⟩
        · exact ⟨free _ _ s pg (.inl (loc_groupKey hs hp)) hc _ (.inl rfl),
            free _ _ s pg (.inl (loc_groupKey hs hp)) hc _ (.inr rfl)⟩
    obtain ⟨s1, e1, w1, ha, hg, hw1, hw2⟩ := room s hfr.1 hfr.2.1 hfr.2.2
    rw [← loc_groupKey hs hp] at hw1
    obtain ⟨s2, e2, w2, g2⟩ := (storeSet_spec (h := h) (key := groupMetadataKey h.entry p)
      (env.json.print GroupMetadata.default.toJson, .ok ()) w1 pg).1 hw1
    refine ⟨s1, s2, e1, ?_, ?_⟩
    · rw [createGroup_eq w1 hb hs hp, ha, hg]; exact e2
    · have hg2 : groupDoc h s2 p = some (env.json.print GroupMetadata.default.toJson) := by
        rw [groupDoc, ← loc_groupKey hs hp]
        exact Fs.content_eq_some.mpr (by rw [g2, setSpec, if_pos rfl])
      have ha2 : arrayDoc h s2 p = none := by
        rw [arrayDoc, (storeSet_frame w1 pg e2).2 _ (by rw [loc_groupKey hs hp]; exact docLoc_array_ne_group)]
        exact ha
      simp only [listAttributes, M.bind_apply, nodeMetadataKey_eq w2 hb hs hp, ha2, hg2, Option.isSome_none,
        Bool.false_eq_true, if_false, Option.isSome_some, if_true, storeGet_group w2 hb hs hp, M.lift_apply,
        Outcome.ofOption_some, hj.parse_print _ (show GroupMetadata.default.toJson.canon env.json.floats 127 = true from rfl)]
      rfl
  · intro m s hm hc
    have hfr : s.WF ∧ Writable s (docLoc h str!"group" p) ∧ Writable s (docLoc h str!"array" p) := by
      refine ⟨(C71 env h (.createArray p m) fs s hwf hb hs hp hc).1, ?_⟩
      rw [NodeOp.Crash, createArrayStates_eq hwf hb hs hp] at hc
      split at hc
      · rw [List.mem_singleton] at hc; rw [hc]; exact ⟨hwg, hwa⟩
      · split at hc
        · rw [List.mem_singleton] at hc; rw [hc]; exact ⟨hwg, hwa⟩
        · exact ⟨free _ _ s pa (.inr (loc_arrayKey hs hp)) hc _ (.inl rfl),
            free _ _ s pa (.inr (loc_arrayKey hs hp)) hc _ (.inr rfl)⟩
    obtain ⟨s1, e1, w1, ha, hg, hw1, hw2⟩ := room s hfr.1 hfr.2.1 hfr.2.2
    rw [← loc_arrayKey hs hp] at hw2
    obtain ⟨kvs, k1, k2, k3⟩ := ArrayMetadata.roundTrip hm
    have ht : arrayMetadataText env m = (env.json.print (.obj kvs), .ok ()) := by
      simp [arrayMetadataText, k1]
    obtain ⟨s2, e2, w2, g2⟩ := (storeSet_spec (h := h) (key := arrayMetadataKey h.entry p)
      (arrayMetadataText env m) w1 pa).1 hw2
    refine ⟨s1, s2, e1, ?_, ?_⟩
    · rw [createArray_eq w1 hb hs hp, ha, hg]
      simp only [Option.isSome_none, Bool.false_eq_true, if_false]
      rw [e2, ht]
    · have ha2 : arrayDoc h s2 p = some (env.json.print (.obj kvs)) := by
        rw [arrayDoc, ← loc_arrayKey hs hp]
        exact Fs.content_eq_some.mpr (by rw [g2, setSpec, if_pos rfl, ht])
      simp only [getArrayMetadata, M.bind_apply, storeGet_array w2 hb hs hp, ha2, M.lift_apply,
        Outcome.ofOption_some, parseArrayMetadata, hj.raw_print _ k2, Outcome.bind_ok, k3, checkExtensions_faithful hm]
      rfl

/-! ## Examples -/

set_option maxRecDepth 20000 in
/-- The states of a `create_group` in an empty filesystem: three directories are made, then the file
appears empty. Repeating the call always returns `Ok`, but from the empty file on until the last byte is
written the group cannot be read. -/
example : ((createGroupStates Demo.envJ Demo.hier str!"g" Demo.emptyFs).take 5).map (fun s =>
      ((createGroup Demo.envJ Demo.hier str!"g" s).1,
        (listAttributes Demo.envJ Demo.hier str!"g" (createGroup Demo.envJ Demo.hier str!"g" s).2).1))
    = [(.ok (), .ok []), (.ok (), .ok []), (.ok (), .ok []), (.ok (), .ok []), (.ok (), .err .json)] := by
  decide +kernel

/-- The removal of the data of a node: contents first it works, and a directory cannot go before what
is in it. -/
example : Plain (Demo.hier.loc (dataPathKey Demo.path)) ∧
    ((Fs.rmEntries ([str!"h/data/root/a/b/c1", str!"h/data/root/a/b"].map segs) Demo.chunkFs).1 = .ok () ∧
    (Fs.rmEntries ([str!"h/data/root/a/b", str!"h/data/root/a/b/c1"].map segs) Demo.chunkFs).1 = .err .other ∧
    (storeGet Demo.hier (chunkKey Demo.path Demo.arr [1]) Demo.chunkFs).1 = .ok (some [0#8, 1#8, 0#8, 2#8])) := by
  decide +kernel

/-- The hypotheses of C71 to C74 hold in the example filesystems. -/
example : Plain (segs Demo.hier.base) ∧ (NodeOp.createGroup str!"g").NoDotDot ∧ (NodeOp.remove Demo.path).NoDotDot ∧
    (NodeOp.writeChunk Demo.path Demo.arr .u16 Demo.chunk).NoDotDot ∧ GoodSuffix Demo.hier.entry ∧
    arrayDoc Demo.hier Demo.emptyFs str!"g" = none ∧ groupDoc Demo.hier Demo.emptyFs str!"g" = none ∧
    (∀ l, Writable Demo.emptyFs (l ++ [str!"x"])) ∧
    (∀ s ∈ createGroupStates Demo.envJ Demo.hier str!"g" Demo.emptyFs,
      (NodeOp.createGroup str!"g").Crash Demo.envJ Demo.hier Demo.emptyFs s) := by
  refine ⟨by decide, by unfold NodeOp.NoDotDot; decide, by unfold NodeOp.NoDotDot; decide,
    by unfold NodeOp.NoDotDot; decide, by unfold GoodSuffix; decide, by decide, by decide, ?_, fun s hs => hs⟩
  intro l
  have : ∀ x b, Demo.emptyFs.get x ≠ some (.file b) := by
    intro x b
    simp only [Demo.emptyFs, Fs.get, Fs.lookup]
    split <;> simp
  refine ⟨fun x _ _ b => this x b, ?_⟩
  simp [Demo.emptyFs, Fs.get, Fs.lookup]

end

end Zarr
