import Verif.Model.DeviceMore
import Verif.Props.Device
import Verif.Props.Open
/-!
# Full devices: every document, C61
-/

namespace Zarr

open Spec

/-! ## Groups and attributes -/

theorem nodeMetadataKey_pure (h : Hier) (path : Str) (fs : Fs) : (nodeMetadataKey h path fs).2 = fs := by
  simp only [nodeMetadataKey, M.bind_apply]
  have ea : storeExists h (arrayMetadataKey h.entry path) fs
      = ((storeExists h (arrayMetadataKey h.entry path) fs).1, fs) := rfl
  have eg : storeExists h (groupMetadataKey h.entry path) fs
      = ((storeExists h (groupMetadataKey h.entry path) fs).1, fs) := rfl
  rw [ea]
  cases (storeExists h (arrayMetadataKey h.entry path) fs).1 with
  | err e => rfl
  | panic => rfl
  | ok a =>
    cases a with
    | true => rfl
    | false =>
      simp only [Bool.false_eq_true, if_false, M.bind_apply]
      rw [eg]
      cases (storeExists h (groupMetadataKey h.entry path) fs).1 with
      | err e => rfl
      | panic => rfl
      | ok g => cases g <;> rfl

/-- What `set_attributes` does, on a device with room for `free` bytes and on an unlimited one. -/
theorem setAttributesDev_cases {free : Nat} {pieces : Json → List Bytes} {env : Env} {h : Hier}
    {path : Str} {attrs : JsonObject} {fs : Fs} :
    (∃ r, setAttributesDev free pieces env h path attrs fs = (r, fs) ∧
      setAttributes env h path attrs fs = (r, fs)) ∨
    ∃ key c kvs, nodeMetadataKey h path fs = (.ok key, fs) ∧ storeGet h key fs = (.ok (some c), fs) ∧
      env.json.parse c = some (.obj kvs) ∧ mergedDoc kvs attrs ≠ kvs ∧
      setAttributesDev free pieces env h path attrs fs =
        storeSet h key (devValue free (pieces (.obj (mergedDoc kvs attrs)))) fs ∧
      setAttributes env h path attrs fs =
        storeSet h key (env.json.print (.obj (mergedDoc kvs attrs)), .ok ()) fs := by
  unfold setAttributesDev setAttributes
  simp only [M.bind_apply]
  have hs : nodeMetadataKey h path fs = ((nodeMetadataKey h path fs).1, fs) :=
    Prod.ext rfl (nodeMetadataKey_pure h path fs)
  rw [hs]
  cases hk : (nodeMetadataKey h path fs).1 with
  | err e => exact .inl ⟨_, rfl, rfl⟩
  | panic => exact .inl ⟨_, rfl, rfl⟩
  | ok key =>
    simp only
    have hg : storeGet h key fs = ((storeGet h key fs).1, fs) := rfl
    rw [hg]
    cases hv : (storeGet h key fs).1 with
    | err e => exact .inl ⟨_, rfl, rfl⟩
    | panic => exact .inl ⟨_, rfl, rfl⟩
    | ok o =>
      cases o with
      | none => exact .inl ⟨_, rfl, rfl⟩
      | some c =>
        simp only [Outcome.ofOption_some, M.lift_apply]
        cases hp : env.json.parse c with
        | none => exact .inl ⟨_, rfl, rfl⟩
        | some j =>
          simp only [Outcome.ofOption_some]
          cases hj : j.asObj with
          | err e => exact .inl ⟨_, rfl, rfl⟩
          | panic => exact .inl ⟨_, rfl, rfl⟩
          | ok kvs =>
            simp only
            by_cases hm : mergedDoc kvs attrs = kvs
            · simp only [hm, ne_eq, not_true_eq_false, if_false]
              exact .inl ⟨_, rfl, rfl⟩
            · simp only [hm, ne_eq, not_false_eq_true, if_true]
              refine .inr ⟨key, c, kvs, rfl, by rw [hg, hv], ?_, hm, rfl, rfl⟩
              cases j <;> simp [Json.asObj] at hj
              rw [hp, hj]

/-- What `create_group` does, on a device with room for `free` bytes and on an unlimited one. -/
theorem createGroupDev_cases {free : Nat} {pieces : Json → List Bytes} {env : Env} {h : Hier}
    {path : Str} {fs : Fs} :
    (∃ r, createGroupDev free pieces h path fs = (r, fs) ∧ createGroup env h path fs = (r, fs) ∧
      (r = .ok () → (storeExists h (groupMetadataKey h.entry path) fs).1 = .ok true)) ∨
    ((storeExists h (groupMetadataKey h.entry path) fs).1 = .ok false ∧
      (storeExists h (arrayMetadataKey h.entry path) fs).1 = .ok false ∧
      createGroupDev free pieces h path fs = storeSet h (groupMetadataKey h.entry path)
        (devValue free (pieces GroupMetadata.default.toJson)) fs ∧
      createGroup env h path fs = storeSet h (groupMetadataKey h.entry path)
        (env.json.print GroupMetadata.default.toJson, .ok ()) fs) := by
  unfold createGroupDev createGroup
  simp only [M.bind_apply]
  have hs : storeExists h (arrayMetadataKey h.entry path) fs =
    ((storeExists h (arrayMetadataKey h.entry path) fs).1, fs) := rfl
  rw [hs]
  cases (storeExists h (arrayMetadataKey h.entry path) fs).1 with
  | err e => exact .inl ⟨_, rfl, rfl, by simp⟩
  | panic => exact .inl ⟨_, rfl, rfl, by simp⟩
  | ok a =>
    cases a with
    | true => exact .inl ⟨_, rfl, rfl, by simp⟩
    | false =>
      simp only [Bool.false_eq_true, if_false, M.bind_apply]
      have hs : storeExists h (groupMetadataKey h.entry path) fs =
        ((storeExists h (groupMetadataKey h.entry path) fs).1, fs) := rfl
      rw [hs]
      cases (storeExists h (groupMetadataKey h.entry path) fs).1 with
      | err e => exact .inl ⟨_, rfl, rfl, by simp⟩
      | panic => exact .inl ⟨_, rfl, rfl, by simp⟩
      | ok g =>
        cases g with
        | true => exact .inl ⟨_, rfl, rfl, fun _ => rfl⟩
        | false => exact .inr ⟨rfl, trivial, rfl, rfl⟩

/-! ## The entry point -/

/-- What `open_or_create` leaves where there is no hierarchy yet. -/
theorem openOrCreateDev_new {free : Nat} {pieces : Json → List Bytes} {env : Env} {base : Str} {fs : Fs}
    (hwf : fs.WF) (hb : Plain (segs base)) (hnone : fs.get (segs base ++ [str!"zarr.json"]) = none)
    (hw : Writable fs (segs base ++ [str!"zarr.json"])) :
    ∃ fs', openOrCreateDev free pieces env base fs =
        ((devValue free (pieces EntryPointMetadata.default.toJson)).2.bind fun _ =>
          checkVersion env ⟨base, EntryPointMetadata.default⟩, fs') ∧ fs'.WF ∧
      ∀ l, fs'.get l = setSpec fs (segs base ++ [str!"zarr.json"])
        (devValue free (pieces EntryPointMetadata.default.toJson)).1 l := by
  obtain ⟨m1, _⟩ := Fs.mkdirAll_spec hwf (segs base) hb
  have hp : Plain (segs base ++ [str!"zarr.json"]) := hb.append (by decide)
  have hd : fs.dirable (segs base) := by
    intro l hl
    refine hw.1 l (hl.trans (List.prefix_append _ _)) ?_
    intro e; have := hl.length_le; rw [e] at this; simp at this; omega
  have hex : fs.pathExists (segs (joinPath base entryPointKey)) = false := by
    simp [Fs.pathExists, segs_entryPoint, Fs.node_plain hwf hp, hnone]
  obtain ⟨fs1, hm, hwf1, hget1⟩ := m1 hd
  have hd1 : fs1.get (segs base) = some .dir := by
    rw [hget1, Fs.mkdirSpec]
    by_cases hn : fs.get (segs base) = none
    · simp [hn]
    · rw [if_neg (by simp [hn])]
      cases hg : fs.get (segs base) with
      | none => exact absurd hg hn
      | some n =>
        cases n with
        | dir => rfl
        | file b => exact absurd hg (hd _ (List.prefix_refl _) b)
  have hn1 : fs1.get (segs base ++ [str!"zarr.json"]) = none := by
    rw [hget1, Fs.mkdirSpec, if_neg, hnone]
    rintro ⟨hpre, _⟩
    have := hpre.length_le; simp at this; omega
  unfold openOrCreateDev createEntryPointDev
  rw [hex]
  simp only [Bool.false_eq_true, if_false, hm, segs_entryPoint]
  rw [openCreate_plain hwf1 hp hd1, hn1]
  simp only [Fs.get_put, if_true, List.length_nil, Nat.zero_add, overwrite, List.drop_nil,
    List.append_nil]
  refine ⟨(fs1.put (segs base ++ [str!"zarr.json"]) (.file [])).put (segs base ++ [str!"zarr.json"])
    (.file (devValue free (pieces EntryPointMetadata.default.toJson)).1), ?_,
    hwf1.put_put hd1 (by rw [hn1]; simp), ?_⟩
  · cases (devValue free (pieces EntryPointMetadata.default.toJson)).2 <;> rfl
  · intro l
    rw [Fs.get_put]
    by_cases hl : l = segs base ++ [str!"zarr.json"]
    · simp [hl, setSpec]
    · rw [if_neg hl, Fs.get_put, if_neg hl, setSpec, if_neg hl, hget1, Fs.mkdirSpec]
      have : (l <+: segs base ++ [str!"zarr.json"] ∧ fs.get l = none) ↔
          (l <+: segs base ∧ fs.get l = none) := by
        rw [Fs.prefix_concat]; simp [hl]
      simp only [this]

/-! ## C61 -/

/-- **C61 (partial), every call.** If the device has room for the document, `create_group` and
`open_or_create` do what they do on an unlimited device. For `create_array` and `set_attributes` see
`C61_partial`. Missing: an error otherwise, see `C61_violated`, `C61_violated_group`,
`C61_violated_attributes` and `C61_violated_entry`. -/
theorem C61_partial_room (free : Nat) (pieces : Json → List Bytes) (env : Env)
    (hp : ∀ j, (pieces j).flatten = env.json.print j) :
    (∀ h path fs, (env.json.print GroupMetadata.default.toJson).length ≤ free →
      createGroupDev free pieces h path fs = createGroup env h path fs) ∧
    (∀ base fs, (env.json.print EntryPointMetadata.default.toJson).length ≤ free →
      openOrCreateDev free pieces env base fs = openOrCreate env base fs) := by
  constructor
  · intro h path fs hf
    unfold createGroupDev createGroup
    rw [devValue_room (by rw [hp]; exact hf), hp]
  · intro base fs hf
    unfold openOrCreateDev openOrCreate createEntryPointDev createEntryPoint
    have : ∀ n, devValue (n + free) (pieces EntryPointMetadata.default.toJson) =
        (env.json.print EntryPointMetadata.default.toJson, .ok ()) := by
      intro n
      rw [devValue_room (by rw [hp]; omega), hp]
    simp only [this]
    rfl

/-- **C61 (partial), after the call.** If `create_array`, `create_group` or `set_attributes` returns
`Ok` on a device with room for `free` bytes, then either nothing had to be written or the file holds
the bytes of the document that fitted, and at most 8192 are missing. If `open_or_create` returns `Ok`
where there was no hierarchy the same holds of `zarr.json`. Missing: that none are missing. -/
theorem C61_partial_after (free : Nat) (pieces : Json → List Bytes) (env : Env)
    (hp : ∀ j, (pieces j).flatten = env.json.print j) :
    (∀ h path m fs fs', createArrayDev free pieces h path m fs = (.ok (), fs') →
      ∃ j, m.toJson = .ok j ∧ storeGet h (arrayMetadataKey h.entry path) fs' =
          (.ok (some ((env.json.print j).take free)), fs') ∧
        (env.json.print j).length ≤ free + 8192) ∧
    (∀ h path fs fs', createGroupDev free pieces h path fs = (.ok (), fs') →
      (fs' = fs ∧ (storeExists h (groupMetadataKey h.entry path) fs).1 = .ok true) ∨
      storeGet h (groupMetadataKey h.entry path) fs' =
          (.ok (some ((env.json.print GroupMetadata.default.toJson).take free)), fs') ∧
        (env.json.print GroupMetadata.default.toJson).length ≤ free + 8192) ∧
    (∀ h path attrs fs fs', setAttributesDev free pieces env h path attrs fs = (.ok (), fs') →
      (fs' = fs ∧ setAttributes env h path attrs fs = (.ok (), fs)) ∨
      ∃ key c kvs, (key = arrayMetadataKey h.entry path ∨ key = groupMetadataKey h.entry path) ∧
        storeGet h key fs = (.ok (some c), fs) ∧ env.json.parse c = some (.obj kvs) ∧
        storeGet h key fs' =
          (.ok (some ((env.json.print (.obj (mergedDoc kvs attrs))).take free)), fs') ∧
        (env.json.print (.obj (mergedDoc kvs attrs))).length ≤ free + 8192) ∧
    (∀ base h fs fs', fs.WF → Plain (segs base) →
      fs.get (segs base ++ [str!"zarr.json"]) = none → Writable fs (segs base ++ [str!"zarr.json"]) →
      openOrCreateDev free pieces env base fs = (.ok h, fs') →
      h = ⟨base, EntryPointMetadata.default⟩ ∧
      fs'.content (segs base ++ [str!"zarr.json"]) =
        some ((env.json.print EntryPointMetadata.default.toJson).take free) ∧
      (env.json.print EntryPointMetadata.default.toJson).length ≤ free + 8192) := by
  refine ⟨?_, ?_, ?_, ?_⟩
  · intro h path m fs fs' hw
    have hguard := createGuard hw
    have hset := hw
    unfold createArrayDev at hset
    rw [hguard] at hset
    have hok := storeSet_result_ok hset
    have hget := storeGet_of_storeSet hset
    generalize hj : m.toJson = tj at hok hget
    cases tj with
    | err e => exact absurd hok (by simp)
    | panic => exact absurd hok (by simp)
    | ok j =>
      refine ⟨j, rfl, ?_, ?_⟩
      · simp only [devValue_written, hp] at hget
        exact hget
      · have := devValue_accepted hok
        rw [hp] at this
        exact this
  · intro h path fs fs' hw
    rcases createGroupDev_cases (free := free) (pieces := pieces) (env := env) (h := h) (path := path)
      (fs := fs) with ⟨r, h1, _, h3⟩ | ⟨_, _, h1, _⟩
    · rw [h1] at hw
      obtain ⟨e1, e2⟩ := Prod.mk.inj hw
      exact .inl ⟨e2.symm, h3 e1⟩
    · rw [h1] at hw
      have hok := devValue_accepted (storeSet_result_ok hw)
      have hget := storeGet_of_storeSet hw
      rw [devValue_written, hp] at hget
      rw [hp] at hok
      exact .inr ⟨hget, hok⟩
  · intro h path attrs fs fs' hw
    rcases setAttributesDev_cases (free := free) (pieces := pieces) (env := env) (h := h) (path := path)
      (attrs := attrs) (fs := fs) with ⟨r, h1, h2⟩ | ⟨key, c, kvs, hk, hg, hpc, _, h1, _⟩
    · rw [h1] at hw
      obtain ⟨e1, e2⟩ := Prod.mk.inj hw
      subst e1
      exact .inl ⟨e2.symm, h2⟩
    · rw [h1] at hw
      have hok := devValue_accepted (storeSet_result_ok hw)
      have hget := storeGet_of_storeSet hw
      rw [devValue_written, hp] at hget
      rw [hp] at hok
      refine .inr ⟨key, c, kvs, ?_, hg, hpc, hget, hok⟩
      rcases (nodeMetadataKey_ok hk).2 with ⟨e, _⟩ | ⟨e, _, _⟩
      · exact .inl e
      · exact .inr e
  · intro base h fs fs' hwf hb hnone hw ho
    obtain ⟨fs1, h1, _, hget⟩ := openOrCreateDev_new (free := free) (pieces := pieces) (env := env)
      hwf hb hnone hw
    rw [h1] at ho
    obtain ⟨e1, e2⟩ := Prod.mk.inj ho
    subst e2
    have hok : (devValue free (pieces EntryPointMetadata.default.toJson)).2 = .ok () := by
      cases hv : (devValue free (pieces EntryPointMetadata.default.toJson)).2 with
      | ok u => rfl
      | err e => rw [hv] at e1; simp [Outcome.bind] at e1
      | panic => rw [hv] at e1; simp [Outcome.bind] at e1
    rw [hok] at e1
    change checkVersion env _ = _ at e1
    have hlen := devValue_accepted hok
    rw [hp] at hlen
    refine ⟨?_, ?_, hlen⟩
    · unfold checkVersion at e1
      cases hv : getVersion env EntryPointMetadata.default with
      | ok b =>
        simp only [hv, Outcome.bind_ok] at e1
        cases b with
        | true => simpa using e1.symm
        | false => simp at e1
      | err e => simp [hv] at e1
      | panic => simp [hv] at e1
    · rw [Fs.content_eq_some, hget, setSpec, if_pos rfl, devValue_written, hp]

theorem storeExists_shape {h : Hier} {key : Str} {fs : Fs} {b : Bool}
    (he : (storeExists h key fs).1 = .ok b) (fs' : Fs) : ∃ b', storeExists h key fs' = (.ok b', fs') := by
  simp only [storeExists, M.read_apply] at he ⊢
  cases hg : getPath h.base key with
  | ok t => exact ⟨_, rfl⟩
  | err e => rw [hg] at he; simp at he
  | panic => rw [hg] at he; simp at he

/-- **C61 is violated by `create_group`** at every node: if it creates a group elsewhere, then it
returns `Ok` here however little room there is, and the document is cut off. On a full device the node
exists from then on, no array can be made there, and (unless the suffix makes the keys of arrays
and groups name one file) its attributes can be neither read nor set. -/
theorem C61_violated_group (free : Nat) (pieces : Json → List Bytes) (env : Env) (h : Hier) (path : Str)
    (fs fs1 : Fs) (hp : ∀ j, (pieces j).flatten = env.json.print j) (hjson : env.json.Lawful)
    (hsmall : (env.json.print GroupMetadata.default.toJson).length < 8192)
    (hnew : (storeExists h (groupMetadataKey h.entry path) fs).1 = .ok false)
    (hw : createGroup env h path fs = (.ok (), fs1)) :
    ∃ fs', createGroupDev free pieces h path fs = (.ok (), fs') ∧
      storeGet h (groupMetadataKey h.entry path) fs' =
        (.ok (some ((env.json.print GroupMetadata.default.toJson).take free)), fs') ∧
      (nodeExists h path fs').1 = .ok true ∧
      (∀ m, createArray env h path m fs' = (.err .alreadyExists, fs')) ∧
      (free = 0 → (storeExists h (arrayMetadataKey h.entry path) fs').1 = .ok false →
        listAttributes env h path fs' = (.err .json, fs') ∧
        ∀ attrs, setAttributes env h path attrs fs' = (.err .json, fs')) := by
  rcases createGroupDev_cases (free := free) (pieces := pieces) (env := env) (h := h) (path := path)
      (fs := fs) with ⟨r, _, h2, h3⟩ | ⟨_, ha, h1, h2⟩
  · rw [h2] at hw
    obtain ⟨e1, _⟩ := Prod.mk.inj hw
    rw [h3 e1] at hnew
    simp at hnew
  · rw [h2] at hw
    obtain ⟨fs', hw'⟩ := storeSet_ok_of_ok
      (w := (env.json.print GroupMetadata.default.toJson).take free) hw
    have hget := storeGet_of_storeSet hw'
    have hex := storeExists_of_get hget
    obtain ⟨b, hb⟩ := storeExists_shape ha fs'
    refine ⟨fs', ?_, hget, ?_, ?_, fun h0 hno => ?_⟩
    · rw [h1, devValue_small (by rw [hp]; exact hsmall), hp, hw']
    · simp only [nodeExists, M.bind_apply, hb]
      cases b with
      | true => rfl
      | false => simp [hex]
    · intro m
      simp [createArray, hex]
    · subst h0
      rw [List.take_zero] at hget
      have hb' : storeExists h (arrayMetadataKey h.entry path) fs' = (.ok false, fs') :=
        Prod.ext hno rfl
      have hk : nodeMetadataKey h path fs' = (.ok (groupMetadataKey h.entry path), fs') := by
        simp [nodeMetadataKey, hb', hex]
      constructor
      · simp [listAttributes, hk, hget, hjson.parse_nil, Outcome.ofOption]
      · intro attrs
        simp [setAttributes, hk, hget, hjson.parse_nil, Outcome.ofOption]

/-- **C61 is violated by `set_attributes`** at every node: if it changes a document elsewhere, then it
returns `Ok` here however little room there is once the old document is truncated, and the new one is
cut off. With no room the old document is gone, the node still exists, and its attributes can be neither
read nor set. -/
theorem C61_violated_attributes (free : Nat) (pieces : Json → List Bytes) (env : Env) (h : Hier)
    (path : Str) (attrs : JsonObject) (fs fs1 : Fs) (hp : ∀ j, (pieces j).flatten = env.json.print j)
    (hjson : env.json.Lawful) (hw : setAttributes env h path attrs fs = (.ok (), fs1)) (hne : fs1 ≠ fs) :
    ∃ key c kvs, (key = arrayMetadataKey h.entry path ∨ key = groupMetadataKey h.entry path) ∧
      storeGet h key fs = (.ok (some c), fs) ∧ env.json.parse c = some (.obj kvs) ∧
      ((env.json.print (.obj (mergedDoc kvs attrs))).length < 8192 →
        ∃ fs', setAttributesDev free pieces env h path attrs fs = (.ok (), fs') ∧
          storeGet h key fs' =
            (.ok (some ((env.json.print (.obj (mergedDoc kvs attrs))).take free)), fs') ∧
          (nodeExists h path fs').1 = .ok true ∧
          (free = 0 → listAttributes env h path fs' = (.err .json, fs') ∧
            ∀ attrs', setAttributes env h path attrs' fs' = (.err .json, fs'))) := by
  rcases setAttributesDev_cases (free := free) (pieces := pieces) (env := env) (h := h) (path := path)
      (attrs := attrs) (fs := fs) with ⟨r, _, h2⟩ | ⟨key, c, kvs, hk, hg, hpc, _, h1, h2⟩
  · rw [h2] at hw
    exact absurd (Prod.mk.inj hw).2.symm hne
  · rw [h2] at hw
    have hkey := (nodeMetadataKey_ok hk).2
    refine ⟨key, c, kvs, ?_, hg, hpc, fun hsmall => ?_⟩
    · rcases hkey with ⟨e, _⟩ | ⟨e, _, _⟩
      · exact .inl e
      · exact .inr e
    · obtain ⟨fs', hw'⟩ := storeSet_ok_of_ok
        (w := (env.json.print (.obj (mergedDoc kvs attrs))).take free) hw
      have hget := storeGet_of_storeSet hw'
      have hex := storeExists_of_get hget
      have hsame : fs.Same fs' := by
        have he : (storeExists h key fs).1 = .ok true := by rw [storeExists_of_get hg]
        obtain ⟨t, l, b, h3, h4, h5⟩ := storeExists_true he
        rw [storeSet_located h3 h4 h5] at hw'
        rw [← (Prod.mk.inj hw').2]
        exact Fs.Same.put h5
      have hk' := nodeMetadataKey_same hsame hk
      refine ⟨fs', ?_, hget, ?_, fun h0 => ?_⟩
      · rw [h1, devValue_small (by rw [hp]; exact hsmall), hp, hw']
      · rcases hkey with ⟨e, _⟩ | ⟨e, _, ha⟩
        · subst e
          simp [nodeExists, hex]
        · subst e
          obtain ⟨b, hb⟩ := storeExists_shape ha fs'
          simp only [nodeExists, M.bind_apply, hb]
          cases b with
          | true => rfl
          | false => simp [hex]
      · subst h0
        rw [List.take_zero] at hget
        constructor
        · simp [listAttributes, hk', hget, hjson.parse_nil, Outcome.ofOption]
        · intro attrs'
          simp [setAttributes, hk', hget, hjson.parse_nil, Outcome.ofOption]

/-- **C61 is violated by `open_or_create`** in every directory: where it would create a hierarchy, it
returns one however little room there is, and `zarr.json` is cut off. On a full device nobody can open
or create that hierarchy from then on. -/
theorem C61_violated_entry (free : Nat) (pieces : Json → List Bytes) (env : Env) (base : Str) (fs : Fs)
    (hp : ∀ j, (pieces j).flatten = env.json.print j) (hjson : env.json.Lawful)
    (hsmall : (env.json.print EntryPointMetadata.default.toJson).length < 8192)
    (hwf : fs.WF) (hb : Plain (segs base)) (hnone : fs.get (segs base ++ [str!"zarr.json"]) = none)
    (hw : Writable fs (segs base ++ [str!"zarr.json"])) (hv : Compatible env EntryPointMetadata.default) :
    ∃ fs', openOrCreateDev free pieces env base fs = (.ok ⟨base, EntryPointMetadata.default⟩, fs') ∧
      fs'.content (segs base ++ [str!"zarr.json"]) =
        some ((env.json.print EntryPointMetadata.default.toJson).take free) ∧
      (free = 0 → (∀ h, (openHier env base fs').1 ≠ .ok h) ∧
        (∀ h, (openOrCreate env base fs').1 ≠ .ok h) ∧ (openOrCreate env base fs').2 = fs') := by
  obtain ⟨fs', h1, hwf', hget⟩ := openOrCreateDev_new (free := free) (pieces := pieces) (env := env)
    hwf hb hnone hw
  have hval : devValue free (pieces EntryPointMetadata.default.toJson) =
      ((env.json.print EntryPointMetadata.default.toJson).take free, .ok ()) := by
    rw [devValue_small (by rw [hp]; exact hsmall), hp]
  rw [hval] at h1 hget
  have hfile : fs'.get (segs base ++ [str!"zarr.json"]) =
      some (.file ((env.json.print EntryPointMetadata.default.toJson).take free)) := by
    rw [hget, setSpec, if_pos rfl]
  refine ⟨fs', ?_, Fs.content_eq_some.mpr hfile, fun h0 => ?_⟩
  · have hv' : env.versionReq (lastPiece EntryPointMetadata.default.zarrFormat) = some true := compatible_iff.mp hv
    rw [h1]
    simp [Outcome.bind, checkVersion, getVersion, hv']
  · subst h0
    rw [List.take_zero] at hfile
    obtain ⟨c1, _, c3⟩ := C44 hjson hwf' hb
    obtain ⟨d1, d2⟩ := c3 (by rw [hfile]; simp)
    have hno : ∀ h, (openHier env base fs').1 ≠ .ok h := by
      intro h hh
      obtain ⟨b, j, hc, hpj, _⟩ := (c1 h).mp hh
      rw [Fs.content_eq_some.mpr hfile] at hc
      simp only [Option.some.injEq] at hc
      subst hc
      rw [hjson.raw_nil] at hpj
      simp at hpj
    exact ⟨hno, fun h hh => hno h (by rw [← d1, hh]), d2⟩

set_option maxRecDepth 20000 in
/-- No room: the group, the changed attributes and the hierarchy are reported as written and are
lost. -/
example :
    let pieces := fun j => (jsonText.print j).map fun b => [b]
    let fs := (createArray Demo.envJ Demo.hier Demo.path Demo.arr Demo.emptyFs).2
    (createGroupDev 0 pieces Demo.hier str!"/g" Demo.emptyFs).1 = .ok () ∧
    (listAttributes Demo.envJ Demo.hier str!"/g"
      (createGroupDev 0 pieces Demo.hier str!"/g" Demo.emptyFs).2).1 = .err .json ∧
    (listAttributes Demo.envJ Demo.hier str!"/g"
      (createGroupDev 8000 pieces Demo.hier str!"/g" Demo.emptyFs).2).1 = .ok [] ∧
    (getArrayMetadata Demo.envJ Demo.hier Demo.path fs).1 = .ok Demo.arr ∧
    (setAttributesDev 20 pieces Demo.envJ Demo.hier Demo.path [(str!"a", .null)] fs).1 = .ok () ∧
    (getArrayMetadata Demo.envJ Demo.hier Demo.path
      (setAttributesDev 20 pieces Demo.envJ Demo.hier Demo.path [(str!"a", .null)] fs).2).1
      = .err .json := by
  decide +kernel

set_option maxRecDepth 20000 in
example :
    let pieces := fun j => (jsonText.print j).map fun b => [b]
    (openOrCreateDev 50 pieces Demo.envV str!"/h" Demo.emptyFs).1 = .ok Demo.hier ∧
    (openOrCreate Demo.envV str!"/h" (openOrCreateDev 50 pieces Demo.envV str!"/h" Demo.emptyFs).2).1
      = .err .json ∧
    (openOrCreate Demo.envV str!"/h" (openOrCreateDev 500 pieces Demo.envV str!"/h" Demo.emptyFs).2).1
      = .ok Demo.hier := by
  decide +kernel

end Zarr
