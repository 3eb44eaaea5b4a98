import Verif.Props.CrashCalls
import Verif.Lemmas.JsonCut
/-! Which interrupted creations can be repeated (C45, C72). -/

namespace Zarr

open Spec

/-- What a crash can leave of a document is no JSON text. (Texts of objects have this property: the closing brace is
their last byte.) -/
def Spec.Uncuttable (env : Env) (j : Json) : Prop :=
  ∀ n, n < (env.json.print j).length → env.json.raw ((env.json.print j).take n) = none

/-- No document of an object that the text form of `Model/JsonText` writes can be cut: this is proved for every document,
of whatever depth. -/
theorem Spec.Uncuttable.text {env : Env} (he : env.json = jsonText) {n : Nat} {o : JsonObject}
    (hc : (Json.obj o).canon (fun _ => false) n = true) : Uncuttable env (.obj o) := by
  unfold Uncuttable
  rw [he]
  exact fun k hk => jsonText_cut n o hc k hk

/-- The same for the documents this library writes: the entry point, a new group and an array. -/
theorem Spec.Uncuttable.documents {env : Env} (he : env.json = jsonText) :
    Uncuttable env EntryPointMetadata.default.toJson ∧ Uncuttable env GroupMetadata.default.toJson ∧
    ∀ n m j, StoredAt env.features env.json.floats n m → m.toJson = .ok j → Uncuttable env j := by
  refine ⟨Uncuttable.text he (n := 2) (by decide), Uncuttable.text he (n := 3) (by decide), fun n m j hm hj => ?_⟩
  obtain ⟨kvs, h1, h2, _⟩ := ArrayMetadata.roundTripAt hm
  rw [h1] at hj
  cases hj
  rw [he] at h2
  exact Uncuttable.text he h2

/-- **C45** (exactly). A creation that was interrupted can be repeated if and only if the entry point file was not left
with a part of its document; otherwise `open_or_create` and `open` fail forever: nothing is changed. -/
theorem C45_exact {env : Env} (hj : env.json.Lawful) {base : Str} {fs s : Fs} (hwf : fs.WF)
    (hb : Plain (segs base)) (hnone : fs.get (segs base ++ [str!"zarr.json"]) = none)
    (hw : Writable fs (segs base ++ [str!"zarr.json"]))
    (hv : Compatible env EntryPointMetadata.default) (hcut : Uncuttable env EntryPointMetadata.default.toJson)
    (hs : s ∈ openOrCreateStates env base fs) :
    ((openOrCreate env base s).1 = .ok ⟨base, EntryPointMetadata.default⟩ ↔
      ¬ ∃ n, n < (env.json.print EntryPointMetadata.default.toJson).length ∧
        s.content (segs base ++ [str!"zarr.json"]) =
          some ((env.json.print EntryPointMetadata.default.toJson).take n)) ∧
    ((openOrCreate env base s).1 ≠ .ok ⟨base, EntryPointMetadata.default⟩ →
      (∀ h, (openOrCreate env base s).1 ≠ .ok h) ∧ (openOrCreate env base s).2 = s ∧
      ∀ h, (openHier env base s).1 ≠ .ok h) := by
  have hwfs : s.WF := (openOrCreateStates_cases hwf hb hnone hw hs).1
  have key : (∃ n, n < (env.json.print EntryPointMetadata.default.toJson).length ∧
      s.content (segs base ++ [str!"zarr.json"]) =
        some ((env.json.print EntryPointMetadata.default.toJson).take n)) →
      (∀ h, (openOrCreate env base s).1 ≠ .ok h) ∧ (openOrCreate env base s).2 = s ∧
      ∀ h, (openHier env base s).1 ≠ .ok h := by
    rintro ⟨n, hn, hc⟩
    have hfile := Fs.content_eq_some.mp hc
    obtain ⟨c1, _, c3⟩ := C44 hj hwfs hb
    obtain ⟨d1, d2⟩ := c3 (by rw [hfile]; simp)
    have hno : ∀ h, (openHier env base s).1 ≠ .ok h := by
      intro h hh
      obtain ⟨b, j, hc', hpj, _⟩ := (c1 h).mp hh
      rw [hc] at hc'
      cases hc'
      rw [hcut n hn] at hpj
      simp at hpj
    exact ⟨fun h hh => hno h (by rw [← d1, hh]), d2, hno⟩
  have hor := C45_partial hj hwf hb hnone hw hv hs
  refine ⟨⟨fun hok hp => (key hp).1 _ hok, fun hp => hor.resolve_right hp⟩, fun hne => key (hor.resolve_left hne)⟩

/-- **C45** (exactly, for the text form of `Model/JsonText`). Nothing is left to assume about cut documents. -/
theorem C45_exact_text {env : Env} (he : env.json = jsonText) {base : Str} {fs s : Fs} (hwf : fs.WF)
    (hb : Plain (segs base)) (hnone : fs.get (segs base ++ [str!"zarr.json"]) = none)
    (hw : Writable fs (segs base ++ [str!"zarr.json"])) (hv : Compatible env EntryPointMetadata.default)
    (hs : s ∈ openOrCreateStates env base fs) :
    ((openOrCreate env base s).1 = .ok ⟨base, EntryPointMetadata.default⟩ ↔
      ¬ ∃ n, n < (env.json.print EntryPointMetadata.default.toJson).length ∧
        s.content (segs base ++ [str!"zarr.json"]) =
          some ((env.json.print EntryPointMetadata.default.toJson).take n)) ∧
    ((openOrCreate env base s).1 ≠ .ok ⟨base, EntryPointMetadata.default⟩ →
      (∀ h, (openOrCreate env base s).1 ≠ .ok h) ∧ (openOrCreate env base s).2 = s ∧
      ∀ h, (openHier env base s).1 ≠ .ok h) :=
  C45_exact (by rw [he]; exact jsonText_lawful) hwf hb hnone hw hv (Uncuttable.documents he).1 hs

set_option maxRecDepth 20000 in
/-- The texts of the demo programs are such, and after the directories have been made, in the middle of the document and
at the end, a later `open_or_create` does what the theorem says. -/
example : Uncuttable Demo.envV EntryPointMetadata.default.toJson ∧
    Compatible Demo.envV EntryPointMetadata.default ∧
    Writable Demo.emptyFs (segs str!"/h" ++ [str!"zarr.json"]) ∧
    ([1, 60, 178].map fun i => (openOrCreateStates Demo.envV str!"/h" Demo.emptyFs)[i]?.map
      fun s => (openOrCreate Demo.envV str!"/h" s).1) = [some (.ok Demo.hier), some (.err .json), some (.ok Demo.hier)] :=
  ⟨by unfold Uncuttable; decide +kernel, compatible_iff.mpr (by decide),
    ⟨fun l _ _ b hb => by
      by_cases hl : l = []
      · subst hl; simp [Demo.emptyFs, Fs.get, Fs.lookup] at hb
      · simp [Demo.emptyFs, Fs.get, Fs.lookup, Ne.symm hl] at hb, by decide⟩, by decide +kernel⟩

/-- **C72** (creations, exactly). Whatever state a crash inside `create_group` or `create_array` of a new node leaves:
either no file has changed, and the call can be repeated (`C72_partial`); or the document is complete; or the node is
lost: `create_group` returns Ok and `create_array` AlreadyExists, both change nothing, and nothing can be read of the
node. -/
theorem C72_exact {env : Env} {h : Hier} {fs : Fs} (hwf : fs.WF) (hb : Plain (segs h.base)) (hs : GoodSuffix h.entry)
    {p : Str} (hp : Plain (segs p)) (ha : arrayDoc h fs p = none) (hg : groupDoc h fs p = none) :
    (Uncuttable env GroupMetadata.default.toJson → ∀ s, (NodeOp.createGroup p).Crash env h fs s →
      (∀ l, s.content l = fs.content l) ∨
      groupDoc h s p = some (env.json.print GroupMetadata.default.toJson) ∨
      (groupDoc h s p ≠ none ∧ createGroup env h p s = (.ok (), s) ∧ ∀ o, (listAttributes env h p s).1 ≠ .ok o)) ∧
    (∀ m j, m.toJson = .ok j → Uncuttable env j → ∀ s, (NodeOp.createArray p m).Crash env h fs s →
      (∀ l, s.content l = fs.content l) ∨
      arrayDoc h s p = some (env.json.print j) ∨
      (arrayDoc h s p ≠ none ∧ (∀ m', createArray env h p m' s = (.err .alreadyExists, s)) ∧
        (∀ m', (getArrayMetadata env h p s).1 ≠ .ok m') ∧ ∀ o, (listAttributes env h p s).1 ≠ .ok o)) := by
  have pg : Plain (h.loc (groupMetadataKey h.entry p)) := by
    rw [loc_groupKey hs hp]; exact plain_docLoc hb hp (by simp)
  have pa : Plain (h.loc (arrayMetadataKey h.entry p)) := by
    rw [loc_arrayKey hs hp]; exact plain_docLoc hb hp (by simp)
  -- the file is as it was, complete, or cut short
  have cases : ∀ (key : Str) (j : Json) (s : Fs), Plain (h.loc key) → s ∈ setStates h key (env.json.print j) fs →
      (∀ l, s.content l = fs.content l) ∨ s.content (h.loc key) = some (env.json.print j) ∨
      ∃ n, n < (env.json.print j).length ∧ s.content (h.loc key) = some ((env.json.print j).take n) := by
    intro key j s hpl hm
    obtain ⟨f1, f2⟩ := setStates_files (v := (env.json.print j, .ok ())) hwf hpl hm
    rcases f2 with e | ⟨n, e, _⟩
    · refine .inl fun l => ?_
      by_cases hl : l = h.loc key
      · rw [hl, e]
      · exact f1 l hl
    · by_cases hn : n < (env.json.print j).length
      · exact .inr (.inr ⟨n, hn, e⟩)
      · rw [List.take_of_length_le (Nat.le_of_not_lt hn)] at e
        exact .inr (.inl e)
  constructor
  · intro hcut s hc
    have hc : s ∈ setStates h (groupMetadataKey h.entry p) (env.json.print GroupMetadata.default.toJson) fs := by
      rw [NodeOp.Crash, createGroupStates_eq hwf hb hs hp, ha, hg] at hc
      simpa only [Option.isSome_none, Bool.false_eq_true, if_false] using hc
    have w := (setStates_get hwf pg hc).1
    have ha' : arrayDoc h s p = none := by
      rw [arrayDoc, (setStates_files (v := (env.json.print GroupMetadata.default.toJson, .ok ())) hwf pg hc).1 _ (by
        rw [loc_groupKey hs hp]; exact docLoc_array_ne_group)]
      exact ha
    rcases cases (groupMetadataKey h.entry p) GroupMetadata.default.toJson s pg hc with e | e | ⟨n, hn, e⟩
    · exact .inl e
    · rw [loc_groupKey hs hp] at e; exact .inr (.inl e)
    · rw [loc_groupKey hs hp] at e
      have hg' : groupDoc h s p = some ((env.json.print GroupMetadata.default.toJson).take n) := e
      refine .inr (.inr ⟨by rw [hg']; simp, ?_, ?_⟩)
      · rw [createGroup_eq w hb hs hp, ha', hg']
        simp only [Option.isSome_none, Bool.false_eq_true, if_false, Option.isSome_some, if_true]
      · intro o
        simp [listAttributes, nodeMetadataKey_eq w hb hs hp, ha', hg', storeGet_group w hb hs hp, JsonText.parse, hcut n hn]
  · intro m j hjs hcut s hc
    rw [NodeOp.Crash, createArrayStates_eq hwf hb hs hp, ha, hg] at hc
    have ht : (arrayMetadataText env m).1 = env.json.print j := by rw [arrayMetadataText, hjs]
    have hc : s ∈ setStates h (arrayMetadataKey h.entry p) (arrayMetadataText env m).1 fs := hc
    rw [ht] at hc
    have w := (setStates_get hwf pa hc).1
    have hg' : groupDoc h s p = none := by
      rw [groupDoc, (setStates_files (v := (_, .ok ())) hwf pa hc).1 _ (by
        rw [loc_arrayKey hs hp]; exact fun e => docLoc_array_ne_group e.symm)]
      exact hg
    rcases cases _ _ s pa hc with e | e | ⟨n, hn, e⟩
    · exact .inl e
    · rw [loc_arrayKey hs hp] at e; exact .inr (.inl e)
    · rw [loc_arrayKey hs hp] at e
      have ha' : arrayDoc h s p = some ((env.json.print j).take n) := e
      refine .inr (.inr ⟨by rw [ha']; simp, ?_, ?_, ?_⟩)
      · intro m'
        rw [createArray_eq w hb hs hp, ha', hg']; rfl
      · intro m'
        simp [getArrayMetadata, storeGet_array w hb hs hp, ha', parseArrayMetadata, hcut n hn]
      · intro o
        simp [listAttributes, nodeMetadataKey_eq w hb hs hp, ha', storeGet_array w hb hs hp, JsonText.parse, hcut n hn]

/-- **C72** (creations, exactly, for the text form of `Model/JsonText`). -/
theorem C72_exact_text {env : Env} (he : env.json = jsonText) {h : Hier} {fs : Fs} (hwf : fs.WF)
    (hb : Plain (segs h.base)) (hs : GoodSuffix h.entry) {p : Str} (hp : Plain (segs p)) (ha : arrayDoc h fs p = none)
    (hg : groupDoc h fs p = none) :
    (∀ s, (NodeOp.createGroup p).Crash env h fs s →
      (∀ l, s.content l = fs.content l) ∨
      groupDoc h s p = some (env.json.print GroupMetadata.default.toJson) ∨
      (groupDoc h s p ≠ none ∧ createGroup env h p s = (.ok (), s) ∧ ∀ o, (listAttributes env h p s).1 ≠ .ok o)) ∧
    (∀ n m, StoredAt env.features env.json.floats n m → ∀ s, (NodeOp.createArray p m).Crash env h fs s →
      (∀ l, s.content l = fs.content l) ∨
      (∃ j, m.toJson = .ok j ∧ arrayDoc h s p = some (env.json.print j)) ∨
      (arrayDoc h s p ≠ none ∧ (∀ m', createArray env h p m' s = (.err .alreadyExists, s)) ∧
        (∀ m', (getArrayMetadata env h p s).1 ≠ .ok m') ∧ ∀ o, (listAttributes env h p s).1 ≠ .ok o)) := by
  obtain ⟨c1, c2⟩ := C72_exact (env := env) hwf hb hs hp ha hg
  refine ⟨c1 (Uncuttable.documents he).2.1, fun n m hm s hc => ?_⟩
  obtain ⟨kvs, hk, _, _⟩ := ArrayMetadata.roundTripAt hm
  rcases c2 m _ hk ((Uncuttable.documents he).2.2 n m _ hm hk) s hc with e | e | e
  · exact .inl e
  · exact .inr (.inl ⟨_, hk, e⟩)
  · exact .inr (.inr e)

set_option maxRecDepth 20000 in
/-- All three cases occur for an array and for a group. -/
example : Uncuttable Demo.envJ GroupMetadata.default.toJson ∧
    (∃ j, Demo.arr.toJson = .ok j ∧ Uncuttable Demo.envJ j) ∧
    arrayDoc Demo.hier Demo.emptyFs str!"a" = none ∧ groupDoc Demo.hier Demo.emptyFs str!"a" = none ∧
    (((createArrayStates Demo.envJ Demo.hier str!"a" Demo.arr Demo.emptyFs).map
      fun s => decide (arrayDoc Demo.hier s str!"a" = none)).head? = some true) ∧
    (((createArrayStates Demo.envJ Demo.hier str!"a" Demo.arr Demo.emptyFs)[20]?.map
      fun s => decide ((createArray Demo.envJ Demo.hier str!"a" Demo.arr s).1 = .err .alreadyExists)) = some true) ∧
    (((createArrayStates Demo.envJ Demo.hier str!"a" Demo.arr Demo.emptyFs).getLast?.map
      fun s => (getArrayMetadata Demo.envJ Demo.hier str!"a" s).1) = some (.ok Demo.arr)) :=
  ⟨by unfold Uncuttable; decide +kernel, ⟨_, rfl, by unfold Uncuttable; decide +kernel⟩, by decide +kernel, by decide +kernel,
    by decide +kernel, by decide +kernel, by decide +kernel⟩

/-- The metadata of the demo programs can be stored, and their texts are those of `Model/JsonText`. -/
example : Demo.envJ.json = jsonText ∧ StoredAt Demo.envJ.features Demo.envJ.json.floats 123 Demo.arr :=
  have h := Demo.arr_faithful
  ⟨rfl, h.shape, h.chunkShape, h.core, h.fallback, h.fill, fun e he => (h.exts e he).2, h.attrs, h.comp⟩

/-- **C72** (`set_attributes`, exactly). Whatever state a crash inside a `set_attributes` leaves that would have succeeded:
either all files are as they were, and the call can be repeated (`C72_partial`), or all are as the call would have left
them, or the node is lost: no later `set_attributes` succeeds or changes anything, and nothing can be read of the
node. -/
theorem C72_exact_attributes {env : Env} {h : Hier} {fs fs' : Fs} (hwf : fs.WF) (hb : Plain (segs h.base))
    (hs : GoodSuffix h.entry) {p : Str} (hp : Plain (segs p)) {b : JsonObject}
    (hcut : ∀ o, (Json.obj o).canon env.json.floats 127 = true → Uncuttable env (.obj o))
    (hdoc : DocsCanonical env h p fs) (hbc : (Json.obj b).canon env.json.floats 126 = true)
    (hset : setAttributes env h p b fs = (.ok (), fs')) {s : Fs} (hc : (NodeOp.setAttributes p b).Crash env h fs s) :
    (∀ l, s.content l = fs.content l) ∨ (∀ l, s.content l = fs'.content l) ∨
    ((∀ b', setAttributes env h p b' s = (.err .json, s)) ∧ (∀ o, (listAttributes env h p s).1 ≠ .ok o) ∧
      ∀ m, (getArrayMetadata env h p s).1 ≠ .ok m) := by
  have pg : Plain (h.loc (groupMetadataKey h.entry p)) := by
    rw [loc_groupKey hs hp]; exact plain_docLoc hb hp (by simp)
  have pa : Plain (h.loc (arrayMetadataKey h.entry p)) := by
    rw [loc_arrayKey hs hp]; exact plain_docLoc hb hp (by simp)
  obtain ⟨key, t, l, c, kvs, hk, h1, h2, h3, h4, h5⟩ := setAttributes_ok hset
  have hkey := nodeMetadataKey_eq hwf hb hs hp
  rw [hk] at hkey
  have hkc : key = arrayMetadataKey h.entry p ∨ key = groupMetadataKey h.entry p := by
    obtain ⟨_, ⟨rfl, _⟩ | ⟨rfl, _⟩⟩ := nodeMetadataKey_ok hk
    · exact .inl rfl
    · exact .inr rfl
  have hpl : Plain (h.loc key) := by
    rcases hkc with rfl | rfl
    · exact pa
    · exact pg
  have hl := locate_key hpl h1 h2
  have hget0 := storeGet_located h1 h2 h3
  obtain ⟨k1, k2⟩ := setAttributes_known (env := env) (b := b) hk hget0 (kvs := kvs) (by rw [h4]; rfl)
  by_cases hm : mergedDoc kvs b = kvs
  · rw [NodeOp.Crash, (k1 hm).2, List.mem_singleton] at hc
    subst hc
    exact .inl fun _ => rfl
  rw [NodeOp.Crash, (k2 hm).2] at hc
  rw [if_neg hm, hl] at h5
  have hcanon : (Json.obj (mergedDoc kvs b)).canon env.json.floats 127 = true := by
    have e1 := (DocsCanonical.of_parse hdoc hkc hget0 h4).2
    simp only [Json.canon] at e1 hbc ⊢
    exact mergedDoc_canon e1 hbc
  have hcut := hcut _ hcanon
  have w := (setStates_get hwf hpl hc).1
  obtain ⟨hother, hfile⟩ := setStates_files (v := (env.json.print (.obj (mergedDoc kvs b)), .ok ())) hwf hpl hc
  rcases hfile with e | ⟨n, e, _⟩
  · refine .inl fun l' => ?_
    by_cases hl' : l' = h.loc key
    · rw [hl', e]
    · exact hother l' hl'
  by_cases hn : ¬ n < (env.json.print (.obj (mergedDoc kvs b))).length
  · rw [List.take_of_length_le (Nat.le_of_not_lt hn)] at e
    refine .inr (.inl fun l' => ?_)
    by_cases hl' : l' = h.loc key
    · rw [hl', e, h5]; simp [Fs.content, Fs.get_put]
    · rw [hother l' hl', h5]; simp [Fs.content, Fs.get_put, hl']
  · have hn := Classical.not_not.mp hn
    have e : s.content (h.loc key) = some ((env.json.print (.obj (mergedDoc kvs b))).take n) := e
    generalize hd : (env.json.print (.obj (mergedDoc kvs b))).take n = d at e
    have hraw : env.json.raw d = none := by rw [← hd]; exact hcut n hn
    have hparse : env.json.parse d = none := by rw [JsonText.parse, hraw]; rfl
    have hks : nodeMetadataKey h p s = (.ok key, s) ∧ storeGet h key s = (.ok (some d), s) ∧
        (arrayDoc h s p = some d ∨ arrayDoc h s p = none) := by
      have hget : storeGet h key s = (.ok (some d), s) := by rw [storeGet_eq w hpl, e]
      rw [nodeMetadataKey_eq w hb hs hp]
      by_cases ha : (arrayDoc h fs p).isSome = true
      · rw [if_pos ha] at hkey
        have hkey : key = arrayMetadataKey h.entry p := by simpa using hkey
        subst hkey
        rw [loc_arrayKey hs hp] at e
        have ha' : arrayDoc h s p = some d := e
        rw [ha']
        exact ⟨rfl, hget, .inl rfl⟩
      · rw [if_neg ha] at hkey
        by_cases hg : (groupDoc h fs p).isSome = true
        · rw [if_pos hg] at hkey
          have hkey : key = groupMetadataKey h.entry p := by simpa using hkey
          subst hkey
          have ha' : arrayDoc h s p = none := by
            rw [arrayDoc, hother _ (by rw [loc_groupKey hs hp]; exact docLoc_array_ne_group)]
            simpa [arrayDoc] using ha
          rw [loc_groupKey hs hp] at e
          have hg' : groupDoc h s p = some d := e
          rw [ha', hg']
          exact ⟨rfl, hget, .inr rfl⟩
        · rw [if_neg hg] at hkey; simp at hkey
    obtain ⟨q1, q2, q3⟩ := hks
    refine .inr (.inr ⟨fun b' => (setAttributes_bad q1 q2 (by rw [hparse]; rfl)).1, fun o => ?_, fun m => ?_⟩)
    · simp [listAttributes, q1, q2, hparse]
    · rcases q3 with q3 | q3
      · simp [getArrayMetadata, storeGet_array w hb hs hp, q3, parseArrayMetadata, hraw]
      · simp [getArrayMetadata, storeGet_array w hb hs hp, q3]

/-- The hypothesis about cut documents holds for the texts of `Model/JsonText`. -/
theorem Spec.Uncuttable.objects {env : Env} (he : env.json = jsonText) :
    ∀ o, (Json.obj o).canon env.json.floats 127 = true → Uncuttable env (.obj o) := by
  intro o hc
  rw [he] at hc
  exact Uncuttable.text he hc

set_option maxRecDepth 20000 in
/-- All three cases occur for the group with attributes. -/
example : Demo.envJ.json = jsonText ∧ DocsCanonical Demo.envJ Demo.hier str!"g" Demo.attrFs ∧
    (Json.obj Demo.newAttrs).canon Demo.envJ.json.floats 126 = true ∧
    (setAttributes Demo.envJ Demo.hier str!"g" Demo.newAttrs Demo.attrFs).1 = .ok () ∧
    (let l := setAttributesStates Demo.envJ Demo.hier str!"g" Demo.newAttrs Demo.attrFs
     let r s := (setAttributes Demo.envJ Demo.hier str!"g" Demo.newAttrs s).1
     l.head?.map r = some (.ok ()) ∧ l[20]?.map r = some (.err .json) ∧ l.getLast?.map r = some (.ok ())) :=
  ⟨rfl, Demo.attrDocs, by decide, by decide +kernel, by decide +kernel⟩

end Zarr
