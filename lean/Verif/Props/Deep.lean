import Verif.Props.Attributes
/-!
# Deeply nested attributes: C89

serde_json writes documents nested arbitrarily deep and reads back at most 127 levels.
-/

namespace Zarr

open Spec

/-- Deep attributes make the merged document deep. -/
theorem mergedDoc_deep {existing b : JsonObject} (hb : (b.map Prod.fst).Nodup)
    (hd : (Json.obj b).within 126 = false) : (Json.obj (mergedDoc existing b)).within 127 = false := by
  obtain ⟨a, h1, h2⟩ := mergedDoc_eq existing b
  simp only [Json.within] at hd
  have ha : Json.withinObj 125 a = false := by
    cases hw : Json.withinObj 125 a with
    | false => rfl
    | true =>
      have : Json.withinObj 125 b = true := by
        rw [Json.withinObj_iff] at hw ⊢
        intro e he
        have hg : objGet a e.1 = some e.2 := by
          rcases h2 with ⟨o, _, rfl⟩ | ⟨_, rfl⟩
          · rw [objGet_mergeObj _ _ hb, objGet_of_mem hb he]; rfl
          · exact objGet_of_mem hb he
        exact hw _ (objGet_some_mem hg)
      rw [this] at hd; simp at hd
  cases hw : (Json.obj (mergedDoc existing b)).within 127 with
  | false => rfl
  | true =>
    simp only [Json.within] at hw
    rw [h1, Json.withinObj_iff] at hw
    have := hw (attributesName, .obj a) (objGet_some_mem (by rw [objGet_objInsert]; simp))
    simp only [Json.within, ha] at this
    simp at this

/-- The state after `set_attributes` with deep attributes: the document of the node cannot be read. -/
theorem setAttributes_deep {env : Env} (hj : env.json.Lawful) {h : Hier} {path : Str} {b : JsonObject}
    {fs fs' : Fs} {n : Nat} (hb : (Json.obj b).canon env.json.floats n = true)
    (hd : (Json.obj b).within 126 = false) (hdoc : DocsCanonical env h path fs)
    (hset : setAttributes env h path b fs = (.ok (), fs')) :
    ∃ key t l c', (key = arrayMetadataKey h.entry path ∨ key = groupMetadataKey h.entry path) ∧
      nodeMetadataKey h path fs = (.ok key, fs) ∧ nodeMetadataKey h path fs' = (.ok key, fs') ∧
      getPath h.base key = .ok t ∧ fs'.locate (segs t) = .ok l ∧
      fs'.get l = some (.file c') ∧ env.json.raw c' = none := by
  obtain ⟨key, t, l, c, kvs, h0, h1, h2, h3, h4, h5⟩ := setAttributes_ok hset
  have hkey : key = arrayMetadataKey h.entry path ∨ key = groupMetadataKey h.entry path := by
    obtain ⟨_, ⟨rfl, _⟩ | ⟨rfl, _⟩⟩ := nodeMetadataKey_ok h0
    · exact .inl rfl
    · exact .inr rfl
  obtain ⟨_, hcan⟩ := DocsCanonical.of_parse hdoc hkey (storeGet_located h1 h2 h3) h4
  obtain ⟨n, rfl⟩ : ∃ m, n = m + 1 := by
    cases n with
    | zero => simp [Json.canon] at hb
    | succ n => exact ⟨n, rfl⟩
  have hb' : Json.canonObj env.json.floats n b = true := by simpa only [Json.canon] using hb
  have hdeep := mergedDoc_deep (existing := kvs) (Json.canonObj_iff.mp hb').2 hd
  have hm : mergedDoc kvs b ≠ kvs := by
    intro he
    rw [he, hj.parse_within _ _ h4] at hdeep
    simp at hdeep
  rw [if_neg hm] at h5
  subst h5
  have hmc : (Json.obj (mergedDoc kvs b)).canon env.json.floats (n + 127 + 2) = true := by
    have e := Json.canon_mono (k := n + 127 + 2) (by omega) hcan
    have e' := Json.canon_mono (k := n + 127 + 1) (by omega) hb
    simp only [Json.canon] at e e' ⊢
    exact mergedDoc_canon e e'
  have hsame := Fs.Same.put (b' := env.json.print (.obj (mergedDoc kvs b))) h3
  refine ⟨key, t, l, _, hkey, h0, nodeMetadataKey_same hsame h0, h1, ?_,
    by rw [Fs.get_put, if_pos rfl], hj.raw_deep _ _ hmc hdeep⟩
  unfold Fs.locate; rw [hsame.walk]; exact h2

/-- **C89, what holds.** After a successful `set_attributes` with attributes nested at most 126 deep
(counting the object of the attributes itself), the attributes can be listed. Missing from the full
property: attributes nested deeper, for which it always fails (`C89_violated_always`). -/
theorem C89_partial {env : Env} (hj : env.json.Lawful) {h : Hier} {path : Str} {b : JsonObject}
    {fs fs' : Fs} {n : Nat} (hb : (Json.obj b).canon env.json.floats n = true)
    (hs : (Json.obj b).within 126 = true) (hdoc : DocsCanonical env h path fs)
    (hset : setAttributes env h path b fs = (.ok (), fs')) :
    ∃ new, listAttributes env h path fs' = (.ok new, fs') ∧ ∀ k v, objGet b k = some v → objGet new k = some v := by
  obtain ⟨new, h1, h2, _⟩ := C33 hj (Json.canon_of_within n 126 _ hb hs) hdoc hset
  exact ⟨new, h1, h2⟩

/-- **C89, what fails.** After every successful `set_attributes` with attributes nested more than 126
deep, on any node, the document of the node cannot be read: listing its attributes fails, every later
`set_attributes` fails, so that they cannot be repaired through the API, and if it was an array, its
metadata cannot be read and `array_exists` is false. -/
theorem C89_violated_always {env : Env} (hj : env.json.Lawful) {h : Hier} {path : Str} {b : JsonObject}
    {fs fs' : Fs} {n : Nat} (hb : (Json.obj b).canon env.json.floats n = true)
    (hd : (Json.obj b).within 126 = false) (hdoc : DocsCanonical env h path fs)
    (hset : setAttributes env h path b fs = (.ok (), fs')) :
    listAttributes env h path fs' = (.err .json, fs') ∧
      (∀ b', setAttributes env h path b' fs' = (.err .json, fs')) ∧
      (∀ m, getArrayMetadata env h path fs = (.ok m, fs) →
        getArrayMetadata env h path fs' = (.err .json, fs') ∧ arrayExists env h path fs' = (.ok false, fs')) := by
  obtain ⟨key, t, l, c', hkey, hk, hk', h1, h2, h3, h4⟩ := setAttributes_deep hj hb hd hdoc hset
  have h5 : env.json.parse c' = none := by rw [JsonText.parse, h4]; rfl
  refine ⟨?_, fun b' => ?_, fun m hm => ?_⟩
  · simp only [listAttributes, M.bind_apply, hk', storeGet_located h1 h2 h3, M.lift_apply,
      h5, Outcome.ofOption]
  · simp only [setAttributes, M.bind_apply, hk', storeGet_located h1 h2 h3, M.lift_apply,
      h5, Outcome.ofOption]
  · have hka := nodeMetadataKey_array hk hm
    subst hka
    have hg : getArrayMetadata env h path fs' = (.err .json, fs') := by
      rw [getArrayMetadata_located h1 h2 h3]
      simp [parseArrayMetadata, h4, Outcome.ofOption]
    refine ⟨hg, ?_⟩
    have hn : nodeExists h path fs' = (.ok true, fs') := by
      have hx : storeExists h (arrayMetadataKey h.entry path) fs' = (.ok true, fs') := by
        simp [storeExists, h1, Fs.isFile, Fs.node, h2, h3]
      simp [nodeExists, hx]
    simp [arrayExists, hn, hg]

/-! ## Concrete cases -/

/-- A value of `n` arrays in each other. -/
def Demo.nest : Nat → Json
  | 0 => .null
  | n + 1 => .arr [Demo.nest n]

/-- Set one attribute of a group and list the attributes. -/
def Demo.setList (n : Nat) : Outcome Unit × Outcome JsonObject :=
  let r := setAttributes Demo.envJ Demo.hier str!"g" [(str!"x", Demo.nest n)] Demo.attrFs
  (r.1, (listAttributes Demo.envJ Demo.hier str!"g" r.2).1)

set_option maxRecDepth 20000 in
/-- **C89, what fails:** an attribute of 126 arrays in each other is stored, and the attributes of the node
are lost; one of 125 arrays is stored and listed; an array created with the former cannot be read. -/
theorem C89_violated :
    Demo.setList 126 = (.ok (), .err .json) ∧
    Demo.setList 125 = (.ok (), .ok [(str!"x", Demo.nest 125), (str!"y", .obj [(str!"z", .null)])]) ∧
    Demo.createGet { Demo.arr with attributes := [(str!"x", Demo.nest 126)] } = (.ok (), .err .json) := by
  refine ⟨?_, ?_, ?_⟩ <;> decide +kernel

example : (Json.obj [(str!"x", Demo.nest 126)]).canon Demo.envJ.json.floats 127 = true ∧
    (Json.obj [(str!"x", Demo.nest 126)]).within 126 = false := by decide +kernel

example : (Json.obj [(str!"x", Demo.nest 125)]).canon Demo.envJ.json.floats 126 = true ∧
    (Json.obj [(str!"x", Demo.nest 125)]).within 126 = true := by decide +kernel

end Zarr
