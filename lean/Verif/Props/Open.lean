import Verif.Lemmas.Store
import Verif.Lemmas.ReadOnly
import Verif.Props.Metadata
import Verif.Spec.Documents
/-!
# Opening a hierarchy: C44
-/

namespace Zarr

open Spec

/-! ## Specification -/

/-- Two lists of the same length whose elements are related one by one. -/
def Spec.All2 {α β : Type} (R : α → β → Prop) : List α → List β → Prop
  | [], [] => True
  | a :: as, b :: bs => R a b ∧ Spec.All2 R as bs
  | _, _ => False

/-- The JSON form of an extension declaration. -/
def Spec.ExtDoc (j : Json) (x : ExtensionMetadata) : Prop :=
  ∃ o, Members [str!"extension", str!"must_understand", str!"configuration"] 3 j o ∧
    objGet o str!"extension" = some (.str x.extension) ∧
    objGet o str!"must_understand" = some (.bool x.mustUnderstand) ∧
    ((x.configuration = none ∧
        (objGet o str!"configuration" = none ∨ objGet o str!"configuration" = some .null)) ∨
      ∃ c v, x.configuration = some c ∧ objGet o str!"configuration" = some v ∧ v.dedup = .obj c)

/-- A well-formed entry point document and what it says. -/
def Spec.EntryDoc (j : Json) (e : EntryPointMetadata) : Prop :=
  ∃ o xs, Members [str!"zarr_format", str!"metadata_encoding", str!"metadata_key_suffix", str!"extensions"] 4 j o ∧
    objGet o str!"zarr_format" = some (.str e.zarrFormat) ∧
    objGet o str!"metadata_encoding" = some (.str e.metadataEncoding) ∧
    objGet o str!"metadata_key_suffix" = some (.str e.metadataKeySuffix) ∧
    objGet o str!"extensions" = some (.arr xs) ∧ All2 ExtDoc xs e.extensions

/-! ## Deserialization meets the specification -/

theorem members_iff {names : List Str} {r : Nat} {j : Json} {o : JsonObject} :
    j.members names r = .ok o ↔ Members names r j o := by
  rw [Json.members_eq_ok]
  constructor
  · rintro (⟨rfl, h⟩ | ⟨l, rfl, h1, h2, rfl⟩)
    · exact .object h
    · exact .array h1 h2
  · intro h
    cases h with
    | object h => exact .inl ⟨rfl, h⟩
    | array h1 h2 => exact .inr ⟨_, rfl, h1, h2, rfl⟩

theorem asStr_ok {j : Json} {s : Str} : j.asStr = .ok s ↔ j = .str s := by
  cases j <;> simp [Json.asStr]
theorem asBool_ok {j : Json} {b : Bool} : j.asBool = .ok b ↔ j = .bool b := by
  cases j <;> simp [Json.asBool]
theorem objField_iff {m : JsonObject} {k : Str} {j : Json} : objField m k = .ok j ↔ objGet m k = some j := by
  unfold objField
  cases objGet m k <;> simp
theorem asArr_iff {j : Json} {l : List Json} : j.asArr = .ok l ↔ j = .arr l := by
  cases j <;> simp [Json.asArr]

theorem optObjField_iff {m : JsonObject} {k : Str} {c : Option JsonObject} :
    optObjField m k = .ok c ↔ ((c = none ∧ (objGet m k = none ∨ objGet m k = some .null)) ∨
      ∃ o v, c = some o ∧ objGet m k = some v ∧ v.dedup = .obj o) := by
  unfold optObjField
  cases hg : objGet m k with
  | none => simp [eq_comm]
  | some j =>
    cases j with
    | null => simp [Json.dedup, eq_comm]
    | obj o =>
      simp [Json.asMap, Json.asObj, Json.dedup, eq_comm]
    | _ => simp [Json.asMap, Json.asObj, Json.dedup]

theorem ext_fromJson_iff {j : Json} {x : ExtensionMetadata} :
    ExtensionMetadata.fromJson j = .ok x ↔ ExtDoc j x := by
  simp only [ExtensionMetadata.fromJson, Outcome.bind_eq_ok, Outcome.pure_def, Outcome.ok.injEq,
    objField_iff, asStr_ok, asBool_ok, optObjField_iff, ExtDoc, members_iff]
  constructor
  · rintro ⟨o, ho, _, h1, e, rfl, _, h2, u, rfl, c, h3, rfl⟩
    exact ⟨o, ho, h1, h2, h3⟩
  · rintro ⟨o, ho, h1, h2, h3⟩
    exact ⟨o, ho, _, h1, _, rfl, _, h2, _, rfl, _, h3, rfl⟩

theorem mapOutcome_all2 {xs : List Json} {es : List ExtensionMetadata} :
    mapOutcome ExtensionMetadata.fromJson xs = .ok es ↔ All2 ExtDoc xs es := by
  induction xs generalizing es with
  | nil => cases es <;> simp [mapOutcome, All2]
  | cons x xs ih =>
    simp only [mapOutcome, Outcome.bind_eq_ok, Outcome.pure_def, Outcome.ok.injEq, ext_fromJson_iff, ih]
    cases es with
    | nil => simp [All2]
    | cons e es =>
      simp only [All2]
      constructor
      · rintro ⟨a, ha, as, has, h⟩; cases h; exact ⟨ha, has⟩
      · rintro ⟨ha, has⟩; exact ⟨_, ha, _, has, rfl⟩

theorem entry_fromJson_iff {j : Json} {e : EntryPointMetadata} :
    EntryPointMetadata.fromJson j = .ok e ↔ EntryDoc j e := by
  simp only [EntryPointMetadata.fromJson, Outcome.bind_eq_ok, Outcome.pure_def, Outcome.ok.injEq,
    objField_iff, asStr_ok, asArr_iff, mapOutcome_all2, EntryDoc, members_iff]
  constructor
  · rintro ⟨o, ho, _, h1, f, rfl, _, h2, m, rfl, _, h3, s, rfl, _, h4, xs, rfl, es, h5, rfl⟩
    exact ⟨o, xs, ho, h1, h2, h3, h4, h5⟩
  · rintro ⟨o, xs, ho, h1, h2, h3, h4, h5⟩
    exact ⟨o, ho, _, h1, _, rfl, _, h2, _, rfl, _, h3, _, rfl, _, h4, _, rfl, _, h5, rfl⟩

theorem parseEntryPoint_iff {env : Env} {b : Bytes} {e : EntryPointMetadata} :
    parseEntryPoint env b = .ok e ↔ ∃ j, env.json.raw b = some j ∧ EntryDoc j e ∧
      ∀ x ∈ e.extensions, x.mustUnderstand = false := by
  have hce : ∀ xs : List ExtensionMetadata, checkExtensions xs = .ok () ↔
      ∀ x ∈ xs, x.mustUnderstand = false := by
    intro xs
    unfold checkExtensions
    cases hf : xs.find? (·.mustUnderstand) with
    | none => simp only [true_iff]; simpa using hf
    | some x =>
      simp only [reduceCtorEq, false_iff]
      intro hall
      have h1 := List.find?_some hf
      have h2 := List.mem_of_find?_eq_some hf
      rw [hall x h2] at h1
      simp at h1
  simp only [parseEntryPoint, Outcome.bind_eq_ok, Outcome.pure_def, Outcome.ok.injEq]
  constructor
  · rintro ⟨j, hj, m, hm, u, hu, rfl⟩
    refine ⟨j, ?_, entry_fromJson_iff.mp hm, (hce _).mp hu⟩
    cases hp : env.json.raw b with
    | none => rw [hp] at hj; simp at hj
    | some j' => rw [hp] at hj; simp at hj; rw [hj]
  · rintro ⟨j, hj, hm, hu⟩
    exact ⟨j, by rw [hj]; rfl, e, entry_fromJson_iff.mpr hm, (), (hce _).mpr hu, rfl⟩

theorem readFile_iff {fs : Fs} (hwf : fs.WF) {p : Loc} (hp : Plain p) {b : Bytes} :
    fs.readFile p = .ok b ↔ fs.content p = some b := by
  constructor
  · intro h
    unfold Fs.readFile at h
    cases hl : fs.locate p with
    | ok l =>
      have := Fs.locate_plain_ok hp hl
      subst this
      rw [hl] at h
      simp only at h
      unfold Fs.content
      cases hg : fs.get l with
      | none => rw [hg] at h; simp at h
      | some n => rw [hg] at h; cases n <;> simp at h ⊢; exact h
    | err e => rw [hl] at h; simp at h
    | panic => rw [hl] at h; simp at h
  · exact readFile_content hwf hp

/-- What the creating branch of `open_or_create` does. -/
theorem createEntryPoint_spec {env : Env} {base : Str} {fs : Fs} (hwf : fs.WF) (hb : Plain (segs base))
    (hnone : fs.get (segs base ++ [str!"zarr.json"]) = none) :
    (Writable fs (segs base ++ [str!"zarr.json"]) →
      ∃ fs', createEntryPoint env base fs = (.ok EntryPointMetadata.default, fs') ∧ fs'.WF ∧
        ∀ l, fs'.get l = setSpec fs (segs base ++ [str!"zarr.json"])
          (env.json.print EntryPointMetadata.default.toJson) l) ∧
    (¬ Writable fs (segs base ++ [str!"zarr.json"]) →
      ∃ e, createEntryPoint env base fs = (.err e, fs)) := by
  obtain ⟨m1, m2⟩ := Fs.mkdirAll_spec hwf (segs base) hb
  have hp : Plain (segs base ++ [str!"zarr.json"]) := hb.append (by decide)
  have hwq : Writable fs (segs base ++ [str!"zarr.json"]) ↔ fs.dirable (segs base) := by
    constructor
    · rintro ⟨h1, _⟩
      intro l hl
      refine h1 l (hl.trans (List.prefix_append _ _)) ?_
      intro e; have := hl.length_le; rw [e] at this; simp at this; omega
    · intro h1
      refine ⟨fun l hl hne => ?_, by rw [hnone]; simp⟩
      rcases Fs.prefix_concat.mp hl with h | h
      · exact h1 l h
      · exact absurd h hne
  rw [hwq]
  unfold createEntryPoint
  constructor
  · intro hd
    obtain ⟨fs1, hm, hwf1, hget1⟩ := m1 hd
    rw [hm]
    simp only [segs_entryPoint]
    have hd1 : fs1.get (segs base) = some .dir := by
      rw [hget1, Fs.mkdirSpec]
      by_cases hn : fs.get (segs base) = none
      · simp [hn]
      · rw [if_neg (by simp [hn])]
        cases hg : fs.get (segs base) with
        | none => exact absurd hg hn
        | some n =>
          cases n with
          | dir => rfl
          | file b => exact absurd hg (hd _ (List.prefix_refl _) b)
    have hn1 : fs1.get (segs base ++ [str!"zarr.json"]) = none := by
      rw [hget1, Fs.mkdirSpec, if_neg, hnone]
      rintro ⟨hpre, _⟩
      have := hpre.length_le; simp at this; omega
    rw [openCreate_plain hwf1 hp hd1, hn1]
    refine ⟨_, rfl, hwf1.put_put hd1 (by rw [hn1]; simp), ?_⟩
    intro l
    simp only [Fs.get_put, if_true, overwrite, List.drop_nil, List.append_nil]
    by_cases hl : l = segs base ++ [str!"zarr.json"]
    · simp [hl, setSpec]
    · rw [if_neg hl, if_neg hl, setSpec, if_neg hl, hget1, Fs.mkdirSpec]
      have : (l <+: segs base ++ [str!"zarr.json"] ∧ fs.get l = none) ↔ (l <+: segs base ∧ fs.get l = none) := by
        rw [Fs.prefix_concat]; simp [hl]
      simp only [this]
  · intro hd
    obtain ⟨e, hm⟩ := m2 hd
    rw [hm]
    exact ⟨e, rfl⟩

theorem entryDefault_canon (fl : BitVec 64 → Bool) :
    EntryPointMetadata.default.toJson.canon fl 127 = true := by
  simp [EntryPointMetadata.toJson, EntryPointMetadata.default, Json.canon, Json.canonObj, Json.canonArr]

theorem entryDefault_doc : EntryDoc EntryPointMetadata.default.toJson EntryPointMetadata.default :=
  entry_fromJson_iff.mp (by decide)

/-! ## C44 -/

theorem openHier_iff {env : Env} {base : Str} {fs : Fs} (hwf : fs.WF) (hb : Plain (segs base)) {h : Hier} :
    (openHier env base fs).1 = .ok h ↔ ∃ b j, fs.content (segs base ++ [str!"zarr.json"]) = some b ∧
      env.json.raw b = some j ∧ EntryDoc j h.entry ∧ (∀ x ∈ h.entry.extensions, x.mustUnderstand = false) ∧
      Compatible env h.entry ∧ h.base = base := by
  have hp : Plain (segs base ++ [str!"zarr.json"]) := hb.append (by decide)
  have hcv : ∀ g : Hier, checkVersion env g = .ok h ↔ Compatible env g.entry ∧ g = h := by
    intro g
    simp only [checkVersion, getVersion, compatible_iff]
    cases env.versionReq (lastPiece g.entry.zarrFormat) with
    | none => simp
    | some v => cases v <;> simp
  have e1 : (openHier env base fs).1 =
      (fs.readFile (segs base ++ [str!"zarr.json"]) >>= fun b => parseEntryPoint env b >>= fun e =>
        checkVersion env ⟨base, e⟩) := by
    simp only [openHier, M.bind_apply, readEntryPointMetadata, M.read_apply, segs_entryPoint]
    cases fs.readFile (segs base ++ [str!"zarr.json"]) with
    | ok b =>
      simp only [Outcome.bind_ok]
      cases parseEntryPoint env b <;> simp
    | err e => simp
    | panic => simp
  rw [e1]
  simp only [Outcome.bind_eq_ok, readFile_iff hwf hp, parseEntryPoint_iff, hcv]
  constructor
  · rintro ⟨b, hc, e, ⟨j, hj, hd, hx⟩, hv, rfl⟩
    exact ⟨b, j, hc, hj, hd, hx, hv, rfl⟩
  · rintro ⟨b, j, hc, hj, hd, hx, hv, rfl⟩
    exact ⟨b, hc, h.entry, ⟨j, hj, hd, hx⟩, hv, rfl⟩

/-- **C44.** (1) `open` succeeds exactly when the entry point file holds a well-formed document that
lists no required extension and names a compatible version, and then has read that document.
(2) Where there is no entry point file and the directory can be made, `open_or_create` succeeds,
given that the version it writes is compatible, and afterwards `open` succeeds with the same metadata
and `open_or_create` does too and changes nothing. (3) Where there is an entry point, `open_or_create`
gives what `open` gives and changes nothing. -/
theorem C44 {env : Env} (hj : env.json.Lawful) {base : Str} {fs : Fs} (hwf : fs.WF)
    (hb : Plain (segs base)) :
    (∀ h, (openHier env base fs).1 = .ok h ↔ ∃ b j, fs.content (segs base ++ [str!"zarr.json"]) = some b ∧
      env.json.raw b = some j ∧ EntryDoc j h.entry ∧ (∀ x ∈ h.entry.extensions, x.mustUnderstand = false) ∧
      Compatible env h.entry ∧ h.base = base) ∧
    (fs.get (segs base ++ [str!"zarr.json"]) = none → Writable fs (segs base ++ [str!"zarr.json"]) →
      Compatible env EntryPointMetadata.default →
      ∃ fs', openOrCreate env base fs = (.ok ⟨base, EntryPointMetadata.default⟩, fs') ∧
        openHier env base fs' = (.ok ⟨base, EntryPointMetadata.default⟩, fs') ∧
        openOrCreate env base fs' = (.ok ⟨base, EntryPointMetadata.default⟩, fs') ∧
        ∀ l, l ≠ segs base ++ [str!"zarr.json"] → fs'.content l = fs.content l) ∧
    (fs.get (segs base ++ [str!"zarr.json"]) ≠ none →
      openOrCreate env base fs = openHier env base fs ∧ (openOrCreate env base fs).2 = fs) := by
  have hp : Plain (segs base ++ [str!"zarr.json"]) := hb.append (by decide)
  have hex : ∀ g : Fs, g.WF → (g.pathExists (segs (joinPath base entryPointKey))
      = (g.get (segs base ++ [str!"zarr.json"])).isSome) := by
    intro g hg
    simp [Fs.pathExists, segs_entryPoint, Fs.node_plain hg hp]
  have h3 : ∀ g : Fs, g.WF → g.get (segs base ++ [str!"zarr.json"]) ≠ none →
      openOrCreate env base g = openHier env base g := by
    intro g hg hn
    have hs : (g.get (segs base ++ [str!"zarr.json"])).isSome = true := by
      cases h : g.get (segs base ++ [str!"zarr.json"]) with
      | none => exact absurd h hn
      | some n => rfl
    have hro : readEntryPointMetadata env base g = ((readEntryPointMetadata env base g).1, g) := rfl
    simp only [openOrCreate, hex g hg, hs, if_true, openHier, M.bind_apply]
    rw [hro]
    cases (readEntryPointMetadata env base g).1 <;> rfl
  refine ⟨fun h => openHier_iff hwf hb, ?_, ?_⟩
  · intro hn hw hv
    obtain ⟨fs', hc, hwf', hget⟩ := (createEntryPoint_spec (env := env) hwf hb hn).1 hw
    have ho : openOrCreate env base fs = (.ok ⟨base, EntryPointMetadata.default⟩, fs') := by
      have hv' : env.versionReq (lastPiece EntryPointMetadata.default.zarrFormat) = some true := compatible_iff.mp hv
      simp [openOrCreate, hex fs hwf, hn, hc, checkVersion, getVersion, hv']
    have hfile : fs'.get (segs base ++ [str!"zarr.json"])
        = some (.file (env.json.print EntryPointMetadata.default.toJson)) := by
      rw [hget]; simp [setSpec]
    have hopen : openHier env base fs' = (.ok ⟨base, EntryPointMetadata.default⟩, fs') := by
      have := (openHier_iff (env := env) hwf' hb (h := ⟨base, EntryPointMetadata.default⟩)).mpr
        ⟨_, _, Fs.content_eq_some.mpr hfile, hj.raw_print _ (entryDefault_canon _), entryDefault_doc,
          by simp [EntryPointMetadata.default], hv, rfl⟩
      exact Prod.ext this (openHier_ro env base fs')
    refine ⟨fs', ho, hopen, ?_, ?_⟩
    · rw [h3 fs' hwf' (by rw [hfile]; simp)]; exact hopen
    · intro l hl
      unfold Fs.content
      rw [hget, setSpec, if_neg hl]
      by_cases hc : l <+: segs base ++ [str!"zarr.json"] ∧ fs.get l = none
      · rw [if_pos hc, hc.2]
      · rw [if_neg hc]
  · intro hn
    refine ⟨h3 fs hwf hn, ?_⟩
    rw [h3 fs hwf hn]; exact openHier_ro env base fs

/-- The version requirement of the default entry point and a small table of others. -/
def Demo.envV : Env :=
  { Demo.envJ with
    versionReq := fun s =>
      if s = str!"3.0" then some true else if s = str!"2.0" then some false else none }

set_option maxRecDepth 20000 in
example : Demo.envV.versionReq (lastPiece EntryPointMetadata.default.zarrFormat) = some true ∧
    Demo.emptyFs.get (segs str!"/h" ++ [str!"zarr.json"]) = none ∧
    (openHier Demo.envV str!"/h" Demo.emptyFs).1 = .err .notFound ∧
    (openOrCreate Demo.envV str!"/h" Demo.emptyFs).1 = .ok Demo.hier ∧
    (openHier Demo.envV str!"/h" (openOrCreate Demo.envV str!"/h" Demo.emptyFs).2).1 = .ok Demo.hier ∧
    (openHier Demo.envV str!"/h" (Demo.entryFs { EntryPointMetadata.default with
      zarrFormat := str!"https://purl.org/zarr/spec/protocol/core/2.0" })).1 = .err .other := by
  decide +kernel

example : Writable Demo.emptyFs (segs str!"/h" ++ [str!"zarr.json"]) := by
  refine ⟨?_, by decide⟩
  intro l _ _ b h
  cases l <;> simp [Demo.emptyFs, Fs.get, Fs.lookup] at h

end Zarr
