import Verif.Props.Nodes
import Verif.Props.Total
import Verif.Lemmas.CrashCalls
/-!
# Removing a whole hierarchy, and the attributes at a key: C90, C91
-/

namespace Zarr

open Spec

/-! ## C90 -/

/-- **C90, what holds.** `remove_all` succeeds exactly if no directory stands where the two documents of
the root node go. Then these documents and everything in the data directory of the hierarchy are gone, so
that no chunk of any array can be read, and everything else is as before: in particular the hierarchy can
still be opened. If only the root was a node, no node is left. Missing from the full property: the other
nodes, which all survive (`C90_violated_always`). -/
theorem C90_partial (env : Env) (h : Hier) (fs : Fs) (hwf : fs.WF) (hb : Plain (segs h.base))
    (hs : GoodSuffix h.entry) :
    let rootDoc (kind : Str) : Loc :=
      segs h.base ++ [str!"meta", str!"root." ++ kind ++ '.' :: stripDot h.entry.metadataKeySuffix]
    ((removeAll h fs).1 = .ok () ↔
      fs.get (rootDoc str!"group") ≠ some .dir ∧ fs.get (rootDoc str!"array") ≠ some .dir) ∧
    ((removeAll h fs).1 = .ok () →
      (∀ l, (removeAll h fs).2.get l =
        if l = rootDoc str!"group" ∨ l = rootDoc str!"array" ∨
          segs h.base ++ [str!"data", str!"root"] <+: l then none else fs.get l) ∧
      (∀ q m t pos, Plain (segs (chunkKey q m pos)) → m.inBounds pos = .ok true →
        (readChunk env h q m t pos (removeAll h fs).2).1 = .ok none) ∧
      ('.' ∉ stripDot h.entry.metadataKeySuffix →
        (∀ q, Plain (segs q) → segs q ≠ [] → arrayDoc h fs q = none ∧ groupDoc h fs q = none) →
        (∀ q, Plain (segs q) → fs.content (implicitLoc h q) = none) →
        ∀ q, Plain (segs q) → (nodeExists h q (removeAll h fs).2).1 = .ok false)) := by
  have hp : Plain (segs ([] : Str)) := by simp [Plain]
  have ht := remove_ok_iff (h := h) (fs := fs) hwf hb hs hp
  have eg : docLoc h str!"group" [] = segs h.base ++
      [str!"meta", str!"root." ++ str!"group" ++ '.' :: stripDot h.entry.metadataKeySuffix] := by
    simp [docLoc, appendName, stripDot_eq]
  have ea : docLoc h str!"array" [] = segs h.base ++
      [str!"meta", str!"root." ++ str!"array" ++ '.' :: stripDot h.entry.metadataKeySuffix] := by
    simp [docLoc, appendName, stripDot_eq]
  have ed : dataLoc h [] = segs h.base ++ [str!"data", str!"root"] := by simp [dataLoc]
  refine ⟨?_, fun hr => ?_⟩
  · rw [removeAll, ht, eg, ea]
  · have hr' : (remove h [] fs).1 = .ok () := hr
    obtain ⟨g1, g2⟩ := ht.mp hr'
    obtain ⟨fs', e, w, hget⟩ := remove_spec hwf hb hs hp g1 g2
    have c38 := C38_partial env h [] fs hwf hb hs hp hr'
    rw [removeAll, e] at *
    refine ⟨?_, ?_, ?_⟩
    · intro l
      have := hget l
      rw [eg, ea, ed] at this
      exact this
    · intro q m t pos hq hin
      exact c38.2.2.2.2.2 q m t pos (by simp) hq hin
    · intro hd hdocs himp q hq
      have hc : ∀ l, fs.content l = none → fs'.content l = none := by
        intro l hl
        rw [Fs.content] at hl ⊢
        rw [hget l]
        by_cases hx : l = docLoc h str!"group" [] ∨ l = docLoc h str!"array" [] ∨ dataLoc h [] <+: l
        · rw [if_pos hx]
        · rw [if_neg hx]; exact hl
      rw [nodeExists_eq w hb hs hd hq]
      have h3 := hc _ (himp q hq)
      by_cases h0 : segs q = []
      · have a1 : arrayDoc h fs' q = none := by
          have : docLoc h str!"array" q = docLoc h str!"array" [] := by simp [docLoc, h0]
          rw [arrayDoc, this]; exact c38.1
        have a2 : groupDoc h fs' q = none := by
          have : docLoc h str!"group" q = docLoc h str!"group" [] := by simp [docLoc, h0]
          rw [groupDoc, this]; exact c38.2.1
        simp [a1, a2, h3]
      · obtain ⟨d1, d2⟩ := hdocs q hq h0
        have a1 : arrayDoc h fs' q = none := hc _ d1
        have a2 : groupDoc h fs' q = none := hc _ d2
        simp [a1, a2, h3]

/-- **C90, what fails.** However `remove_all` ends, every node but the root is still there: its metadata
and attributes are read as before. -/
theorem C90_violated_always (env : Env) (h : Hier) (fs : Fs) (hwf : fs.WF) (hb : Plain (segs h.base))
    (hs : GoodSuffix h.entry) (q : Str) (hq : Plain (segs q)) (h0 : segs q ≠ []) :
    (getArrayMetadata env h q (removeAll h fs).2).1 = (getArrayMetadata env h q fs).1 ∧
    (listAttributes env h q (removeAll h fs).2).1 = (listAttributes env h q fs).1 := by
  obtain ⟨_, _, h3, h4⟩ := (C39_partial env h [] q fs hwf hb hs (by simp [Plain]) hq).1
    (fun he => h0 (by rw [← he]; rfl))
  exact ⟨h3, h4⟩

set_option maxRecDepth 20000 in
/-- **C90, what fails:** after `remove_all` the array `a` is there, without its chunk. -/
theorem C90_violated :
    (removeAll Demo.hier Demo.treeFs).1 = .ok () ∧
    (nodeExists Demo.hier str!"a" (removeAll Demo.hier Demo.treeFs).2).1 = .ok true ∧
    (getArrayMetadata Demo.envJ Demo.hier str!"a" (removeAll Demo.hier Demo.treeFs).2).1 = .ok Demo.arr ∧
    (readChunk Demo.envJ Demo.hier str!"a" Demo.arr .u16 [1] Demo.treeFs).1 = .ok (some Demo.chunk) ∧
    (readChunk Demo.envJ Demo.hier str!"a" Demo.arr .u16 [1] (removeAll Demo.hier Demo.treeFs).2).1
      = .ok none := by decide +kernel

/-! ## C91 -/

/-- `set_extension("")` on a path of several components whose last one has an extension. -/
theorem segs_setExtension_nil {p : Str} {L : Loc} {n e : Str} (hs : segs p = L ++ [n ++ '.' :: e])
    (hL : L ≠ []) (h0 : n ≠ []) (h1 : n ≠ str!".") (he : '.' ∉ e) :
    segs (setExtension p []) = L ++ [n] := by
  have hlen : 2 ≤ (segs p).length := by
    have := List.length_pos_iff.mpr hL
    rw [hs]; simp; omega
  obtain ⟨d, m, hsl, hm1, hm2, hm3, hseg, hfn⟩ := splitLast_spec' (.inr hlen) (by rw [hs]; simp)
  rw [hs] at hseg
  obtain ⟨hd, hm⟩ := List.append_inj' hseg rfl
  have hm : n ++ '.' :: e = m := by simpa using hm
  subst hm
  have hdd : n ++ '.' :: e ≠ str!".." := by
    intro hdd
    cases n with
    | nil => exact h0 rfl
    | cons a as =>
      cases as with
      | nil => simp at hdd; exact h1 (by rw [hdd.1])
      | cons b bs => cases bs <;> simp at hdd
  rw [if_neg hdd] at hfn
  unfold setExtension
  rw [hfn, hsl]
  simp only [stemExt_append n e h0 he, List.isEmpty_nil, if_true, List.append_nil, List.append_assoc,
    List.singleton_append]
  rw [segs_append_sep, segs_single n (fun h => hm1 (by simp [h])) h0 h1, hd]

/-- The path of a document without its two extensions. -/
theorem segs_strip_docLoc {h : Hier} {kind path p : Str}
    (hk0 : '.' ∉ kind) (hd : '.' ∉ stripDot h.entry.metadataKeySuffix) (hs : segs p = docLoc h kind path) :
    segs (setExtension (setExtension p []) []) = implicitLoc h path := by
  obtain ⟨L, n, hLn⟩ : ∃ L n, [str!"meta", str!"root"] ++ segs path = L ++ [n] :=
    ⟨_, _, (List.dropLast_concat_getLast (l := [str!"meta", str!"root"] ++ segs path) (by simp)).symm⟩
  have hL : L ≠ [] := by
    intro h0
    have := congrArg List.length hLn
    simp [h0] at this
  have hn : n ≠ [] ∧ n ≠ str!"." := by
    have : n ∈ [str!"meta", str!"root"] ++ segs path := by rw [hLn]; simp
    rcases List.mem_append.mp this with h' | h'
    · simp only [List.mem_cons, List.not_mem_nil, or_false] at h'
      rcases h' with rfl | rfl <;> decide
    · exact ⟨(mem_segs h').2.1, (mem_segs h').2.2⟩
  have e1 : docLoc h kind path = (segs h.base ++ L) ++
      [(n ++ '.' :: kind) ++ '.' :: stripDot h.entry.metadataKeySuffix] := by
    unfold docLoc appendName
    rw [hLn]
    simp [stripDot_eq]
  rw [e1] at hs
  have s1 := segs_setExtension_nil hs (by simp [hL]) (by simp) (by cases n <;> simp_all) hd
  have s2 := segs_setExtension_nil s1 (by simp [hL]) hn.1 hn.2 hk0
  rw [s2, implicitLoc, hLn, List.append_assoc]

/-- **C91, what holds.** `get_attributes` at the key of an array or group document, of any node: if the
document is there, the result is the JSON value of the whole document, or an error if it is not JSON; the
call changes nothing. Otherwise it is an empty object if a *file* has the name of the node's directory, and
`NotFound` in all other cases. Missing from the full property: implicit groups, for which it fails
(`C91_violated_always`). -/
theorem C91_partial (env : Env) (h : Hier) (path : Str) (fs : Fs) (hwf : fs.WF) (hb : Plain (segs h.base))
    (hs : GoodSuffix h.entry) (hd : '.' ∉ stripDot h.entry.metadataKeySuffix) (hp : Plain (segs path))
    (kind : Str) (key : Str)
    (hk : (kind = str!"array" ∧ key = arrayMetadataKey h.entry path) ∨
      (kind = str!"group" ∧ key = groupMetadataKey h.entry path)) :
    getAttributesRaw env h key fs =
      (match fs.content (docLoc h kind path) with
        | some b => match env.json.parse b with
          | some j => .ok j
          | none => .err .json
        | none => if (fs.content (implicitLoc h path)).isSome then .ok (.obj []) else .err .notFound, fs) := by
  have hloc : h.loc key = docLoc h kind path := by
    rcases hk with ⟨rfl, rfl⟩ | ⟨rfl, rfl⟩
    · exact loc_arrayKey hs hp
    · exact loc_groupKey hs hp
  have hk0 : '.' ∉ kind ∧ kind ≠ [] := by rcases hk with ⟨rfl, rfl⟩ | ⟨rfl, rfl⟩ <;> decide
  have hpl : Plain (h.loc key) := by rw [hloc]; exact plain_docLoc hb hp hk0.2
  obtain ⟨t, ht, hst⟩ := getPath_loc hpl
  rw [hloc] at hst
  have himp := segs_strip_docLoc hk0.1 hd hst
  have hpi : Plain (implicitLoc h path) := hb.append (Plain.append (by decide) hp)
  have hpd : Plain (docLoc h kind path) := by rw [← hloc]; exact hpl
  simp only [getAttributesRaw, M.read_apply, ht, Outcome.bind_ok, hst, himp, Fs.isFile_eq hwf hpd,
    Fs.isFile_eq hwf hpi]
  cases hc : fs.content (docLoc h kind path) with
  | none =>
    simp only [Option.isSome_none, Bool.false_eq_true, if_false]
    split <;> rfl
  | some b =>
    have hread : fs.readFile (docLoc h kind path) = .ok b :=
      Fs.readFile_of_get hwf hpd (Fs.content_eq_some.mp hc)
    simp only [Option.isSome_some, if_true, hread, Outcome.bind_ok]
    cases env.json.parse b <;> rfl

/-- **C91, what fails.** For every implicit group, that is a directory below `meta/root` without
documents, `get_attributes` returns `NotFound`, though the code means to return an empty object. -/
theorem C91_violated_always (env : Env) (h : Hier) (path : Str) (fs : Fs) (hwf : fs.WF)
    (hb : Plain (segs h.base)) (hs : GoodSuffix h.entry) (hd : '.' ∉ stripDot h.entry.metadataKeySuffix)
    (hp : Plain (segs path)) (hdir : fs.get (implicitLoc h path) = some .dir)
    (hg : groupDoc h fs path = none) :
    getAttributesRaw env h (groupMetadataKey h.entry path) fs = (.err .notFound, fs) := by
  rw [C91_partial env h path fs hwf hb hs hd hp str!"group" _ (.inr ⟨rfl, rfl⟩)]
  rw [groupDoc] at hg
  rw [hg]
  simp [Fs.content, hdir]

/-! ## Concrete cases -/

set_option maxRecDepth 20000 in
/-- **C91, what fails:** the implicit group above a new array has no attributes, the array has. -/
theorem C91_violated :
    let fs := (createArray Demo.envJ Demo.hier str!"g/a" Demo.arr Demo.emptyFs).2
    fs.get (implicitLoc Demo.hier str!"g") = some .dir ∧
    (getAttributesRaw Demo.envJ Demo.hier (groupMetadataKey Demo.hier.entry str!"g") fs).1 = .err .notFound ∧
    (getAttributesRaw Demo.envJ Demo.hier (arrayMetadataKey Demo.hier.entry str!"g/a") fs).1
      = Demo.arr.toJson := by decide +kernel

example : '.' ∉ stripDot Demo.hier.entry.metadataKeySuffix ∧ Plain (segs Demo.hier.base) ∧
    GoodSuffix Demo.hier.entry := ⟨by decide, by unfold Plain; decide, by unfold GoodSuffix; decide⟩

end Zarr
