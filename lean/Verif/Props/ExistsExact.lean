import Verif.Props.Nodes
/-!
# Exactly how calls on other nodes affect `exists`: C60
-/

namespace Zarr

open Spec

/-- **C60 (exact).** `exists` is true exactly if the node has a document or a file has the name of the
node among the documents. So for another node: its creation makes `exists` true exactly if its
document has the name of this node (or it was true), and its removal makes it false exactly if that
document was the only reason. -/
theorem C60_exact (env : Env) (h : Hier) (path q : Str) (fs : Fs) (hwf : fs.WF)
    (hb : Plain (segs h.base)) (hs : GoodSuffix h.entry)
    (hd : '.' ∉ stripDot h.entry.metadataKeySuffix) (hp : Plain (segs path)) (hq : Plain (segs q))
    (hne : segs q ≠ segs path) :
    ((nodeExists h path fs).1 = .ok true ↔ (arrayDoc h fs path).isSome ∨
      (groupDoc h fs path).isSome ∨ (fs.content (implicitLoc h path)).isSome) ∧
    (∀ m fs', createArray env h q m fs = (.ok (), fs') →
      ((nodeExists h path fs').1 = .ok true ↔ (nodeExists h path fs).1 = .ok true ∨
        implicitLoc h path = docLoc h str!"array" q)) ∧
    (∀ fs', createGroup env h q fs = (.ok (), fs') →
      ((nodeExists h path fs').1 = .ok true ↔ (nodeExists h path fs).1 = .ok true ∨
        implicitLoc h path = docLoc h str!"group" q)) ∧
    (∀ fs', remove h q fs = (.ok (), fs') →
      ((nodeExists h path fs').1 = .ok true ↔ (arrayDoc h fs path).isSome ∨
        (groupDoc h fs path).isSome ∨ ((fs.content (implicitLoc h path)).isSome ∧
          implicitLoc h path ≠ docLoc h str!"array" q ∧
          implicitLoc h path ≠ docLoc h str!"group" q))) := by
  have base : ∀ f : Fs, f.WF → ((nodeExists h path f).1 = .ok true ↔ (arrayDoc h f path).isSome ∨
      (groupDoc h f path).isSome ∨ (f.content (implicitLoc h path)).isSome) := by
    intro f hf
    rw [nodeExists_eq hf hb hs hd hp]
    simp [or_assoc]
  refine ⟨base fs hwf, ?_, ?_, ?_⟩
  · intro m fs' hc
    have hop : (NodeOp.createArray q m).NoDotDot := hq
    have hrun : (NodeOp.createArray q m).run env h fs = fs' := by simp [NodeOp.run, hc]
    obtain ⟨w, f⟩ := NodeOp.run_frame (env := env) hwf hb hs hop
    obtain ⟨h1, h2⟩ := NodeOp.run_docs (env := env) hwf hb hs hop hne
    rw [hrun] at w f h1 h2
    rw [base fs hwf, base fs' w, h1, h2]
    by_cases himp : implicitLoc h path = docLoc h str!"array" q
    · have : (fs'.content (docLoc h str!"array" q)).isSome := by
        have hg := hc
        rw [createArray_eq hwf hb hs hq] at hg
        split at hg
        · simp at hg
        · split at hg
          · simp at hg
          · have hget := storeGet_of_storeSet hg
            rw [storeGet_eq w (by rw [loc_arrayKey hs hq]; exact plain_docLoc hb hq (by simp)),
              loc_arrayKey hs hq] at hget
            have : fs'.content (docLoc h str!"array" q) = some (arrayMetadataText env m).1 := by
              simpa using hget
            rw [this]; rfl
      rw [himp]
      simp [this]
    · rw [f _ himp]
      simp [himp]
  · intro fs' hc
    have hop : (NodeOp.createGroup q).NoDotDot := hq
    have hrun : (NodeOp.createGroup q).run env h fs = fs' := by simp [NodeOp.run, hc]
    obtain ⟨w, f⟩ := NodeOp.run_frame (env := env) hwf hb hs hop
    obtain ⟨h1, h2⟩ := NodeOp.run_docs (env := env) hwf hb hs hop hne
    rw [hrun] at w f h1 h2
    rw [base fs hwf, base fs' w, h1, h2]
    by_cases himp : implicitLoc h path = docLoc h str!"group" q
    · have : (fs'.content (docLoc h str!"group" q)).isSome := by
        have hg := hc
        rw [createGroup_eq hwf hb hs hq] at hg
        split at hg
        · simp at hg
        · split at hg
          · rename_i hsome
            have : fs = fs' := by simpa using hg
            rw [← this]
            exact hsome
          · have hget := storeGet_of_storeSet hg
            rw [storeGet_eq w (by rw [loc_groupKey hs hq]; exact plain_docLoc hb hq (by simp)),
              loc_groupKey hs hq] at hget
            have : fs'.content (docLoc h str!"group" q)
                = some (env.json.print GroupMetadata.default.toJson) := by
              simpa using hget
            rw [this]; rfl
      rw [himp]
      simp [this]
    · rw [f _ himp]
      simp [himp]
  · intro fs' hc
    have hop : (NodeOp.remove q).NoDotDot := hq
    have hrun : (NodeOp.remove q).run env h fs = fs' := by simp [NodeOp.run, hc]
    obtain ⟨w, f⟩ := NodeOp.run_frame (env := env) hwf hb hs hop
    obtain ⟨h1, h2⟩ := NodeOp.run_docs (env := env) hwf hb hs hop hne
    obtain ⟨_, _, f3⟩ := remove_frame (h := h) (path := q) hwf hb hs hq
    rw [hrun] at w f h1 h2
    rw [hc] at f3
    obtain ⟨na, ng, _⟩ := f3 rfl
    rw [base fs' w, h1, h2]
    by_cases ha : implicitLoc h path = docLoc h str!"array" q
    · have : fs'.content (implicitLoc h path) = none := by rw [ha]; exact na
      rw [this]; simp [ha]
    · by_cases hg : implicitLoc h path = docLoc h str!"group" q
      · have : fs'.content (implicitLoc h path) = none := by rw [hg]; exact ng
        rw [this]; simp [hg]
      · rw [f]
        · simp [ha, hg]
        · refine fun h' => h'.elim ha (fun h' => h'.elim hg ?_)
          rintro ⟨r, hr⟩
          rw [dataLoc, List.append_assoc] at hr
          have := List.append_cancel_left hr
          simp [implicitLoc] at this

/-- Both directions of the effect: `x` is created and removed, and `exists("x.array.json")` follows. -/
example :
    let fs1 := (createArray Demo.envJ Demo.hier str!"x" Demo.arr Demo.treeFs).2
    (createArray Demo.envJ Demo.hier str!"x" Demo.arr Demo.treeFs).1 = .ok () ∧
    implicitLoc Demo.hier str!"x.array.json" = docLoc Demo.hier str!"array" str!"x" ∧
    (nodeExists Demo.hier str!"x.array.json" fs1).1 = .ok true ∧
    (remove Demo.hier str!"x" fs1).1 = .ok () ∧
    (nodeExists Demo.hier str!"x.array.json" (remove Demo.hier str!"x" fs1).2).1 = .ok false := by
  decide +kernel

end Zarr
