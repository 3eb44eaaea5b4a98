import Verif.Props.CallsNd
import Verif.Lemmas.Confine
/-!
# C120: the spelling of a path does not matter
-/

namespace Zarr

namespace Spec

/-- The path can be rewritten to the other one by adding and removing slashes next to a slash or at
an end, and pieces that are a single dot. -/
inductive Respelled : Str → Str → Prop
  | lead (b) : Respelled ('/' :: b) b
  | trail (a) : Respelled (a ++ str!"/") a
  | slash (a b) : Respelled (a ++ str!"//" ++ b) (a ++ str!"/" ++ b)
  | leadDot (b) : Respelled (str!"./" ++ b) b
  | trailDot (a) : Respelled (a ++ str!"/.") a
  | dot (a b) : Respelled (a ++ str!"/./" ++ b) (a ++ str!"/" ++ b)
  | only : Respelled str!"." []
  | refl (a) : Respelled a a
  | symm {a b} : Respelled a b → Respelled b a
  | trans {a b c} : Respelled a b → Respelled b c → Respelled a c

end Spec

open Spec

/-! ## Respelled paths have the same names -/

theorem Spec.Respelled.under {x y : Str} (h : Respelled x y) (a : Str) :
    Respelled (a ++ '/' :: x) (a ++ '/' :: y) := by
  induction h with
  | lead b => simpa using Respelled.slash a b
  | trail b => simpa using Respelled.trail (a ++ '/' :: b)
  | slash b c => simpa using Respelled.slash (a ++ '/' :: b) c
  | leadDot b => simpa using Respelled.dot a b
  | trailDot b => simpa using Respelled.trailDot (a ++ '/' :: b)
  | dot b c => simpa using Respelled.dot (a ++ '/' :: b) c
  | only => exact .trans (by simpa using Respelled.trailDot a) (.symm (by simpa using Respelled.trail a))
  | refl => exact .refl _
  | symm _ ih => exact ih.symm
  | trans _ _ i1 i2 => exact i1.trans i2

theorem segs_dot : segs str!"." = [] := by decide

theorem Spec.Respelled.segs {x y : Str} (h : Respelled x y) : segs x = segs y := by
  induction h with
  | lead b => simp
  | trail a => simp
  | slash a b =>
    have e1 : a ++ str!"//" ++ b = a ++ '/' :: ('/' :: b) := by simp
    have e2 : a ++ str!"/" ++ b = a ++ '/' :: b := by simp
    rw [e1, e2, segs_append_sep, segs_append_sep, segs_slash_cons]
  | leadDot b =>
    have e : str!"./" ++ b = str!"." ++ '/' :: b := by simp
    rw [e, segs_append_sep, segs_dot]; rfl
  | trailDot a =>
    have e : a ++ str!"/." = a ++ '/' :: str!"." := by simp
    rw [e, segs_append_sep, segs_dot]; simp
  | dot a b =>
    have e1 : a ++ str!"/./" ++ b = a ++ '/' :: (str!"." ++ '/' :: b) := by simp
    have e2 : a ++ str!"/" ++ b = a ++ '/' :: b := by simp
    rw [e1, e2, segs_append_sep, segs_append_sep, segs_append_sep, segs_dot]; rfl
  | only => exact segs_dot
  | refl => rfl
  | symm _ ih => exact ih.symm
  | trans _ _ i1 i2 => exact i1.trans i2

/-- The names with slashes between them. -/
def slashed : List Str → Str
  | [] => []
  | [a] => a
  | a :: b :: r => a ++ '/' :: slashed (b :: r)

theorem slashed_cons {a : Str} {l : List Str} (h : l ≠ []) : slashed (a :: l) = a ++ '/' :: slashed l := by
  cases l with
  | nil => exact absurd rfl h
  | cons b r => rfl

theorem slashed_splitOn (p : Str) : slashed (splitOn '/' p) = p := by
  induction p with
  | nil => rfl
  | cons x xs ih =>
    unfold splitOn
    split
    · rename_i hx
      simp at hx
      rw [slashed_cons (splitOn_ne_nil _ _), ih, hx]; rfl
    · split
      · rename_i hn; exact absurd hn (splitOn_ne_nil _ _)
      · rename_i q qs hq
        rw [hq] at ih
        cases qs with
        | nil => simp only [slashed] at ih ⊢; rw [ih]
        | cons r rs => simp only [slashed, List.cons_append] at ih ⊢; rw [ih]

theorem respelled_filter (l : List Str) :
    Respelled (slashed l) (slashed (l.filter (fun s => s ≠ [] ∧ s ≠ str!"."))) := by
  induction l with
  | nil => exact .refl _
  | cons a l ih =>
    have key : Respelled (slashed (a :: l)) (slashed (a :: l.filter (fun s => s ≠ [] ∧ s ≠ str!"."))) := by
      cases l with
      | nil => exact .refl _
      | cons b r =>
        rw [slashed_cons (by simp)]
        by_cases hf : (b :: r).filter (fun s => s ≠ [] ∧ s ≠ str!".") = []
        · rw [hf] at ih ⊢
          exact (ih.under a).trans (by simpa [slashed] using Respelled.trail a)
        · rw [slashed_cons hf]
          exact ih.under a
    by_cases ha : a ≠ [] ∧ a ≠ str!"."
    · rw [List.filter_cons_of_pos (by simpa using ha)]
      exact key
    · rw [List.filter_cons_of_neg (by simpa using ha)]
      refine key.trans ?_
      have ha' : a = [] ∨ a = str!"." := by
        by_cases h0 : a = []
        · exact .inl h0
        · exact .inr (Classical.byContradiction fun h1 => ha ⟨h0, h1⟩)
      generalize l.filter (fun s => s ≠ [] ∧ s ≠ str!".") = f
      cases f with
      | nil =>
        rcases ha' with rfl | rfl
        · exact .refl _
        · exact .only
      | cons b r =>
        rw [slashed_cons (by simp)]
        rcases ha' with rfl | rfl
        · exact .lead _
        · simpa using Respelled.leadDot (slashed (b :: r))

/-- The names of a path are what respelling leaves alone: two paths have the same names exactly if
each can be respelled to the other. -/
theorem respelled_iff (p q : Str) : Respelled p q ↔ segs p = segs q := by
  refine ⟨Respelled.segs, fun h => ?_⟩
  have e : ∀ p, Respelled p (slashed (segs p)) := fun p => by
    have := respelled_filter (splitOn '/' p)
    rwa [slashed_splitOn] at this
  exact (e p).trans (h ▸ (e q).symm)

/-! ## Keys of respelled paths -/

/-- Two keys that start with a slash and have the same names. -/
def SameKey (k k' : Str) : Prop := (∃ q, k = '/' :: q) ∧ (∃ q, k' = '/' :: q) ∧ segs k = segs k'

theorem stripTailRev_rooted {r : Str} (hr : r = [] ∨ r.getLast? = some '/') (hs : segs r.reverse = []) :
    stripTailRev r = [] := by
  fun_induction stripTailRev r with
  | case1 r ih =>
    refine ih ?_ (by simpa using hs)
    rcases hr with h | h
    · cases h
    · cases r with
      | nil => exact .inl rfl
      | cons a r => exact .inr (by simpa using h)
  | case2 r ih =>
    refine ih ?_ ?_
    · rcases hr with h | h
      · cases h
      · cases r with
        | nil => exact .inl rfl
        | cons a r => exact .inr (by simpa using h)
    · have e : ('.' :: '/' :: r).reverse = r.reverse ++ '/' :: str!"." := by simp
      rw [e, segs_append_sep, segs_dot] at hs
      simpa using hs
  | case3 r h1 h2 =>
    rcases hr with h | h
    · exact h
    · exfalso
      have hd := List.takeWhile_append_dropWhile (p := fun x : Char => decide (x ≠ '/')) (l := r)
      cases hdr : r.dropWhile (fun x : Char => decide (x ≠ '/')) with
      | nil =>
        rw [hdr, List.append_nil] at hd
        have hm : '/' ∈ r := List.mem_of_getLast? h
        rw [← hd] at hm
        simpa using mem_takeWhile_pos hm
      | cons x b =>
        have hx : x = '/' := by
          have := List.head?_dropWhile_not (p := fun x : Char => decide (x ≠ '/')) r
          rw [hdr] at this
          simpa using this
        rw [hdr, hx] at hd
        generalize ht : r.takeWhile (fun x : Char => decide (x ≠ '/')) = a at hd
        have ha : '/' ∉ a := by
          intro hm
          rw [← ht] at hm
          simpa using mem_takeWhile_pos hm
        rw [← hd] at hs
        have e : (a ++ '/' :: b).reverse = b.reverse ++ '/' :: a.reverse := by simp
        rw [e, segs_append_sep, List.append_eq_nil_iff] at hs
        have h3 := hs.2
        have : a.reverse = [] ∨ a.reverse = str!"." := by
          by_cases h0 : a.reverse = []
          · exact .inl h0
          · by_cases h1 : a.reverse = str!"."
            · exact .inr h1
            · rw [segs_single _ (by simpa using ha) h0 h1] at h3
              cases h3
        rcases this with h4 | h4
        · have : a = [] := by simpa using h4
          subst this
          exact h1 b hd.symm
        · have : a = ['.'] := by
            have := congrArg List.reverse h4
            simpa using this
          subst this
          exact h2 b hd.symm

theorem fileName_root {p : Str} (h0 : ∃ q, p = '/' :: q) (hs : segs p = []) : fileName p = none := by
  obtain ⟨q, rfl⟩ := h0
  have : stripTailRev ('/' :: q).reverse = [] :=
    stripTailRev_rooted (.inr (by simp)) (by simpa using hs)
  simp only [fileName, splitLast, this]; rfl

theorem SameKey.extension {k k' : Str} (h : SameKey k k') : extension k = extension k' := by
  obtain ⟨h1, h2, hs⟩ := h
  by_cases hn : segs k = []
  · simp only [Zarr.extension, fileName_root h1 hn, fileName_root h2 (hs ▸ hn)]
  · obtain ⟨d, n, _, _, _, _, e1, f1⟩ := splitLast_spec h1 hn
    obtain ⟨d', n', _, _, _, _, e2, f2⟩ := splitLast_spec h2 (hs ▸ hn)
    have := List.append_inj' (e1.symm.trans (hs.trans e2)) rfl
    have hn : n = n' := by simpa using this.2
    simp only [Zarr.extension, f1, f2, hn]

theorem SameKey.setExtension {k k' : Str} (h : SameKey k k') (e : Str) :
    SameKey (setExtension k e) (setExtension k' e) := by
  obtain ⟨h1, h2, hs⟩ := h
  by_cases hn : segs k = []
  · simp only [Zarr.setExtension, fileName_root h1 hn, fileName_root h2 (hs ▸ hn)]
    exact ⟨h1, h2, hs⟩
  · obtain ⟨d, n, s1, _, _, _, e1, f1⟩ := splitLast_spec h1 hn
    obtain ⟨d', n', s2, _, _, _, e2, f2⟩ := splitLast_spec h2 (hs ▸ hn)
    have hi := List.append_inj' (e1.symm.trans (hs.trans e2)) rfl
    have hn : n = n' := by simpa using hi.2
    subst hn
    simp only [Zarr.setExtension, f1, f2]
    split
    · exact ⟨h1, h2, hs⟩
    · rename_i m hm
      have root : ∀ {p d : Str}, (∃ q, p = '/' :: q) → splitLast p = (d ++ ['/'], n) → ∀ x,
          ∃ q, (splitLast p).1 ++ x = '/' :: q := by
        intro p d ⟨q, hq⟩ hs x
        have ha := splitLast_append p
        rw [hs] at ha ⊢
        cases d with
        | nil => exact ⟨x, rfl⟩
        | cons c d =>
          have hc : c = '/' := by
            have hsp : stripTail p = p ∨ stripTail p <+: p := .inr ?_
            · rcases hsp with h | h
              · rw [h, hq] at ha; simp at ha; exact ha.1
              · rw [← ha, hq] at h
                obtain ⟨t, ht⟩ := h
                simp at ht; exact ht.1
            · exact stripTail_prefix p
          exact ⟨_, by rw [hc]; rfl⟩
      refine ⟨?_, ?_, ?_⟩
      · rw [List.append_assoc]; exact root h1 s1 _
      · rw [List.append_assoc]; exact root h2 s2 _
      · rw [s1, s2]
        simp only [List.append_assoc, List.cons_append, List.nil_append, segs_append_sep, hi.1]

theorem SameKey.addExtension {k k' : Str} (h : SameKey k k') (e : Str) :
    SameKey (addExtension k e) (addExtension k' e) := by
  simp only [Zarr.addExtension, h.extension]
  split <;> exact h.setExtension _

theorem sameKey_join {r p q : Str} (h0 : ∃ x, r = '/' :: x) (h : segs p = segs q) :
    SameKey (joinPath r (canonicalizePath p)) (joinPath r (canonicalizePath q)) :=
  ⟨joinPath_root _ _ (rel_canonicalizePath p) h0, joinPath_root _ _ (rel_canonicalizePath q) h0, by
    rw [segs_joinPath _ _ (rel_canonicalizePath p), segs_joinPath _ _ (rel_canonicalizePath q),
      segs_canonicalizePath, segs_canonicalizePath, h]⟩

theorem sameKey_array {p q : Str} (h : segs p = segs q) (e : EntryPointMetadata) :
    SameKey (arrayMetadataKey e p) (arrayMetadataKey e q) :=
  ((sameKey_join ⟨_, rfl⟩ h).addExtension _).addExtension _

theorem sameKey_group {p q : Str} (h : segs p = segs q) (e : EntryPointMetadata) :
    SameKey (groupMetadataKey e p) (groupMetadataKey e q) :=
  ((sameKey_join ⟨_, rfl⟩ h).addExtension _).addExtension _

/-! ## The store looks at the names of a key only -/

section

variable {h : Hier} {k k' : Str}

theorem getPath_spelt (hs : segs k = segs k') :
    (∃ e, getPath h.base k = .err e ∧ getPath h.base k' = .err e) ∨
    (∃ t t', getPath h.base k = .ok t ∧ getPath h.base k' = .ok t' ∧ segs t = segs t') := by
  rw [getPath_eq, getPath_eq, hs]
  split
  · exact .inl ⟨_, rfl, rfl⟩
  · exact .inr ⟨_, _, rfl, rfl, by rw [segs_joinPath_unroot, segs_joinPath_unroot, hs]⟩

theorem storeExists_spelt (hs : segs k = segs k') : storeExists h k = storeExists h k' := by
  funext fs
  rcases getPath_spelt (h := h) hs with ⟨e, h1, h2⟩ | ⟨t, t', h1, h2, h3⟩
  · simp only [storeExists, M.read, h1, h2]
  · simp only [storeExists, M.read, h1, h2, Outcome.bind_ok, h3]

theorem storeGet_spelt (hs : segs k = segs k') : storeGet h k = storeGet h k' := by
  funext fs
  rcases getPath_spelt (h := h) hs with ⟨e, h1, h2⟩ | ⟨t, t', h1, h2, h3⟩
  · simp only [storeGet, M.read, h1, h2]
  · simp only [storeGet, M.read, h1, h2, Outcome.bind_ok, h3]

theorem storeSet_spelt (hs : segs k = segs k') (v : Bytes × Outcome Unit) : storeSet h k v = storeSet h k' v := by
  funext fs
  rcases getPath_spelt (h := h) hs with ⟨e, h1, h2⟩ | ⟨t, t', h1, h2, h3⟩
  · simp only [storeSet, h1, h2]
  · simp only [storeSet, h1, h2, h3]

theorem storeErase_spelt (hs : segs k = segs k') : storeErase h k = storeErase h k' := by
  funext fs
  rcases getPath_spelt (h := h) hs with ⟨e, h1, h2⟩ | ⟨t, t', h1, h2, h3⟩
  · simp only [storeErase, h1, h2]
  · simp only [storeErase, h1, h2, h3]

theorem storeErasePrefix_spelt (hs : segs k = segs k') : storeErasePrefix h k = storeErasePrefix h k' := by
  funext fs
  rcases getPath_spelt (h := h) hs with ⟨e, h1, h2⟩ | ⟨t, t', h1, h2, h3⟩
  · simp only [storeErasePrefix, h1, h2]
  · simp only [storeErasePrefix, h1, h2, h3]

end

theorem nodeMetadataKey_spelt {h : Hier} {p q : Str} (hs : segs p = segs q) {α : Type} (f : Str → M Fs α)
    (hf : ∀ k k', segs k = segs k' → f k = f k') :
    (nodeMetadataKey h p >>= f) = (nodeMetadataKey h q >>= f) := by
  funext fs
  have e1 := storeExists_spelt (h := h) (sameKey_array hs h.entry).2.2
  have e2 := storeExists_spelt (h := h) (sameKey_group hs h.entry).2.2
  have f1 := hf _ _ (sameKey_array hs h.entry).2.2
  have f2 := hf _ _ (sameKey_group hs h.entry).2.2
  simp only [nodeMetadataKey, M.bind_apply, e1, e2]
  rcases storeExists h (arrayMetadataKey h.entry q) fs with ⟨_ | _ | _, fs1⟩ <;> try rfl
  rename_i b
  cases b with
  | true => simp only [if_true, M.pure_apply, f1]
  | false =>
    simp only [Bool.false_eq_true, if_false, M.bind_apply]
    rcases storeExists h (groupMetadataKey h.entry q) fs1 with ⟨_ | _ | _, fs2⟩ <;> try rfl
    rename_i b
    cases b with
    | true => simp only [if_true, M.pure_apply, f2]
    | false => rfl

/-! ## C120 -/

/-- **C120, all calls but `list_nodes`.** Whatever the hierarchy, the paths and the state, calls on two
spellings of a path have the same result and the same effect. The URIs of a chunk are the
spelling's own; they name the same file. Respelled paths are exactly the paths with the same names. -/
theorem C120_partial (env : Env) (h : Hier) {p q : Str} (hr : Respelled p q) :
    getArrayMetadata env h p = getArrayMetadata env h q ∧
    nodeExists h p = nodeExists h q ∧
    arrayExists env h p = arrayExists env h q ∧
    listAttributes env h p = listAttributes env h q ∧
    (∀ attrs, setAttributes env h p attrs = setAttributes env h q attrs) ∧
    (∀ k v, setAttribute env h p k v = setAttribute env h q k v) ∧
    createGroup env h p = createGroup env h q ∧
    (∀ m, createArray env h p m = createArray env h q m) ∧
    remove h p = remove h q ∧
    (∀ m t pos, readChunk env h p m t pos = readChunk env h q m t pos) ∧
    (∀ m t pos buf, readChunkInto env h p m t pos buf = readChunkInto env h q m t pos buf) ∧
    (∀ m t (c : DataChunk t), writeChunk env h p m c = writeChunk env h q m c) ∧
    (∀ m pos, deleteChunk h p m pos = deleteChunk h q m pos) ∧
    (∀ m t bbox, readNdarray env h p m t bbox = readNdarray env h q m t bbox) ∧
    (∀ m t bbox arr, readNdarrayInto env h p m t bbox arr = readNdarrayInto env h q m t bbox arr) ∧
    (∀ m t bbox arr buf, readNdarrayIntoWithBuffer env h p m t bbox arr buf
      = readNdarrayIntoWithBuffer env h q m t bbox arr buf) ∧
    (∀ m t offset (array : NdArr (El t)),
      writeNdarray env h p m offset array = writeNdarray env h q m offset array) ∧
    (∀ m pos fs, (∃ e, (getChunkUri h p m pos fs).1 = .err e ∧ (getChunkUri h q m pos fs).1 = .err e) ∨
      ∃ t t', (getChunkUri h p m pos fs).1 = .ok (str!"file://" ++ t) ∧
        (getChunkUri h q m pos fs).1 = .ok (str!"file://" ++ t') ∧ Respelled t t') := by
  have hs := hr.segs
  have ka := (sameKey_array hs h.entry)
  have kg := (sameKey_group hs h.entry)
  have kd : segs (dataPathKey p) = segs (dataPathKey q) := by rw [segs_dataPathKey, segs_dataPathKey, hs]
  have kc : ∀ m pos, segs (chunkKey p m pos) = segs (chunkKey q m pos) := fun m pos => by
    rw [segs_chunkKey, segs_chunkKey, hs]
  have e1 : getArrayMetadata env h p = getArrayMetadata env h q := by
    simp only [getArrayMetadata, storeGet_spelt ka.2.2]
  have e2 : nodeExists h p = nodeExists h q := by
    simp only [nodeExists, storeExists_spelt ka.2.2, storeExists_spelt kg.2.2,
      storeExists_spelt ((kg.setExtension []).setExtension []).2.2]
  have e4 : ∀ attrs, setAttributes env h p attrs = setAttributes env h q attrs := fun attrs => by
    refine nodeMetadataKey_spelt hs _ fun k k' hk => ?_
    simp only [storeGet_spelt hk, storeSet_spelt hk]
  have r1 : ∀ m t pos, readChunk env h p m t pos = readChunk env h q m t pos := fun m t pos => by
    simp only [readChunk, storeGet_spelt (kc m pos)]
  have r2 : ∀ m t pos buf, readChunkInto env h p m t pos buf = readChunkInto env h q m t pos buf :=
    fun m t pos buf => by simp only [readChunkInto, storeGet_spelt (kc m pos)]
  have w : ∀ m t (c : DataChunk t), writeChunk env h p m c = writeChunk env h q m c :=
    fun m t c => storeSet_spelt (kc m _) _
  have n1 : ∀ m t bbox arr buf, readNdarrayIntoWithBuffer env h p m t bbox arr buf
      = readNdarrayIntoWithBuffer env h q m t bbox arr buf := fun m t bbox arr buf => by
    simp only [readNdarrayIntoWithBuffer, readLoop_path (r1 m t) (r2 m t)]
  have n2 : ∀ m t bbox arr, readNdarrayInto env h p m t bbox arr = readNdarrayInto env h q m t bbox arr :=
    fun m t bbox arr => by simp only [readNdarrayInto, n1]
  refine ⟨e1, e2, by simp only [arrayExists, e2, e1], ?_, e4, fun k v => e4 _, ?_, ?_, ?_, r1, r2, w, ?_,
    fun m t bbox => by simp only [readNdarray, n2], n2, n1, ?_, ?_⟩
  · exact nodeMetadataKey_spelt hs _ fun k k' hk => by simp only [storeGet_spelt hk]
  · simp only [createGroup, storeExists_spelt ka.2.2, storeExists_spelt kg.2.2, storeSet_spelt kg.2.2]
  · intro m
    simp only [createArray, storeExists_spelt ka.2.2, storeExists_spelt kg.2.2, storeSet_spelt ka.2.2]
  · simp only [remove, storeErase_spelt ka.2.2, storeErase_spelt kg.2.2, storeErasePrefix_spelt kd]
  · exact fun m pos => storeErase_spelt (kc m pos)
  · intro m t offset array
    simp only [writeNdarray, writeLoop_path (r2 m t) (w m t)]
  · intro m pos fs
    rcases getPath_spelt (h := h) (kc m pos) with ⟨e, h1, h2⟩ | ⟨t, t', h1, h2, h3⟩
    · exact .inl ⟨e, by simp only [getChunkUri, storeUri, M.read, h1]; rfl,
        by simp only [getChunkUri, storeUri, M.read, h2]; rfl⟩
    · exact .inr ⟨t, t', by simp only [getChunkUri, storeUri, M.read, h1]; rfl,
        by simp only [getChunkUri, storeUri, M.read, h2]; rfl, (respelled_iff t t').mpr h3⟩

/-- **C120, the names.** Two paths that cannot be respelled to each other have different names, and
the other way round. -/
theorem C120_names (p q : Str) : Respelled p q ↔ segs p = segs q := respelled_iff p q

/-- `./a//b/.` is a spelling of `/a/b/`; what is written under one is read under the other. -/
example : Respelled str!"./a//b/." Demo.path ∧ str!"./a//b/." ≠ Demo.path ∧
    ((readNdarray Demo.env Demo.hier str!"./a//b/." Demo.arr .u16 ⟨[1], [3]⟩
      (writeNdarray Demo.env Demo.hier Demo.path Demo.arr [1] demoWrite demoFs).2).1
      >>= fun a => .ok (a.toVec .rowMajor)) = .ok [1#16, 2#16, 3#16] := by
  refine ⟨(respelled_iff _ _).mpr (by decide), by decide, by decide +kernel⟩

/-- A hierarchy whose documents end in `.zarr.v3.json`, in a release build. -/
def spelledHier : Hier := { Demo.hier with entry := { Demo.hier.entry with metadataKeySuffix := str!".zarr.v3.json" } }

/-- **C120 fails for `list_nodes`.** Without overflow checks the root listed under its usual name
has a (wrong) entry, and listed as `.` the call panics. -/
theorem C120_violated :
    let env := { Demo.envJ with overflowChecks := false }
    let fs := (createGroup env spelledHier str!"b" demoFs).2
    Respelled str!"." [] ∧
    (listNodes env spelledHier [] fs).1 = .ok [str!"b.group"] ∧
    (listNodes env spelledHier str!"." fs).1 = .panic :=
  ⟨.only, by decide +kernel, by decide +kernel⟩

end Zarr
