import Verif.Props.Confine
import Verif.Props.RemoveAll
import Verif.Props.CallsNd
/-!
# C41 for paths with `..` that stay in the hierarchy
-/

namespace Zarr

open Spec

/-- The location of a document when the last component is not `..`. -/
theorem metaKey_last {p kind sfx : Str} (hroot : ∃ q, p = '/' :: q) (hne : segs p ≠ [])
    (hlast : (segs p).getLast? ≠ some dotdot) (hk : kind ≠ []) (hk1 : '.' ∉ kind) (hk2 : '/' ∉ kind)
    (hsfx : '/' ∉ sfx) :
    segs (addExtension (addExtension p kind) sfx) = extLast ('.' :: kind ++ '.' :: sfx) (segs p) ∧
    ∃ q, addExtension (addExtension p kind) sfx = '/' :: q := by
  obtain ⟨d, n, hsl, hn1, hn2, hn3, hseg, hfn⟩ := splitLast_spec hroot hne
  have hndd : n ≠ str!".." := by
    intro h
    apply hlast
    rw [hseg, h]; simp [dotdot]
  rw [if_neg hndd] at hfn
  have e1 : addExtension p kind = d ++ '/' :: (n ++ '.' :: kind) := by
    rw [addExtension_spec hsl hfn hk]; simp
  have hn' : '/' ∉ n ++ '.' :: kind := by simp [hn1, hk2]
  have hsl' : splitLast (d ++ '/' :: (n ++ '.' :: kind)) = (d ++ ['/'], n ++ '.' :: kind) := by
    apply splitLast_append_name _ _ hn' (by simp)
    cases n with
    | nil => exact absurd rfl hn2
    | cons a as => simp
  have hfn' : fileName (d ++ '/' :: (n ++ '.' :: kind)) = some (n ++ '.' :: kind) := by
    unfold fileName
    rw [hsl']
    have : n ++ '.' :: kind ≠ str!".." := by
      intro h
      cases n with
      | nil => exact absurd rfl hn2
      | cons a as =>
        cases as with
        | nil => simp at h; exact hk h.2
        | cons b bs => cases bs <;> simp at h
    simp [this]
  have e2 : addExtension (addExtension p kind) sfx
      = d ++ '/' :: (n ++ '.' :: kind ++ '.' :: sfx) := by
    rw [e1]
    unfold addExtension extension setExtension
    rw [hfn', hsl']
    simp [stemExt_append n kind hn2 hk1]
  rw [e2]
  constructor
  · rw [segs_append_sep, hseg, extLast_append_singleton,
      segs_single (n ++ '.' :: kind ++ '.' :: sfx)]
    · simp
    · simp [hn1, hk2, hsfx]
    · simp
    · cases n with
      | nil => exact absurd rfl hn2
      | cons a as => simp
  · obtain ⟨q, hq⟩ := hroot
    have hp := stripTail_prefix p
    rw [← splitLast_append, hsl, hq] at hp
    cases d with
    | nil => exact ⟨_, rfl⟩
    | cons a as =>
      obtain ⟨t, ht⟩ := hp
      simp at ht
      exact ⟨_, by rw [ht.1]; rfl⟩

theorem addExtension_up {p : Str} (hroot : ∃ q, p = '/' :: q) (hlast : (segs p).getLast? = some dotdot)
    (ext : Str) : addExtension p ext = p := by
  have hne : segs p ≠ [] := by intro h; rw [h] at hlast; cases hlast
  obtain ⟨d, n, hsl, hn1, hn2, hn3, hseg, hfn⟩ := splitLast_spec hroot hne
  have hn : n = str!".." := by
    rw [hseg] at hlast
    simpa [dotdot] using hlast
  rw [if_pos hn] at hfn
  simp [addExtension, extension, setExtension, hfn]

theorem setExtension_up {p : Str} (hroot : ∃ q, p = '/' :: q) (hlast : (segs p).getLast? = some dotdot)
    (ext : Str) : setExtension p ext = p := by
  have hne : segs p ≠ [] := by intro h; rw [h] at hlast; cases hlast
  obtain ⟨d, n, hsl, hn1, hn2, hn3, hseg, hfn⟩ := splitLast_spec hroot hne
  have hn : n = str!".." := by
    rw [hseg] at hlast
    simpa [dotdot] using hlast
  rw [if_pos hn] at hfn
  simp [setExtension, hfn]

theorem stays_under {path : Str} (hp : Stays 2 (segs path)) :
    Stays 0 (str!"meta" :: str!"root" :: segs path) := by
  simp only [Stays]
  rw [if_neg (by decide), if_neg (by decide)]
  exact hp

theorem stays_snoc {n : Nat} {l : List Str} (h : Stays n l) {s : Str} (hs : s ≠ dotdot) : Stays n (l ++ [s]) := by
  induction l generalizing n with
  | nil => simp only [List.nil_append, Stays]; rw [if_neg hs]; trivial
  | cons a l ih =>
    simp only [List.cons_append, Stays] at h ⊢
    split
    · rename_i ha; rw [if_pos ha] at h; exact ⟨h.1, ih h.2⟩
    · rename_i ha; rw [if_neg ha] at h; exact ih h

theorem segs_base_key (path : Str) : segs (joinPath metaRoot (canonicalizePath path))
    = str!"meta" :: str!"root" :: segs path := by
  rw [segs_joinPath _ _ (rel_canonicalizePath path), segs_canonicalizePath]; rfl

theorem stays_metaKey_up {kind sfx path : Str} (hk : kind ≠ []) (hk1 : '.' ∉ kind) (hk2 : '/' ∉ kind)
    (hsfx : '/' ∉ sfx) (hp : Stays 2 (segs path)) :
    Stays 0 (segs (addExtension (addExtension (joinPath metaRoot (canonicalizePath path)) kind) sfx)) := by
  have hj := segs_base_key path
  have hroot := joinPath_root metaRoot _ (rel_canonicalizePath path) ⟨_, rfl⟩
  by_cases hl : (segs (joinPath metaRoot (canonicalizePath path))).getLast? = some dotdot
  · rw [addExtension_up hroot hl, addExtension_up hroot hl, hj]
    exact stays_under hp
  · rw [(metaKey_last hroot (by rw [hj]; simp) hl hk hk1 hk2 hsfx).1, hj]
    have hu := stays_under hp
    have hne : str!"meta" :: str!"root" :: segs path ≠ [] := by simp
    rw [(List.dropLast_concat_getLast hne).symm] at hu ⊢
    rw [extLast_append_singleton]
    refine stays_snoc (stays_prefix hu) ?_
    intro h
    have := congrArg List.length h
    have hlen : dotdot.length = 2 := rfl
    have h1 := List.length_pos_iff.mpr hk
    have hn : (str!"meta" :: str!"root" :: segs path).getLast hne ≠ [] := by
      have := List.getLast_mem hne
      generalize (str!"meta" :: str!"root" :: segs path).getLast hne = x at this
      rw [← hj] at this
      exact (mem_segs this).2.1
    have h2 := List.length_pos_iff.mpr hn
    rw [hlen] at this
    simp only [List.length_append, List.length_cons] at this
    omega

theorem stays_arrayKey_up {e : EntryPointMetadata} (he : GoodSuffix e) {path : Str} (hp : Stays 2 (segs path)) :
    Stays 0 (segs (arrayMetadataKey e path)) :=
  stays_metaKey_up (by decide) (by decide) (by decide) (notMem_stripDot he) hp

theorem stays_groupKey_up {e : EntryPointMetadata} (he : GoodSuffix e) {path : Str} (hp : Stays 2 (segs path)) :
    Stays 0 (segs (groupMetadataKey e path)) :=
  stays_metaKey_up (by decide) (by decide) (by decide) (notMem_stripDot he) hp

theorem stays_implicitKey_up {e : EntryPointMetadata} (he : GoodSuffix e) (hd : '.' ∉ stripDot e.metadataKeySuffix)
    {path : Str} (hp : Stays 2 (segs path)) :
    Stays 0 (segs (setExtension (setExtension (groupMetadataKey e path) []) [])) := by
  have hj := segs_base_key path
  have hroot := joinPath_root metaRoot _ (rel_canonicalizePath path) ⟨_, rfl⟩
  have hu := stays_under hp
  by_cases hl : (segs (joinPath metaRoot (canonicalizePath path))).getLast? = some dotdot
  · rw [groupMetadataKey, addExtension_up hroot hl, addExtension_up hroot hl, setExtension_up hroot hl,
      setExtension_up hroot hl, hj]
    exact hu
  · have hm := (metaKey_last (kind := str!"group") (sfx := stripDot e.metadataKeySuffix) hroot
      (by rw [hj]; simp) hl (by decide) (by decide) (by decide) (notMem_stripDot he)).1
    rw [hj] at hm
    obtain ⟨L, n, hLn, hL, hn⟩ : ∃ L n, str!"meta" :: str!"root" :: segs path = L ++ [n] ∧ L ≠ [] ∧
        n ∈ segs (joinPath metaRoot (canonicalizePath path)) := by
      have hne : str!"meta" :: str!"root" :: segs path ≠ [] := by simp
      refine ⟨_, _, (List.dropLast_concat_getLast hne).symm, by simp, ?_⟩
      rw [hj]
      exact List.getLast_mem hne
    have hm' : segs (groupMetadataKey e path)
        = L ++ [(n ++ '.' :: str!"group") ++ '.' :: stripDot e.metadataKeySuffix] := by
      rw [groupMetadataKey, hm, hLn, extLast_append_singleton]; simp
    have n0 := (mem_segs hn).2.1
    have n1 := (mem_segs hn).2.2
    have s1 := segs_setExtension_nil hm' hL (by simp)
      (by cases n with
        | nil => exact absurd rfl n0
        | cons a as => simp) hd
    have s2 := segs_setExtension_nil s1 hL n0 n1 (by decide)
    rw [s2, ← hLn]
    exact hu

/-- **C41** for the hierarchy calls (but `remove`) on paths with `..` that never go up more than the two
levels between the root node and the base directory: each is confined to the base directory. (`exists`
and `array_exists` for metadata suffixes with no inner dot.) Missing against the full claim: paths that go
further up, for which it is false; `remove` on paths with `..`. -/
theorem C41_partial_up (env : Env) (h : Hier) (path : Str) (hb : Plain (segs h.base))
    (hs : GoodSuffix h.entry) (hp : Stays 2 (segs path)) :
    let b := segs h.base
    Confined b (getArrayMetadata env h path) ∧
    ('.' ∉ stripDot h.entry.metadataKeySuffix →
      Confined b (nodeExists h path) ∧ Confined b (arrayExists env h path)) ∧
    Confined b (listAttributes env h path) ∧
    Confined b (listNodes env h path) ∧
    (∀ attrs, Confined b (setAttributes env h path attrs)) ∧
    Confined b (createGroup env h path) ∧
    (∀ m, Confined b (createArray env h path m)) ∧
    (∀ m pos, Stays 0 (segs (chunkKey path m pos)) →
      Confined b (getChunkUri h path m pos) ∧
      (∀ t, Confined b (readChunk env h path m t pos)) ∧
      (∀ t buf, Confined b (readChunkInto env h path m t pos buf)) ∧
      (∀ t (c : DataChunk t), c.gridPosition = pos → Confined b (writeChunk env h path m c)) ∧
      Confined b (deleteChunk h path m pos)) := by
  intro b
  have ka := stays_arrayKey_up hs hp
  have kg := stays_groupKey_up hs hp
  have ea := storeExists_kept hb ka
  have eg := storeExists_kept hb kg
  have kmeta : Kept b (nodeMetadataKey h path) :=
    ea.bind fun _ => Kept.ite (Kept.pure _) (eg.bind fun _ => Kept.ite (Kept.pure _) (Kept.lift _))
  -- the key found is one of the two
  have hkey : ∀ fs k, (nodeMetadataKey h path fs).1 = .ok k → Stays 0 (segs k) := by
    intro fs k hk
    have e1 : nodeMetadataKey h path fs = ((nodeMetadataKey h path fs).1, fs) := (nodeMetadataKey_ro h path).eq fs
    simp only [nodeMetadataKey, M.bind_apply] at hk
    rw [(storeExists_ro h _).eq fs] at hk
    cases h1 : (storeExists h (arrayMetadataKey h.entry path) fs).1 with
    | err e => rw [h1] at hk; simp at hk
    | panic => rw [h1] at hk; simp at hk
    | ok a =>
      rw [h1] at hk
      cases a with
      | true => simp at hk; rw [← hk]; exact ka
      | false =>
        simp only [Bool.false_eq_true, if_false, M.bind_apply] at hk
        rw [(storeExists_ro h _).eq fs] at hk
        cases h2 : (storeExists h (groupMetadataKey h.entry path) fs).1 with
        | err e => rw [h2] at hk; simp at hk
        | panic => rw [h2] at hk; simp at hk
        | ok a =>
          rw [h2] at hk
          cases a with
          | true => simp at hk; rw [← hk]; exact kg
          | false => simp at hk
  -- continue with the key found
  have hbind : ∀ {α : Type} (f : Str → M Fs α), (∀ k, Stays 0 (segs k) → Kept b (f k)) →
      Kept b (nodeMetadataKey h path >>= f) := by
    intro α f hf fs fs' hsim
    obtain ⟨h1, h2⟩ := kmeta fs fs' hsim
    rw [M.bind_apply, M.bind_apply, (nodeMetadataKey_ro h path).eq fs, (nodeMetadataKey_ro h path).eq fs', ← h1]
    cases hk : (nodeMetadataKey h path fs).1 with
    | err e => exact ⟨rfl, Reach.refl hsim⟩
    | panic => exact ⟨rfl, Reach.refl hsim⟩
    | ok k => exact hf k (hkey fs k hk) fs fs' hsim
  have kam : Kept b (getArrayMetadata env h path) :=
    (storeGet_kept hb ka).bind fun _ => (Kept.lift _).bind fun _ => Kept.lift _
  refine ⟨kam.confined, ?_, ?_, ?_, ?_, ?_, ?_, ?_⟩
  · intro hd
    have ki : Stays 0 (segs (setExtension (setExtension (groupMetadataKey h.entry path) []) [])) := by
      exact stays_implicitKey_up hs hd hp
    have kne : Kept b (nodeExists h path) := nodeExists_kept hb ka kg ki
    refine ⟨kne.confined, Kept.confined (kne.bind fun _ => Kept.ite ?_ (Kept.pure _))⟩
    intro fs fs' hsim
    obtain ⟨h1, h2⟩ := kam fs fs' hsim
    simp only
    generalize getArrayMetadata env h path fs = r at h1 h2 ⊢
    generalize getArrayMetadata env h path fs' = r' at h1 h2 ⊢
    obtain ⟨a, g⟩ := r
    obtain ⟨a', g'⟩ := r'
    simp only at h1 h2
    subst h1
    cases a <;> exact ⟨rfl, h2⟩
  · exact (hbind _ fun k hk => (storeGet_kept hb hk).bind fun _ => (Kept.lift _).bind fun _ =>
      (Kept.lift _).bind fun _ => Kept.lift _).confined
  · have hk : Stays 0 (segs (metaRoot ++ '/' :: canonicalizePath path)) := by
      rw [segs_append_sep, segs_canonicalizePath]
      exact stays_under hp
    exact ((storeListDir_kept hb hk).bind fun _ => Kept.lift _).confined
  · intro attrs
    exact (hbind _ fun k hk => (storeGet_kept hb hk).bind fun _ => (Kept.lift _).bind fun _ =>
      (Kept.lift _).bind fun _ => (Kept.lift _).bind fun _ =>
        Kept.ite (storeSet_kept hb hk _) (Kept.pure _)).confined
  · exact (ea.bind fun _ => Kept.ite (Kept.lift _)
      (eg.bind fun _ => Kept.ite (Kept.pure _) (storeSet_kept hb kg _))).confined
  · intro m
    exact (eg.bind fun _ => Kept.ite (Kept.lift _)
      (ea.bind fun _ => Kept.ite (Kept.lift _) (storeSet_kept hb ka _))).confined
  · intro m pos hc
    have kc := hc
    refine ⟨(storeUri_kept _ _).confined, ?_, ?_, ?_, (storeErase_kept hb kc).confined⟩
    · intro t
      refine Kept.confined ((Kept.lift _).bind fun _ => (storeGet_kept hb kc).bind fun v => ?_)
      cases v with
      | none => exact Kept.pure _
      | some b => exact (Kept.lift _).bind fun _ => Kept.pure _
    · intro t buf
      refine Kept.confined ((Kept.lift _).bind fun _ => (storeGet_kept hb kc).bind fun v => ?_)
      cases v with
      | none => exact Kept.pure _
      | some b => exact (Kept.lift _).bind fun _ => Kept.pure _
    · rintro t c rfl
      exact (storeSet_kept hb kc _).confined

/-- The path `../root/x/../a` goes up, stays in the hierarchy, and is the path `a`. -/
example : Stays 2 (segs str!"../root/x/../a") ∧ ¬ Plain (segs str!"../root/x/../a") ∧
    ¬ Stays 2 (segs str!"../../../x") ∧
    (createGroup Demo.envJ Demo.hier str!"../root/a" (createGroup Demo.envJ Demo.hier str!"x" Demo.outerFs).2).2.content
      [str!"h", str!"meta", str!"root", str!"a.group.json"] ≠ none := by
  refine ⟨?_, by decide, ?_, by decide +kernel⟩
  · have : segs str!"../root/x/../a" = [dotdot, str!"root", str!"x", dotdot, str!"a"] := by decide
    rw [this]; simp [Stays, dotdot]
  · have : segs str!"../../../x" = [dotdot, dotdot, dotdot, str!"x"] := by decide
    rw [this]; simp [Stays, dotdot]

/-! ## The n-dimensional calls -/

theorem stays_append_plain {n : Nat} {l r : List Str} (h : Stays n l) (hr : Plain r) : Stays n (l ++ r) := by
  induction l generalizing n with
  | nil => exact stays_of_plain hr n
  | cons a l ih =>
    simp only [List.cons_append, Stays] at h ⊢
    split
    · rename_i ha; rw [if_pos ha] at h; exact ⟨h.1, ih h.2⟩
    · rename_i ha; rw [if_neg ha] at h; exact ih h

theorem stays_chunkKey {path : Str} {m : ArrayMetadata} (hp : Stays 2 (segs path)) (hs : GoodSep m.separator)
    (pos : List Nat) : Stays 0 (segs (chunkKey path m pos)) := by
  rw [segs_chunkKey]
  simp only [Stays]
  rw [if_neg (by decide), if_neg (by decide)]
  exact stays_append_plain hp (plain_chunkTail hs pos)

section

variable {env : Env} {h : Hier} {path : Str} {m : ArrayMetadata} {t : RsType} {b : Loc}

theorem readLoop_kept (h1 : ∀ pos, Kept b (readChunk env h path m t pos))
    (h2 : ∀ pos buf, Kept b (readChunkInto env h path m t pos buf)) {bbox : BBox} (coords : List (List Nat))
    (arr : NdArr (El t)) (buf : Option (DataChunk t)) :
    Kept b (readLoop env h path m t bbox coords arr buf) := by
  have hc : ∀ pos (buf : Option (DataChunk t)), Kept b (readCoord env h path m t pos buf) := by
    intro pos buf
    cases buf with
    | none => exact (h1 pos).bind fun _ => Kept.pure _
    | some c => exact (h2 pos c).bind fun _ => Kept.pure _
  induction coords generalizing arr buf with
  | nil => exact Kept.pure _
  | cons pos rest ih =>
    unfold readLoop
    refine (hc pos buf).bind fun r => ?_
    split
    · exact (Kept.lift _).bind fun _ => ih _ _
    · exact ih _ _

theorem writeLoop_kept (h2 : ∀ pos buf, Kept b (readChunkInto env h path m t pos buf))
    (h3 : ∀ c : DataChunk t, Kept b (writeChunk env h path m c)) {bbox : BBox} {fill : El t}
    {array : NdArr (El t)} (coords : List (List Nat)) (existing : List (El t)) :
    Kept b (writeLoop env h path m bbox fill array coords existing) := by
  induction coords generalizing existing with
  | nil => exact Kept.pure _
  | cons pos rest ih =>
    unfold writeLoop
    refine Kept.bind ?_ fun _ => ih _
    unfold writeCoord
    refine (Kept.lift _).bind fun _ => (Kept.lift _).bind fun _ => (Kept.lift _).bind fun _ => Kept.ite ?_ ?_
    · exact (h3 _).bind fun _ => Kept.pure _
    · exact (h2 _ _).bind fun _ => (Kept.lift _).bind fun _ => (Kept.lift _).bind fun _ =>
        (Kept.lift _).bind fun _ => (h3 _).bind fun _ => Kept.pure _

end

/-- **C41** for `read_ndarray`, `read_ndarray_into`, `read_ndarray_into_with_buffer` and `write_ndarray`
on paths that never go up more than two levels, and the usual separators: confined to the base
directory. Missing against the full claim: paths that go further up, for which it is false. -/
theorem C41_partial_ndarray (env : Env) (h : Hier) (path : Str) (hb : Plain (segs h.base))
    (hp : Stays 2 (segs path)) (m : ArrayMetadata) (hs : GoodSep m.separator) (t : RsType) :
    let b := segs h.base
    (∀ bbox, Confined b (readNdarray env h path m t bbox)) ∧
    (∀ bbox arr, Confined b (readNdarrayInto env h path m t bbox arr)) ∧
    (∀ bbox arr buf, Confined b (readNdarrayIntoWithBuffer env h path m t bbox arr buf)) ∧
    (∀ offset (array : NdArr (El t)), Confined b (writeNdarray env h path m offset array)) := by
  intro b
  have kc := stays_chunkKey hp hs
  have h1 : ∀ pos, Kept b (readChunk env h path m t pos) := by
    intro pos
    refine (Kept.lift _).bind fun _ => (storeGet_kept hb (kc pos)).bind fun v => ?_
    cases v with
    | none => exact Kept.pure _
    | some b => exact (Kept.lift _).bind fun _ => Kept.pure _
  have h2 : ∀ pos buf, Kept b (readChunkInto env h path m t pos buf) := by
    intro pos buf
    refine (Kept.lift _).bind fun _ => (storeGet_kept hb (kc pos)).bind fun v => ?_
    cases v with
    | none => exact Kept.pure _
    | some b => exact (Kept.lift _).bind fun _ => Kept.pure _
  have h3 : ∀ c : DataChunk t, Kept b (writeChunk env h path m c) := fun c => storeSet_kept hb (kc _) _
  have n1 : ∀ bbox arr buf, Kept b (readNdarrayIntoWithBuffer env h path m t bbox arr buf) := by
    intro bbox arr buf
    unfold readNdarrayIntoWithBuffer
    exact Kept.ite (Kept.lift _) (Kept.ite (Kept.lift _) ((Kept.lift _).bind fun _ => readLoop_kept h1 h2 _ _ _))
  have n2 : ∀ bbox arr, Kept b (readNdarrayInto env h path m t bbox arr) :=
    fun bbox arr => (n1 bbox arr none).bind fun _ => Kept.pure _
  refine ⟨fun bbox => Kept.confined ((Kept.lift _).bind fun _ => n2 _ _), fun bbox arr => (n2 bbox arr).confined,
    fun bbox arr buf => (n1 bbox arr buf).confined, fun offset array => Kept.confined ?_⟩
  unfold writeNdarray
  exact Kept.ite (Kept.lift _) ((Kept.lift _).bind fun _ => (Kept.lift _).bind fun _ => writeLoop_kept h2 h3 _ _)

example : Stays 2 (segs Demo.path) ∧ GoodSep Demo.arr.separator ∧ Plain (segs Demo.hier.base) ∧
    ((writeNdarray Demo.env Demo.hier Demo.path Demo.arr [1] demoWrite Demo.outerFs).2.get [str!"o"]
      = some (.file [1, 2])) := by
  refine ⟨stays_of_plain (by decide) 2, .inl rfl, by decide, by decide +kernel⟩

end Zarr
