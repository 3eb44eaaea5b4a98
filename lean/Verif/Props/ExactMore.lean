import Verif.Props.ExactWrite
import Verif.Props.ChunkExact
import Verif.Props.Compression
import Verif.Props.DataType
import Verif.Props.Interleave
/-!
# Exact statements for C15, C17, C29, C38, C48, C50 and C56
-/

namespace Zarr

open Spec

/-! ## C15 and C17 -/

/-- **C15, exactly.** What `coord_iter` yields, for every array: the positions of its chunks in increasing order if
it has a dimension, and nothing otherwise. -/
theorem C15_exact (m : ArrayMetadata) (hl : m.shape.length = m.chunkShape.length) (hk : ∀ k ∈ m.chunkShape, k ≠ 0) :
    ∃ it xs, m.coordIter = .ok it ∧ Yields it xs ∧ xs.Pairwise (· < ·) ∧
      ∀ c, c ∈ xs ↔ m.shape ≠ [] ∧ OverlapsArray m c := by
  by_cases hn : m.shape = []
  · have hc : m.chunkShape = [] := List.length_eq_zero_iff.mp (by rw [← hl, hn]; rfl)
    exact ⟨⟨[], 0, 1⟩, [], by simp [ArrayMetadata.coordIter, hn, hc, zipOutcome, CoordIter.new, multiCartesian],
      yields_iff.mpr rfl, by simp, by simp [hn]⟩
  · obtain ⟨it, xs, h1, h2, h3, h4⟩ := C15_partial m hl hk hn
    exact ⟨it, xs, h1, h2, h3, fun c => by rw [h4]; simp [hn]⟩

/-- An array with three chunks, and one without dimensions. -/
example : (Demo.arr.shape.length = Demo.arr.chunkShape.length ∧ (∀ k ∈ Demo.arr.chunkShape, k ≠ 0) ∧ Demo.arr.shape ≠ []) ∧
    ({ Demo.arr with shape := [], chunkShape := [] } : ArrayMetadata).coordIter = .ok ⟨[], 0, 1⟩ := by decide

/-- Where a subtraction without overflow checks ends up. -/
theorem wrapped {W a n : Nat} (hn : n < W) (h : a < n) : (a + W - n) % W = W - (n - a) := by
  rw [Nat.mod_eq_of_lt (by omega)]
  omega

/-- **C17, exactly.** What `len()` answers after any number `n` of calls of `next`, for every array and box, where
`xs` are the items: the number of those still to come as long as `next` has not returned `None`; afterwards it panics
with overflow checks, and without them wraps around. An array without dimensions has no items, and `len()` counts one. -/
theorem C17_exact (m : ArrayMetadata) (b : BBox) (checks : Bool)
    (hl : m.shape.length = m.chunkShape.length) (hb : b.offset.length = b.shape.length) (it : CoordIter)
    (hit : m.coordIter = .ok it ∨ m.shape ≠ [] ∧ m.boundedCoordIter b = .ok it)
    (xs : List (List Nat)) (hxs : Yields it xs) (n : Nat) (hn : n < 2 ^ 64) :
    Yields (nextN n it) (xs.drop n) ∧ (m.shape = [] → xs = []) ∧
    let size := if m.shape = [] then 1 else xs.length
    (nextN n it).len checks = if n ≤ size then .ok (size - n) else if checks then .panic else .ok (2 ^ 64 - (n - size)) := by
  by_cases h0 : m.shape = []
  · have hc : m.chunkShape = [] := List.length_eq_zero_iff.mp (by rw [← hl, h0]; rfl)
    have he : it = ⟨[], 0, 1⟩ := by
      rcases hit with hit | hit
      · simpa [ArrayMetadata.coordIter, h0, hc, zipOutcome, CoordIter.new, multiCartesian] using hit.symm
      · exact absurd h0 hit.1
    rw [yields_iff] at hxs
    subst hxs he
    refine ⟨yields_iff.mpr (by rw [nextN_eq]), fun _ => rfl, ?_⟩
    simp only [h0, if_true, nextN_eq, CoordIter.len, Nat.zero_add]
    by_cases h1 : n ≤ 1
    · rw [if_pos h1, if_pos h1]
    · rw [if_neg h1, if_neg h1]
      cases checks
      · simp only [Bool.false_eq_true, if_false]
        exact congrArg Outcome.ok (wrapped hn (Nat.lt_of_not_le h1))
      · simp only [if_true]
  · obtain ⟨ys, h1, h2, h3⟩ := C17_partial m b checks hl h0 hb it (hit.imp id (·.2)) xs hxs 0 (Nat.zero_le _)
    have key : it.total = it.accumulator + xs.length := by
      have : (nextN 0 it) = it := rfl
      rw [this] at h2
      simp only [CoordIter.len] at h2
      by_cases hle : it.accumulator ≤ it.total
      · rw [if_pos hle, Outcome.ok.injEq] at h2
        omega
      · rw [if_neg hle] at h2
        cases checks
        · obtain ⟨_, _, h2', _⟩ := C17_partial m b true hl h0 hb it (hit.imp id (·.2)) xs hxs 0 (Nat.zero_le _)
          rw [this] at h2'
          simp only [CoordIter.len] at h2'
          rw [if_neg hle] at h2'
          simp at h2'
        · simp at h2
    have hacc : it.accumulator = 0 := by
      rcases hit with hit | ⟨_, hit⟩
      · obtain ⟨hk, _⟩ := coordIter_ok hl hit
        obtain ⟨it', e1, _, _, e2, _⟩ := coordIter_spec hl hk h0
        rw [hit] at e1
        cases e1
        exact e2
      · exact (boundedCoordIter_ok hl hb hit).2.2.2.1
    rw [yields_iff] at hxs
    subst hxs
    refine ⟨yields_iff.mpr (by rw [nextN_eq]), fun h => absurd h h0, ?_⟩
    simp only [h0, if_false, nextN_eq, CoordIter.len, key, hacc, Nat.zero_add]
    by_cases h1 : n ≤ it.rest.length
    · rw [if_pos h1, if_pos h1]
    · rw [if_neg h1, if_neg h1]
      cases checks
      · simp only [Bool.false_eq_true, if_false]
        exact congrArg Outcome.ok (wrapped hn (Nat.lt_of_not_le h1))
      · simp only [if_true]

/-- Three chunks; after two calls more than there are chunks `len()` is two below `2 ^ 64`. -/
example : ∃ it, Demo.arr.coordIter = .ok it ∧ (nextN 5 it).len false = .ok (2 ^ 64 - 2) ∧ (nextN 5 it).len true = .panic :=
  ⟨_, rfl, by decide, by decide⟩

/-! ## C29 -/

/-- **C29, exactly.** The data types that are read back as they were written are all but the raw ones and one-byte
integers declared big-endian. (The size of a raw type is a `usize`.) -/
theorem C29_exact (d : DataType) (hd : ∀ n, d = .raw n → n < 2 ^ 64) :
    (∃ j, d.toJson = .ok j ∧ DataType.fromJson j = .ok d) ↔
      (∀ n, d ≠ .raw n) ∧ d ≠ .int .B1 .big ∧ d ≠ .uint .B1 .big := by
  constructor
  · rintro ⟨j, h1, h2⟩
    obtain ⟨v1, ⟨j2, v2, v3⟩, ⟨j3, v4, v5⟩⟩ := C29_violated
    refine ⟨?_, ?_, ?_⟩
    · rintro n rfl
      obtain ⟨j', e1, e2⟩ := v1 n (hd n rfl)
      rw [h1] at e1
      cases e1
      rw [h2] at e2
      simp at e2
    · rintro rfl
      rw [h1] at v2
      cases v2
      exact v3 h2
    · rintro rfl
      rw [h1] at v4
      cases v4
      exact v5 h2
  · rintro ⟨h1, h2⟩
    exact C29_partial d h1 h2

example : (∀ n, DataType.float .B4 .big = .raw n → n < 2 ^ 64) ∧ (∀ n, DataType.raw 24 = .raw n → n < 2 ^ 64) :=
  ⟨by simp, by simp⟩

/-! ## C38 -/

/-- **C38, exactly.** After a successful `remove(path)` the documents of every other node are as they were, also
of those below `path`: a node below is found, with its metadata and attributes, exactly if it was found before. -/
theorem C38_exact (env : Env) (h : Hier) (path : Str) (fs : Fs) (hwf : fs.WF)
    (hb : Plain (segs h.base)) (hs : GoodSuffix h.entry) (hp : Plain (segs path))
    (hr : (remove h path fs).1 = .ok ()) (q : Str) (hq : Plain (segs q)) :
    let fs' := (remove h path fs).2
    arrayDoc h fs' q = (if segs q = segs path then none else arrayDoc h fs q) ∧
    groupDoc h fs' q = (if segs q = segs path then none else groupDoc h fs q) ∧
    (getArrayMetadata env h q fs').1 = (if segs q = segs path then .err .notFound else (getArrayMetadata env h q fs).1) ∧
    (listAttributes env h q fs').1 = (if segs q = segs path then .err .notFound else (listAttributes env h q fs).1) := by
  intro fs'
  by_cases e : segs q = segs path
  · obtain ⟨h1, h2, h3, h4, _⟩ := C38_partial env h path fs hwf hb hs hp hr
    have w := (remove_frame hwf hb hs hp).1
    have ha : arrayDoc h fs' q = none := by rw [← h1, arrayDoc, docLoc_congr e]; rfl
    have hg : groupDoc h fs' q = none := by rw [← h2, groupDoc, docLoc_congr e]; rfl
    simp only [e, if_true]
    refine ⟨ha, hg, ?_, ?_⟩
    · simp only [getArrayMetadata, M.bind_apply, storeGet_array w hb hs hq, fs'] at ha ⊢
      simp [ha]
    · simp only [fs'] at ha hg ⊢
      simp [listAttributes, nodeMetadataKey, storeExists_array w hb hs hq, storeExists_group w hb hs hq, ha, hg]
  · obtain ⟨h1, h2, h3, h4⟩ := (C39_partial env h path q fs hwf hb hs hp hq).1 (fun e' => e e'.symm)
    simp only [e, if_false]
    exact ⟨h1, h2, h3, h4⟩

example : (remove Demo.hier str!"a" Demo.treeFs).1 = .ok () ∧ segs str!"a/c1" ≠ segs str!"a" ∧
    (getArrayMetadata Demo.envJ Demo.hier str!"a/c1" Demo.treeFs).1 = .ok Demo.arr := by decide +kernel

/-! ## C50 -/

/-- **C50, exactly.** The names of compressors that parse are those displayed, in any letter case, of the
compressors that the build has, except LZ4 with `lz_pure` only; they give the default configuration. Every other name
is refused. -/
theorem C50_exact (f : Features) (s : Str) :
    (∀ c, CompressionType.fromStr f s = .ok c ↔
      ∃ c0, c = withDefaults c0 ∧ c0.enabled f = true ∧ (∀ b, c0 = .lz4 b → f.lz = true) ∧
        s.map Char.toLower = c0.display.map Char.toLower) ∧
    ((∀ c, CompressionType.fromStr f s ≠ .ok c) → CompressionType.fromStr f s = .err .invalidInput) := by
  have hl : s.map CompressionType.asciiLower = s.map Char.toLower :=
    List.map_congr_left fun x _ => asciiLower_eq x
  constructor
  · intro c
    constructor
    · intro h
      unfold CompressionType.fromStr at h
      rw [hl] at h
      simp only at h
      split at h
      · rename_i e
        simp only [Outcome.ok.injEq] at h
        subst h
        exact ⟨.raw, rfl, rfl, by simp, by rw [e]; decide⟩
      · split at h
        · rename_i e
          simp only [Outcome.ok.injEq] at h
          subst h
          exact ⟨.bzip2 9, rfl, e.2, by simp, by rw [e.1]; decide⟩
        · split at h
          · rename_i e
            simp only [Outcome.ok.injEq] at h
            subst h
            exact ⟨.gzip (-1), rfl, e.2, by simp, by rw [e.1]; decide⟩
          · split at h
            · rename_i e
              simp only [Outcome.ok.injEq] at h
              subst h
              exact ⟨.xz 6, rfl, e.2, by simp, by rw [e.1]; decide⟩
            · split at h
              · rename_i e
                simp only [Outcome.ok.injEq] at h
                subst h
                exact ⟨.lz4 65536, rfl, by simp [CompressionType.enabled, e.2], fun _ _ => e.2, by rw [e.1]; decide⟩
              · simp at h
    · rintro ⟨c0, rfl, h1, h2, h3⟩
      exact (C50_partial f).2.2 c0 s h1 h2 h3
  · intro h
    have : CompressionType.fromStr f s = .err .invalidInput ∨ ∃ c, CompressionType.fromStr f s = .ok c := by
      unfold CompressionType.fromStr
      simp only
      repeat' split
      all_goals first
        | exact .inl rfl
        | exact .inr ⟨_, rfl⟩
    exact this.resolve_right fun ⟨c, hc⟩ => h c hc

example : CompressionType.fromStr ⟨true, true, false, true, true⟩ str!"LZ4" = .err .invalidInput ∧
    CompressionType.fromStr ⟨true, true, false, true, true⟩ str!"bZIP2" = .ok (.bzip2 9) := by decide

/-! ## C56 -/

/-- **C56, exactly.** With an extension type without fallback every write panics, where it can make the file, and
leaves an empty file in place of the chunk; every read of a chunk that is stored panics; a chunk that is not stored
reads as none. -/
theorem C56_exact (env : Env) (h : Hier) (path : Str) (m : ArrayMetadata) (e s : Str) (t : RsType)
    (hm : m.dataType = .extended e s none) (fs : Fs) (hwf : fs.WF) :
    (∀ c : DataChunk t, Plain (h.loc (chunkKey path m c.gridPosition)) →
      (Writable fs (h.loc (chunkKey path m c.gridPosition)) →
        ∃ fs', writeChunk env h path m c fs = (.panic, fs') ∧
          ∀ l, fs'.get l = setSpec fs (h.loc (chunkKey path m c.gridPosition)) [] l) ∧
      (¬ Writable fs (h.loc (chunkKey path m c.gridPosition)) → ∃ k, writeChunk env h path m c fs = (.err k, fs))) ∧
    (∀ pos, Plain (h.loc (chunkKey path m pos)) → m.inBounds pos = .ok true →
      readChunk env h path m t pos fs =
        (if (fs.content (h.loc (chunkKey path m pos))).isSome then .panic else .ok none, fs)) := by
  have hck : checkArrayType env.native m t = .panic := by
    simp [checkArrayType, hm, ExtensibleDataType.effectiveType]
  constructor
  · intro c hp
    have hwb : writeChunkBytes env.codecs env.native m c = ([], .panic) := by simp [writeChunkBytes, hck]
    obtain ⟨s1, s2⟩ := storeSet_spec (h := h) (key := chunkKey path m c.gridPosition)
      (writeChunkBytes env.codecs env.native m c) hwf hp
    rw [hwb] at s1 s2
    unfold writeChunk
    rw [hwb]
    exact ⟨fun hw => let ⟨fs', h1, _, h3⟩ := s1 hw; ⟨fs', h1, h3⟩, s2⟩
  · intro pos hp hin
    have hg := storeGet_eq hwf hp
    cases hc : fs.content (h.loc (chunkKey path m pos)) with
    | none =>
      rw [hc] at hg
      rw [readChunk_inBounds hin hg]; rfl
    | some b =>
      rw [hc] at hg
      rw [readChunk_inBounds hin hg]
      simp [readChunkBytes, hck]

example : ({ Demo.arr with dataType := .extended str!"x" str!"<M8" none } : ArrayMetadata).inBounds [1] = .ok true ∧
    Plain (Demo.hier.loc (chunkKey Demo.path { Demo.arr with dataType := .extended str!"x" str!"<M8" none } [1])) := by
  decide

/-! ## C48 -/

theorem runTwo_swap (env : Env) (h : Hier) (path : Str) (a b : JsonObject) (sched : List Bool) (x y : CallState) (fs : Fs) :
    runTwo env h path a b sched (x, y, fs) =
      ((runTwo env h path b a (sched.map not) (y, x, fs)).2.1, (runTwo env h path b a (sched.map not) (y, x, fs)).1,
        (runTwo env h path b a (sched.map not) (y, x, fs)).2.2) := by
  induction sched generalizing x y fs with
  | nil => rfl
  | cons s rest ih =>
    cases s
    · simp only [runTwo, List.map_cons, Bool.not_false]
      rw [ih]
    · simp only [runTwo, List.map_cons, Bool.not_true]
      rw [ih]

/-- **C48, exactly.** Of the orders in which two calls that each read and then write can take their steps, the two
in which one call ends before the other starts keep both updates (`C48_partial`). In all the others, if each call
alone would succeed and change the document, both return `Ok` and only the update of the call that writes last is
left. -/
theorem C48_exact {env : Env} {h : Hier} {path : Str} {a b : JsonObject} {fs fsa fsb : Fs}
    (ha : setAttributes env h path a fs = (.ok (), fsa)) (hca : ∃ l, fsa.get l ≠ fs.get l)
    (hb : setAttributes env h path b fs = (.ok (), fsb)) (hcb : ∃ l, fsb.get l ≠ fs.get l)
    (sched : List Bool) (h1 : sched.count false = 2) (h2 : sched.count true = 2)
    (h3 : sched ≠ [false, false, true, true]) (h4 : sched ≠ [true, true, false, false]) :
    ∃ fs', runTwo env h path a b sched (.start, .start, fs) = (.done (.ok ()), .done (.ok ()), fs') ∧
      ∀ l, fs'.get l = (if sched.getLast? = some true then fsb else fsa).get l := by
  have four : sched.length = 4 := by
    have : ∀ s : List Bool, s.length = s.count false + s.count true := by
      intro s
      induction s with
      | nil => rfl
      | cons x s ih => cases x <;> simp [ih] <;> omega
    rw [this, h1, h2]
  match sched, four with
  | [s1, s2, s3, s4], _ =>
    have hall : ([s1, s2, s3, s4] = [false, true, false, true] ∨ [s1, s2, s3, s4] = [true, false, false, true]) ∨
        ([s1, s2, s3, s4] = [true, false, true, false] ∨ [s1, s2, s3, s4] = [false, true, true, false]) := by
      revert h1 h2 h3 h4; revert s1 s2 s3 s4; decide
    rcases hall with hs | hs
    · obtain ⟨fs', e1, e2⟩ := C48_violated ha hca hb hcb _ hs
      refine ⟨fs', e1, fun l => ?_⟩
      rw [e2, if_pos]
      rcases hs with hs | hs <;> rw [hs] <;> rfl
    · obtain ⟨fs', e1, e2⟩ := C48_violated hb hcb ha hca ([s1, s2, s3, s4].map not)
        (by rcases hs with hs | hs <;> rw [hs] <;> simp)
      refine ⟨fs', by rw [runTwo_swap, e1], fun l => ?_⟩
      rw [e2, if_neg]
      rcases hs with hs | hs <;> rw [hs] <;> simp

set_option maxRecDepth 20000 in
example :
    let a : JsonObject := [(str!"p", .int 1)]
    let b : JsonObject := [(str!"q", .int 2)]
    let r := runTwo Demo.envJ Demo.hier str!"g" a b [false, true, true, false] (.start, .start, Demo.attrFs)
    (setAttributes Demo.envJ Demo.hier str!"g" a Demo.attrFs).1 = .ok () ∧
    (setAttributes Demo.envJ Demo.hier str!"g" b Demo.attrFs).1 = .ok () ∧
    r.1 = .done (.ok ()) ∧ r.2.1 = .done (.ok ()) ∧
    (listAttributes Demo.envJ Demo.hier str!"g" r.2.2).1 = .ok [(str!"x", .int 1),
      (str!"y", .obj [(str!"z", .null)]), (str!"p", .int 1)] := by decide +kernel

end Zarr
