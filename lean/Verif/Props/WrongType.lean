import Verif.Props.FailedWrite
import Verif.Props.StoreCalls
import Verif.Props.ChunkExact
import Verif.Props.Locality
/-!
# Box writes with elements of another type: the failing case of C84
-/

namespace Zarr

open Spec

variable {env : Env} {h : Hier} {path : Str} {m : ArrayMetadata} {t : RsType} {fs : Fs}

/-- The chunk is the first of those that share a point with the box and the array. -/
def Spec.FirstChunk (m : ArrayMetadata) (b : BBox) (c : List Nat) : Prop :=
  OverlapsBoth m b c ∧ ∀ c', OverlapsBoth m b c' → ¬ c' < c

theorem checkArrayType_wrong {native : Endian} {d : DataType} (hd : effective m.dataType = some d)
    (hn : kindOf d ≠ kindOfRs t) : checkArrayType native m t = .err .invalidInput := by
  rw [checkArrayType_err (effective_iff.mpr hd)]
  rw [Bool.eq_false_iff]
  intro hh; exact hn ((eqModuloEndian_iff_kind _ _ _).mp hh)

/-- Writing a chunk of another type leaves an empty file. -/
theorem writeChunk_wrong {d : DataType} {c : DataChunk t} (hwf : fs.WF) (hb : Plain (segs h.base))
    (hp : Plain (segs path)) (hs : GoodSep m.separator) (hd : effective m.dataType = some d)
    (hn : kindOf d ≠ kindOfRs t) :
    (Writable fs (h.loc (chunkKey path m c.gridPosition)) →
      ∃ fs', writeChunk env h path m c fs = (.err .invalidInput, fs') ∧
        ∀ l, fs'.get l = setSpec fs (h.loc (chunkKey path m c.gridPosition)) [] l) ∧
    (¬ Writable fs (h.loc (chunkKey path m c.gridPosition)) →
      ∃ e, writeChunk env h path m c fs = (.err e, fs)) := by
  have hv : writeChunkBytes env.codecs env.native m c = ([], .err .invalidInput) := by
    unfold writeChunkBytes
    rw [checkArrayType_wrong hd hn]
  obtain ⟨k1, k2⟩ := storeSet_spec (h := h) (key := chunkKey path m c.gridPosition) ([], .err .invalidInput) hwf
    (plain_loc_chunk hb hp hs _)
  unfold writeChunk
  rw [hv]
  refine ⟨fun hw => ?_, k2⟩
  obtain ⟨fs', h1, _, h2⟩ := k1 hw
  exact ⟨fs', h1, h2⟩

theorem writeCoord_wrong {bbox : BBox} {fill : El t} {array : NdArr (El t)} {pos : List Nat} {existing : List (El t)}
    {d : DataType} (hwf : fs.WF) (hb : Plain (segs h.base))
    (hp : Plain (segs path)) (hs : GoodSep m.separator) (hd : effective m.dataType = some d)
    (hn : kindOf d ≠ kindOfRs t)
    (h1 : bbox.offset.length = m.chunkShape.length) (h2 : bbox.shape.length = m.chunkShape.length)
    (hlen : pos.length = m.chunkShape.length) (ha : array.shape = bbox.shape) (hk : ∀ k ∈ m.chunkShape, k ≠ 0)
    (hov : ∃ p, InBox bbox.offset bbox.shape p ∧ Covers m.chunkShape pos p)
    (hin : m.inBounds pos = .ok true) :
    (ChunkInBox m bbox pos ∨ fs.content (h.loc (chunkKey path m pos)) = none →
      (Writable fs (h.loc (chunkKey path m pos)) →
        ∃ fs', writeCoord env h path m bbox fill array pos existing fs = (.err .invalidInput, fs') ∧
          ∀ l, fs'.get l = setSpec fs (h.loc (chunkKey path m pos)) [] l) ∧
      (¬ Writable fs (h.loc (chunkKey path m pos)) →
        ∃ e, writeCoord env h path m bbox fill array pos existing fs = (.err e, fs))) ∧
    (¬ ChunkInBox m bbox pos → fs.content (h.loc (chunkKey path m pos)) ≠ none →
      writeCoord env h path m bbox fill array pos existing fs = (.err .invalidInput, fs)) := by
  have hck : (chunkOffset pos m.chunkShape).length = m.chunkShape.length := by simp [hlen]
  obtain ⟨p, hpb, hpc⟩ := hov
  have hne : (isectLoop m.chunkShape (chunkOffset pos m.chunkShape) bbox.shape bbox.offset).1.contains 0
      = false := by
    have hin := (inBox_isect (p := p) hck h2 h1).mpr ⟨covers_inBox hpc, hpb⟩
    by_cases hc : (isectLoop m.chunkShape (chunkOffset pos m.chunkShape) bbox.shape bbox.offset).1.contains 0
        = true
    · exact absurd hin ((inBox_empty (by
        have := isectLoop_length (s := m.chunkShape) (o := chunkOffset pos m.chunkShape) (s' := bbox.shape)
          (o' := bbox.offset)
        omega)).mp hc p)
    · simpa using hc
  obtain ⟨f1, f2⟩ := relRanges_facts hck h2 h1 hne
  obtain ⟨e1, e2⟩ := isect_sub hck h2 h1
  have copy : ∀ cur : NdArr (El t), cur.shape = m.chunkShape → ∃ view cur',
      array.slice (relRanges (isectLoop m.chunkShape (chunkOffset pos m.chunkShape) bbox.shape bbox.offset)
        bbox.offset) = .ok view ∧ cur.sliceAssign (relRanges (isectLoop m.chunkShape
          (chunkOffset pos m.chunkShape) bbox.shape bbox.offset) (chunkOffset pos m.chunkShape)) view
          = .ok cur' := fun cur hcur => copy_isect_ok hck h1 hcur ha f1 f2
  obtain ⟨view0, cur', hview, hcur'⟩ := copy (NdArr.ofMemory (El.default t) .rowMajor m.chunkShape
    (List.replicate m.chunkShape.prod fill)) rfl
  have hview' := hview
  simp only [relRanges] at hview' hcur'
  have hcb : m.chunkBounds pos = ⟨chunkOffset pos m.chunkShape, m.chunkShape⟩ := rfl
  have hint := intersect_eq (show (m.chunkBounds pos).offset.length = bbox.offset.length by
    rw [ArrayMetadata.chunkBounds, hck, h1])
  have hwhole := Any.whole_iff hlen h1 h2 hk hint
  unfold writeCoord
  simp only [M.bind_apply, M.lift_apply]
  rw [hint]
  simp only [hcb, BBox.sub, e2, Outcome.bind_ok, Outcome.pure_def] at hwhole ⊢
  rw [hview']
  simp only
  by_cases hfull : ChunkInBox m bbox pos
  · simp only [if_pos (hwhole.mpr hfull)]
    obtain ⟨k1, k2⟩ := writeChunk_wrong (env := env) (c := ⟨pos, view0.toVec m.order⟩) hwf hb hp hs hd hn
    refine ⟨fun _ => ⟨fun hw => ?_, fun hw => ?_⟩, fun hno => absurd hfull hno⟩
    · obtain ⟨fs', w1, w2⟩ := k1 hw
      refine ⟨fs', ?_, w2⟩
      simp only [M.bind_apply, w1]
    · obtain ⟨e, w1⟩ := k2 hw
      refine ⟨e, ?_⟩
      simp only [M.bind_apply, w1]
  · simp only [if_neg (fun hc => hfull (hwhole.mp hc))]
    unfold writePartial readChunkInto assertInBounds
    rw [hin]
    simp only [M.bind_apply, M.lift_apply, Outcome.bind_ok, if_true]
    rw [storeGet_eq hwf (plain_loc_chunk hb hp hs _)]
    refine ⟨?_, ?_⟩
    · intro hor
      have hnone := hor.resolve_left hfull
      rw [hnone]
      simp only [M.pure_apply, Bool.false_eq_true, if_false, fromShapeVec,
        List.length_replicate, if_true, Outcome.bind_ok, Outcome.pure_def, BBox.sub, e1]
      rw [hcur']
      obtain ⟨k1, k2⟩ := writeChunk_wrong (env := env) (c := ⟨pos, cur'.toVec m.order⟩) hwf hb hp hs hd hn
      refine ⟨fun hw => ?_, fun hw => ?_⟩
      · obtain ⟨fs', w1, w2⟩ := k1 hw
        refine ⟨fs', ?_, w2⟩
        simp only [w1]
      · obtain ⟨e, w1⟩ := k2 hw
        refine ⟨e, ?_⟩
        simp only [w1]
    · intro _ hsome
      cases hc : fs.content (h.loc (chunkKey path m pos)) with
      | none => exact absurd hc hsome
      | some b =>
        simp only [M.bind_apply, M.lift_apply, readChunkIntoBytes, checkArrayType_wrong hd hn, Outcome.bind_err]

/-- **C84 (violated), in general.** What `write_ndarray` does with elements of another type than the array's. It fails
at the first chunk. If the box contains that chunk, or if it is not stored, an empty file takes its place: the elements
of the chunk can no longer be read. Otherwise nothing changes. -/
theorem C84_violated_always (env : Env) (h : Hier) (path : Str) (m : ArrayMetadata) {t : RsType}
    (offset : List Nat) (array : NdArr (El t)) (fill : El t) (fs : Fs) (d : DataType) (c : List Nat) (hwf : fs.WF)
    (hb : Plain (segs h.base)) (hp : Plain (segs path)) (hs : GoodSep m.separator)
    (hd : effective m.dataType = some d) (hn : kindOf d ≠ kindOfRs t)
    (hl : m.shape.length = m.chunkShape.length) (hk : ∀ k ∈ m.chunkShape, k ≠ 0) (hne : m.shape ≠ [])
    (ho : offset.length = m.shape.length) (ha : array.shape.length = m.shape.length)
    (hf : effectiveFillValue env m t = .ok fill) (hc : FirstChunk m ⟨offset, array.shape⟩ c) :
    (writeNdarray env h path m offset array fs).1 ≠ .ok () ∧
    (ChunkInBox m ⟨offset, array.shape⟩ c ∨ fs.content (h.loc (chunkKey path m c)) = none →
      Writable fs (h.loc (chunkKey path m c)) →
      (writeNdarray env h path m offset array fs).1 = .err .invalidInput ∧
      (writeNdarray env h path m offset array fs).2.content (h.loc (chunkKey path m c)) = some [] ∧
      ∀ l, l ≠ h.loc (chunkKey path m c) →
        (writeNdarray env h path m offset array fs).2.content l = fs.content l) ∧
    (¬ ChunkInBox m ⟨offset, array.shape⟩ c → fs.content (h.loc (chunkKey path m c)) ≠ none →
      writeNdarray env h path m offset array fs = (.err .invalidInput, fs)) := by
  obtain ⟨it, xs, hit, hy, hsorted, _, hmem⟩ := C16_partial m ⟨offset, array.shape⟩ hl hk hne ho ha
  rw [yields_iff] at hy
  subst hy
  obtain ⟨⟨y, y1, y2, y3⟩, hmin⟩ := hc
  have hmem := hmem ⟨y, y1, y2⟩
  have hcm : c ∈ it.rest := (hmem c).mpr ⟨y, y1, y2, y3⟩
  obtain ⟨rest, hrest⟩ : ∃ rest, it.rest = c :: rest := by
    cases hr : it.rest with
    | nil => rw [hr] at hcm; simp at hcm
    | cons x rest =>
      rw [hr] at hcm hsorted
      rcases List.mem_cons.mp hcm with rfl | hx
      · exact ⟨rest, rfl⟩
      · exact absurd ((List.pairwise_cons.mp hsorted).1 c hx) (hmin x ((hmem x).mp (by rw [hr]; simp)))
  have hin := (C13_partial m c hl hk).1 ⟨y, y1, y3⟩
  obtain ⟨k1, k2⟩ := writeCoord_wrong (env := env) (bbox := ⟨offset, array.shape⟩) (fill := fill) (array := array)
    (existing := []) hwf hb hp hs hd hn (by simpa [ho] using hl) (by simpa [ha] using hl) (Covers.length y3).2 rfl hk
    ⟨y, y2, y3⟩ hin
  have hrun : ∀ r fs', writeCoord env h path m ⟨offset, array.shape⟩ fill array c [] fs = (.err r, fs') →
      writeNdarray env h path m offset array fs = (.err r, fs') := by
    intro r fs' hw
    unfold writeNdarray
    rw [if_neg (by simpa using ha)]
    simp only [M.bind_apply, M.lift_apply, hf, hit, hrest, writeLoop, hw]
  refine ⟨?_, ?_, ?_⟩
  · by_cases hor : ChunkInBox m ⟨offset, array.shape⟩ c ∨ fs.content (h.loc (chunkKey path m c)) = none
    · by_cases hw : Writable fs (h.loc (chunkKey path m c))
      · obtain ⟨fs', w1, _⟩ := (k1 hor).1 hw
        rw [hrun _ _ w1]
        simp
      · obtain ⟨e, w1⟩ := (k1 hor).2 hw
        rw [hrun _ _ w1]
        simp
    · rw [hrun _ _ (k2 (fun h => hor (.inl h)) fun h => hor (.inr h))]
      simp
  · intro hor hw
    obtain ⟨fs', w1, w2⟩ := (k1 hor).1 hw
    rw [hrun _ _ w1]
    refine ⟨rfl, ?_, ?_⟩
    · unfold Fs.content
      rw [w2, setSpec_self]
    · intro l hll
      unfold Fs.content
      rw [w2, setSpec, if_neg hll]
      by_cases hc' : l <+: h.loc (chunkKey path m c) ∧ fs.get l = none
      · rw [if_pos hc', hc'.2]
      · rw [if_neg hc']
  · intro hno hsome
    exact hrun _ _ (k2 hno hsome)

/-- The hypotheses hold in the case of `C84_violated`, where the box is the second chunk. -/
example :
    (writeNdarray Demo.env Demo.hier Demo.path Demo.arr [2] (⟨[2], fun _ => 5#8⟩ : NdArr (El .u8)) demoFs).1
      = .err .invalidInput ∧
    (writeNdarray Demo.env Demo.hier Demo.path Demo.arr [2] (⟨[2], fun _ => 5#8⟩ : NdArr (El .u8)) demoFs).2.content
      (Demo.hier.loc (chunkKey Demo.path Demo.arr [1])) = some [] := by
  have hfirst : FirstChunk Demo.arr ⟨[2], [2]⟩ [1] := by
    refine ⟨⟨[2], by simp [Demo.arr, Inside], by simp [InBox], by simp [Demo.arr, Covers]⟩, ?_⟩
    rintro c ⟨p, _, h2, h3⟩
    match p, c, h2, h3 with
    | [x], [y], h2, h3 =>
      simp only [InBox, Covers, Demo.arr, and_true] at h2 h3
      intro hlt
      rcases List.cons_lt_cons_iff.mp hlt with hlt | ⟨_, hlt⟩
      · omega
      · exact absurd hlt (by simp)
  have hall : ChunkInBox Demo.arr ⟨[2], [2]⟩ [1] := by
    intro p hp
    match p, hp with
    | [x], hp => simp only [InBox, Covers, Demo.arr, and_true] at hp ⊢; omega
  have hwf : demoFs.WF := storeSet_wf Demo.emptyFs_wf (by decide)
  have hget : demoFs.get (Demo.hier.loc (chunkKey Demo.path Demo.arr [1])) = some (.file [1#8, 2#8, 0#8, 7#8]) :=
    Fs.content_eq_some.mp (by decide +kernel)
  have hw : Writable demoFs (Demo.hier.loc (chunkKey Demo.path Demo.arr [1])) := by
    refine ⟨fun x hx hne' d hd => ?_, by rw [hget]; simp⟩
    rw [hwf.dir_of_prefix hx hne' hget] at hd
    simp at hd
  have := (C84_violated_always Demo.env Demo.hier Demo.path Demo.arr [2] (⟨[2], fun _ => 5#8⟩ : NdArr (El .u8)) 0#8
    demoFs (.uint .B2 .big) [1] hwf (by decide) (by decide) (.inl rfl) rfl (by decide) rfl (by decide) (by decide) rfl rfl (by decide)
    hfirst).2.1 (.inl hall) hw
  exact ⟨this.1, this.2.1⟩

end Zarr
