import Verif.Props.TotalNd
/-!
# A box write that fails: C84
-/

namespace Zarr

open Spec

variable {env : Env} {h : Hier} {path : Str} {m : ArrayMetadata} {t : RsType} {fs fs' : Fs} {bbox : BBox}

/-- A write of a chunk that fits the array, and that does not succeed, changes nothing. -/
theorem writeChunk_failed {c : DataChunk t} {d : DataType} {r : Outcome Unit} (hwf : fs.WF)
    (hb : Plain (segs h.base)) (hp : Plain (segs path)) (hs : GoodSep m.separator)
    (hd : effective m.dataType = some d) (hk : kindOf d = kindOfRs t)
    (hlen : c.data.length = m.chunkShape.prod) (hsm : m.chunkShape.prod < 2 ^ 32)
    (hcodec : ∀ segs, ((codecOf env.codecs m.compressor).encode segs).2 = .ok ())
    (hw : writeChunk env h path m c fs = (r, fs')) (hr : r ≠ .ok ()) : fs' = fs := by
  obtain ⟨_, s2⟩ := storeSet_spec (h := h) (key := chunkKey path m c.gridPosition)
    (writeChunkBytes env.codecs env.native m c) hwf
    (plain_loc_chunk (h := h) (m := m) hb hp hs c.gridPosition)
  by_cases hwr : Writable fs (h.loc (chunkKey path m c.gridPosition))
  · obtain ⟨fs1, h1, _⟩ := writeChunk_total (env := env) hwf hb hp hs hd hk hlen hsm hcodec hwr
    rw [h1] at hw
    exact absurd (congrArg Prod.fst hw).symm hr
  · obtain ⟨e, h1⟩ := s2 hwr
    unfold writeChunk at hw
    rw [h1] at hw
    exact (congrArg Prod.snd hw).symm

theorem writeCoord_cases {fill : El t} {array : NdArr (El t)} {pos : List Nat}
    {existing : List (El t)} {r : Outcome (List (El t))}
    (hw : writeCoord env h path m bbox fill array pos existing fs = (r, fs')) :
    fs' = fs ∨ ∃ writeBb arrBb view, (m.chunkBounds pos).intersect bbox = .ok writeBb ∧
      writeBb.sub bbox.offset = .ok arrBb ∧ array.slice arrBb.toSlice = .ok view ∧
      ((writeBb = m.chunkBounds pos ∧
        (do writeChunk env h path m ⟨pos, view.toVec m.order⟩
            pure existing : M Fs (List (El t))) fs = (r, fs')) ∨
       (writeBb ≠ m.chunkBounds pos ∧
        writePartial env h path m fill pos (m.chunkBounds pos) writeBb view existing fs
          = (r, fs'))) := by
  unfold writeCoord at hw
  rw [M.bind_apply, M.lift_apply] at hw
  cases h1 : (m.chunkBounds pos).intersect bbox with
  | err x => rw [h1] at hw; exact .inl (congrArg Prod.snd hw).symm
  | panic => rw [h1] at hw; exact .inl (congrArg Prod.snd hw).symm
  | ok writeBb =>
    rw [h1] at hw
    simp only at hw
    rw [M.bind_apply, M.lift_apply] at hw
    cases h2 : writeBb.sub bbox.offset with
    | err x => rw [h2] at hw; exact .inl (congrArg Prod.snd hw).symm
    | panic => rw [h2] at hw; exact .inl (congrArg Prod.snd hw).symm
    | ok arrBb =>
      rw [h2] at hw
      simp only at hw
      rw [M.bind_apply, M.lift_apply] at hw
      cases h3 : array.slice arrBb.toSlice with
      | err x => rw [h3] at hw; exact .inl (congrArg Prod.snd hw).symm
      | panic => rw [h3] at hw; exact .inl (congrArg Prod.snd hw).symm
      | ok view =>
        rw [h3] at hw
        simp only at hw
        refine .inr ⟨_, _, _, rfl, h2, h3, ?_⟩
        by_cases hf : writeBb = m.chunkBounds pos
        · rw [if_pos hf] at hw
          exact .inl ⟨hf, hw⟩
        · rw [if_neg hf] at hw
          exact .inr ⟨hf, hw⟩

/-- A round of the loop of `write_ndarray` that does not succeed changes nothing. -/
theorem writeCoord_failed {fill : El t} {array : NdArr (El t)} {pos : List Nat}
    {existing : List (El t)} {d : DataType} {r : Outcome (List (El t))} (hwf : fs.WF)
    (hb : Plain (segs h.base)) (hp : Plain (segs path)) (hs : GoodSep m.separator)
    (hd : effective m.dataType = some d) (hkind : kindOf d = kindOfRs t)
    (hsm : m.chunkShape.prod < 2 ^ 32)
    (hcodec : ∀ segs, ((codecOf env.codecs m.compressor).encode segs).2 = .ok ())
    (h1 : bbox.offset.length = m.chunkShape.length) (h2 : bbox.shape.length = m.chunkShape.length)
    (hpl : pos.length = m.chunkShape.length)
    (hw : writeCoord env h path m bbox fill array pos existing fs = (r, fs'))
    (hr : ∀ e, r ≠ .ok e) : fs' = fs := by
  have hck : (chunkOffset pos m.chunkShape).length = m.chunkShape.length := by simp [hpl]
  obtain ⟨e1, e2⟩ := isect_sub (s := m.chunkShape) (o := chunkOffset pos m.chunkShape)
    (w := bbox.shape) (k := bbox.offset) hck h2 h1
  rcases writeCoord_cases hw with hw | ⟨writeBb, arrBb, view, i1, i2, hv, i4⟩
  · exact hw
  clear hw
  rw [intersect_eq (show (m.chunkBounds pos).offset.length = bbox.offset.length by
    rw [ArrayMetadata.chunkBounds, hck, h1])] at i1
  simp only [Outcome.ok.injEq, ArrayMetadata.chunkBounds] at i1
  subst i1
  simp only [BBox.sub, e2, Outcome.bind_ok, Outcome.pure_def, Outcome.ok.injEq] at i2
  subst i2
  have hv : array.slice (relRanges (isectLoop m.chunkShape (chunkOffset pos m.chunkShape) bbox.shape
      bbox.offset) bbox.offset) = .ok view := hv
  simp only [ArrayMetadata.chunkBounds] at i4
  -- a failing chunk write of the right length changes nothing
  have fin : ∀ (v : List (El t)) (x : List (El t)), v.length = m.chunkShape.prod →
      (do writeChunk env h path m ⟨pos, v⟩
          pure x : M Fs (List (El t))) fs = (r, fs') → fs' = fs := by
    intro v x hvl hrun
    simp only [M.bind_apply] at hrun
    cases hwc : writeChunk env h path m ⟨pos, v⟩ fs with
    | mk q fs1 =>
      rw [hwc] at hrun
      cases q with
      | ok u =>
        simp only [M.pure_apply, Prod.mk.injEq] at hrun
        exact absurd hrun.1.symm (hr _)
      | err x =>
        have := writeChunk_failed hwf hb hp hs hd hkind hvl hsm hcodec hwc (by simp)
        exact (show fs1 = fs' from congrArg Prod.snd hrun) ▸ this
      | panic =>
        have := writeChunk_failed hwf hb hp hs hd hkind hvl hsm hcodec hwc (by simp)
        exact (show fs1 = fs' from congrArg Prod.snd hrun) ▸ this
  rcases i4 with ⟨hfull, hw⟩ | ⟨_, hw⟩
  · refine fin _ _ ?_ hw
    simp only [BBox.mk.injEq] at hfull
    have hf : isectLoop m.chunkShape (chunkOffset pos m.chunkShape) bbox.shape bbox.offset
        = (m.chunkShape, chunkOffset pos m.chunkShape) := Prod.ext hfull.2 hfull.1
    rw [hf] at hv
    rw [toVec_length]
    unfold NdArr.slice at hv
    split at hv
    · simp only [Outcome.ok.injEq] at hv
      subst hv
      rw [relRanges_shape hck h1]
    · simp at hv
  · unfold writePartial at hw
    simp only [M.bind_apply, C11, readChunk_look] at hw
    have hoff : (BBox.mk (isectLoop m.chunkShape (chunkOffset pos m.chunkShape) bbox.shape
        bbox.offset).2 (isectLoop m.chunkShape (chunkOffset pos m.chunkShape) bbox.shape
        bbox.offset).1).sub (chunkOffset pos m.chunkShape) = .ok ⟨List.zipWith (· - ·)
          (isectLoop m.chunkShape (chunkOffset pos m.chunkShape) bbox.shape
          bbox.offset).2 (chunkOffset pos m.chunkShape), (isectLoop m.chunkShape
            (chunkOffset pos m.chunkShape) bbox.shape bbox.offset).1⟩ := by
      simp only [BBox.sub, e1, Outcome.bind_ok, Outcome.pure_def]
    have finish : ∀ (cur : NdArr (El t)) (o : Order), cur.shape = m.chunkShape →
        (do let chunkWriteBb ← M.lift ((BBox.mk (isectLoop m.chunkShape
              (chunkOffset pos m.chunkShape) bbox.shape bbox.offset).2 (isectLoop m.chunkShape
              (chunkOffset pos m.chunkShape) bbox.shape bbox.offset).1).sub
              (chunkOffset pos m.chunkShape))
            let a ← M.lift (cur.sliceAssign chunkWriteBb.toSlice view)
            writeChunk env h path m ⟨pos, a.toVec m.order⟩
            pure (a.toVec o) : M Fs (List (El t))) fs = (r, fs') → fs' = fs := by
      intro cur o hc1 hrun
      rw [M.bind_apply, M.lift_apply, hoff] at hrun
      simp only at hrun
      rw [M.bind_apply, M.lift_apply] at hrun
      cases hsa : cur.sliceAssign (BBox.mk (List.zipWith (· - ·)
          (isectLoop m.chunkShape (chunkOffset pos m.chunkShape) bbox.shape
          bbox.offset).2 (chunkOffset pos m.chunkShape)) (isectLoop m.chunkShape
            (chunkOffset pos m.chunkShape) bbox.shape bbox.offset).1).toSlice view with
      | err x => rw [hsa] at hrun; exact (congrArg Prod.snd hrun).symm
      | panic => rw [hsa] at hrun; exact (congrArg Prod.snd hrun).symm
      | ok cur' =>
        rw [hsa] at hrun
        refine fin _ _ ?_ hrun
        rw [toVec_length]
        unfold NdArr.sliceAssign at hsa
        split at hsa
        · simp only [Outcome.ok.injEq] at hsa
          subst hsa
          simp only
          rw [hc1]
        · simp at hsa
    cases hlk : look env h path m t fs pos with
    | err x => rw [hlk] at hw; exact (congrArg Prod.snd hw).symm
    | panic => rw [hlk] at hw; exact (congrArg Prod.snd hw).symm
    | ok old =>
      rw [hlk] at hw
      cases old with
      | none =>
        simp only [M.lift_apply, Bool.false_eq_true, if_false, fromShapeVec,
          List.length_replicate, if_true, Outcome.bind_ok, Outcome.pure_def] at hw
        exact finish (NdArr.ofMemory (El.default t) .rowMajor m.chunkShape
          (List.replicate m.chunkShape.prod fill)) .rowMajor rfl hw
      | some ch =>
        obtain ⟨_, hgp, _⟩ := look_some hlk
        simp only [M.lift_apply, if_true, fromShapeVec] at hw
        by_cases hpl2 : ch.data.length = m.chunkShape.prod
        · simp only [hpl2, if_true, Outcome.bind_ok, Outcome.pure_def, hgp,
            ArrayMetadata.chunkBounds] at hw
          exact finish (NdArr.ofMemory (El.default t) m.order m.chunkShape ch.data) m.order rfl hw
        · simp only [hpl2, if_false] at hw
          exact (congrArg Prod.snd hw).symm

/-- The loop of `write_ndarray`, however it ends, is the successful loop over the chunks it got
through. -/
theorem writeLoop_done {fill : El t} {array : NdArr (El t)} {d : DataType}
    (hb : Plain (segs h.base)) (hp : Plain (segs path)) (hs : GoodSep m.separator)
    (hd : effective m.dataType = some d) (hkind : kindOf d = kindOfRs t)
    (hsm : m.chunkShape.prod < 2 ^ 32)
    (hlaw : (codecOf env.codecs m.compressor).Lawful)
    (hcodec : ∀ segs, ((codecOf env.codecs m.compressor).encode segs).2 = .ok ())
    (hl : m.shape.length = m.chunkShape.length) (hk : ∀ k ∈ m.chunkShape, k ≠ 0)
    (hfill : effectiveFillValue env m t = .ok fill)
    (h1 : bbox.offset.length = m.chunkShape.length) (h2 : bbox.shape.length = m.chunkShape.length)
    (coords : List (List Nat)) (existing : List (El t)) (hwf : fs.WF)
    (ht : ∀ c ∈ coords, Touches m.shape m.chunkShape bbox.offset bbox.shape c) {r : Outcome Unit}
    (hw : writeLoop env h path m bbox fill array coords existing fs = (r, fs')) :
    ∃ done, done <+: coords ∧ (r = .ok () → done = coords) ∧
      writeLoop env h path m bbox fill array done existing fs = (.ok (), fs') := by
  induction coords generalizing existing fs with
  | nil =>
    simp only [writeLoop, M.pure_apply, Prod.mk.injEq] at hw
    exact ⟨[], List.prefix_rfl, fun _ => rfl, by rw [← hw.2]; rfl⟩
  | cons pos rest ih =>
    simp only [writeLoop, M.bind_apply] at hw
    cases hwc : writeCoord env h path m bbox fill array pos existing fs with
    | mk q fs1 =>
      rw [hwc] at hw
      cases q with
      | err x =>
        have he := writeCoord_failed hwf hb hp hs hd hkind hsm hcodec h1 h2
          (Touches.length (ht pos (by simp))) hwc (by simp)
        simp only [Prod.mk.injEq] at hw
        refine ⟨[], List.nil_prefix, fun hr => ?_, ?_⟩
        · rw [hr] at hw; simp at hw
        · simp only [writeLoop, M.pure_apply]
          rw [← hw.2, he]
      | panic =>
        have he := writeCoord_failed hwf hb hp hs hd hkind hsm hcodec h1 h2
          (Touches.length (ht pos (by simp))) hwc (by simp)
        simp only [Prod.mk.injEq] at hw
        refine ⟨[], List.nil_prefix, fun hr => ?_, ?_⟩
        · rw [hr] at hw; simp at hw
        · simp only [writeLoop, M.pure_apply]
          rw [← hw.2, he]
      | ok e =>
        simp only at hw
        obtain ⟨w1, _⟩ := writeCoord_spec hwf hb hp hs hlaw hl hk hfill h1 h2 (ht pos (by simp)) hwc
        obtain ⟨done, d1, d2, d3⟩ := ih e w1 (fun c hc => ht c (by simp [hc])) hw
        refine ⟨pos :: done, List.cons_prefix_cons.mpr ⟨rfl, d1⟩, fun hr => by rw [d2 hr], ?_⟩
        simp only [writeLoop, M.bind_apply, hwc]
        exact d3

/-- **C84 (partial).** However `write_ndarray` ends, with `Ok`, an error or a panic, there is a list
of chunks, from the beginning of what `bounded_coord_iter` yields for the box, such that afterwards
the elements of the box in these chunks are the new ones and all others the old ones: every box that
could be read before can be read, and shows this. After `Ok` the list is all that is yielded.
Assumed: the element type is the array's, chunks have fewer than 2^32 elements, the compressor
accepts all data. Missing: failures of the type check and of the compressor, which come after the
file was emptied (see `C84_violated`). -/
theorem C84_partial (env : Env) (h : Hier) (path : Str) (m : ArrayMetadata) {t : RsType}
    (offset : List Nat) (array : NdArr (El t)) (fs fs' : Fs) (d : DataType) (r : Outcome Unit)
    (hwf : fs.WF) (hb : Plain (segs h.base)) (hp : Plain (segs path)) (hs : GoodSep m.separator)
    (hd : effective m.dataType = some d) (hkind : kindOf d = kindOfRs t)
    (hlaw : (codecOf env.codecs m.compressor).Lawful)
    (hcodec : ∀ segs, ((codecOf env.codecs m.compressor).encode segs).2 = .ok ())
    (hl : m.shape.length = m.chunkShape.length) (hn : m.shape ≠ [])
    (hsm : m.chunkShape.prod < 2 ^ 32)
    (hw : writeNdarray env h path m offset array fs = (r, fs')) :
    ∃ done, (∀ it xs, m.boundedCoordIter ⟨offset, array.shape⟩ = .ok it → Yields it xs →
        done <+: xs ∧ (r = .ok () → done = xs)) ∧
      ∀ (b : BBox) (a : NdArr (El t)), BBox.new b.offset b.shape = .ok b →
        (readNdarray env h path m t b fs).1 = .ok a →
        ∃ a', (readNdarray env h path m t b fs').1 = .ok a' ∧ a'.shape = b.shape ∧
          ∀ i, Inside b.shape i → Inside m.shape (shift b.offset i) →
            (InBox offset array.shape (shift b.offset i) →
              (∃ c ∈ done, Covers m.chunkShape c (shift b.offset i)) →
              a'.get i = array.get (rel offset (shift b.offset i))) ∧
            (¬ (InBox offset array.shape (shift b.offset i) ∧
              ∃ c ∈ done, Covers m.chunkShape c (shift b.offset i)) → a'.get i = a.get i) := by
  have same : fs' = fs → ∀ (b : BBox) (a : NdArr (El t)), BBox.new b.offset b.shape = .ok b →
        (readNdarray env h path m t b fs).1 = .ok a →
        ∃ a', (readNdarray env h path m t b fs').1 = .ok a' ∧ a'.shape = b.shape ∧
          ∀ i, Inside b.shape i → Inside m.shape (shift b.offset i) →
            (InBox offset array.shape (shift b.offset i) →
              (∃ c ∈ ([] : List (List Nat)), Covers m.chunkShape c (shift b.offset i)) →
              a'.get i = array.get (rel offset (shift b.offset i))) ∧
            (¬ (InBox offset array.shape (shift b.offset i) ∧
              ∃ c ∈ ([] : List (List Nat)), Covers m.chunkShape c (shift b.offset i)) →
              a'.get i = a.get i) := by
    rintro rfl b a hbb hr
    exact ⟨a, hr, (C20 env h path m t b _ a hl hn hbb hr).1, fun i _ _ => ⟨by simp, fun _ => rfl⟩⟩
  unfold writeNdarray at hw
  split at hw
  · simp only [M.lift_apply, Prod.mk.injEq] at hw
    exact ⟨[], fun it xs _ _ => ⟨List.nil_prefix, fun hr => by rw [hr] at hw; simp at hw⟩,
      same hw.2.symm⟩
  · rename_i ha
    simp only [Decidable.not_not] at ha
    rw [M.bind_apply, M.lift_apply] at hw
    cases hfill : effectiveFillValue env m t with
    | err e =>
      simp only [hfill, Prod.mk.injEq] at hw
      exact ⟨[], fun it xs _ _ => ⟨List.nil_prefix, fun hr => by rw [hr] at hw; simp at hw⟩,
        same hw.2.symm⟩
    | panic => exact absurd hfill fill_no_panic
    | ok fill =>
      simp only [hfill] at hw
      rw [M.bind_apply, M.lift_apply] at hw
      cases hit : m.boundedCoordIter ⟨offset, array.shape⟩ with
      | err e =>
        simp only [hit, Prod.mk.injEq] at hw
        exact ⟨[], fun it xs _ _ => ⟨List.nil_prefix, fun hr => by rw [hr] at hw; simp at hw⟩,
          same hw.2.symm⟩
      | panic =>
        simp only [hit, Prod.mk.injEq] at hw
        exact ⟨[], fun it xs _ _ => ⟨List.nil_prefix, fun hr => by rw [hr] at hw; simp at hw⟩,
          same hw.2.symm⟩
      | ok it =>
        simp only [hit] at hw
        have hol := boundedCoordIter_dim hit
        simp only at hol
        have hb' : (BBox.mk offset array.shape).offset.length
            = (BBox.mk offset array.shape).shape.length := by simp only; omega
        obtain ⟨_, hk, _⟩ := boundedCoordIter_ok hl hb' hit
        have ht : ∀ c ∈ it.rest, Touches m.shape m.chunkShape offset array.shape c :=
          fun c hc => (mem_boundedCoordIter hl hb' hn hit).mp hc
        obtain ⟨done, d1, d2, d3⟩ := writeLoop_done (bbox := ⟨offset, array.shape⟩) hb hp hs hd hkind
          hsm hlaw hcodec hl hk hfill (by simp only; omega) (by simp only; omega) it.rest [] hwf ht hw
        obtain ⟨w1, w2, w3, w4⟩ := writeLoop_spec (bbox := ⟨offset, array.shape⟩) hb hp hs hlaw hl hk
          hfill (by simp only; omega) (by simp only; omega) done [] hwf
          (fun c hc => ht c (d1.subset hc)) d3
        refine ⟨done, ?_, ?_⟩
        · intro it' xs hit' hy
          rw [Outcome.ok.injEq] at hit'
          subst hit'
          rw [yields_iff.mp hy]
          exact ⟨d1, d2⟩
        · intro b a hbb hr
          have hbl := BBox.new_ok hbb
          obtain ⟨hdim, it2, hit2, hlk⟩ := readNdarray_looks hl hbl hr
          obtain ⟨a', ha'⟩ : ∃ a', (readNdarray env h path m t b fs').1 = .ok a' := by
            refine readNdarray_ok hl hbl hdim hfill hit2 (fun c hc => ?_)
            by_cases hmem : c ∈ done
            · obtain ⟨v, hv, hvl⟩ := w3 c hmem
              exact .inr ⟨_, hv, by simp only; omega⟩
            · rw [w2 c hmem]
              obtain ⟨x, hx⟩ := hlk c hc
              cases x with
              | none => exact .inl hx
              | some x =>
                have := (look_some hx).2.2
                rw [Nat.mod_eq_of_lt hsm] at this
                exact .inr ⟨x, hx, by omega⟩
          refine ⟨a', ha', (C20 env h path m t b _ a' hl hn hbb ha').1, fun i hi hin => ?_⟩
          have r1 := readNdarray_reads hl hn hbb hr i hi hin
          have r2 := readNdarray_reads hl hn hbb ha' i hi hin
          have hpl : (shift b.offset i).length = m.chunkShape.length := by
            rw [Inside.length hin, hl]
          constructor
          · rintro hbx ⟨c, hc, hcv⟩
            obtain ⟨_, rfl⟩ := (covers_iff hk).mp hcv
            exact r2.unique ((w4 _ hpl hc).1 hbx)
          · intro hno
            by_cases hc : chunkOf m.chunkShape (shift b.offset i) ∈ done
            · have hbx : ¬ InBox offset array.shape (shift b.offset i) := fun hbx =>
                hno ⟨hbx, _, hc, (covers_iff hk).mpr ⟨hpl, rfl⟩⟩
              exact r2.unique ((w4 _ hpl hc).2 hbx _ r1)
            · exact r2.unique ((Reads.congr (w2 _ hc)).mpr r1)

/-- The demo array with its last chunk damaged: a write over all five elements gets through two
chunks and then fails, because the last chunk must be read. -/
def damagedFs : Fs :=
  (storeSet Demo.hier (chunkKey Demo.path Demo.arr [2]) ([1#8], .ok ()) demoFs).2

/-- Five new elements. -/
abbrev fiveNew : NdArr (El .u16) := ⟨[5], fun i => BitVec.ofNat 16 (i.sum + 11)⟩

set_option maxRecDepth 20000 in
example :
    (writeNdarray Demo.env Demo.hier Demo.path Demo.arr [0] fiveNew damagedFs).1
      = .err .unexpectedEof ∧
    ((readNdarray Demo.env Demo.hier Demo.path Demo.arr .u16 ⟨[0], [4]⟩
      (writeNdarray Demo.env Demo.hier Demo.path Demo.arr [0] fiveNew damagedFs).2).1
        >>= fun a => .ok (a.toVec .rowMajor)) = .ok [11#16, 12#16, 13#16, 14#16] ∧
    Demo.arr.shape.length = Demo.arr.chunkShape.length ∧ Demo.arr.chunkShape.prod < 2 ^ 32 ∧
    effective Demo.arr.dataType = some (.uint .B2 .big) ∧
    kindOf (.uint .B2 .big) = kindOfRs .u16 := by decide +kernel

/-- **C84 (violated).** `write_ndarray` with elements of another type fails at the first chunk it
covers, but the elements of that chunk are neither the old nor the new ones: they can no longer be
read. -/
theorem C84_violated :
    let fs' := (writeNdarray Demo.env Demo.hier Demo.path Demo.arr [2]
      (⟨[2], fun _ => 5#8⟩ : NdArr (El .u8)) demoFs).2
    (writeNdarray Demo.env Demo.hier Demo.path Demo.arr [2]
      (⟨[2], fun _ => 5#8⟩ : NdArr (El .u8)) demoFs).1 = .err .invalidInput ∧
    ((readNdarray Demo.env Demo.hier Demo.path Demo.arr .u16 ⟨[2], [2]⟩ demoFs).1
      >>= fun a => .ok (a.toVec .rowMajor)) = .ok [258#16, 7#16] ∧
    ((readNdarray Demo.env Demo.hier Demo.path Demo.arr .u16 ⟨[2], [2]⟩ fs').1
      >>= fun a => .ok (a.toVec .rowMajor)) = .err .unexpectedEof := by decide +kernel

end Zarr
