import Verif.Lemmas.NdRead
import Verif.Props.ChunkMap
import Verif.Props.Grid
/-!
# Lemmas on writing n-dimensional boxes
-/

namespace Zarr

open Spec

/-- The element at a point, as the chunk that covers it and the fill value give it. -/
def Reads (env : Env) (h : Hier) (path : Str) (m : ArrayMetadata) (t : RsType) (fs : Fs)
    (p : List Nat) (v : El t) : Prop :=
  (∃ c, look env h path m t fs (chunkOf m.chunkShape p) = .ok (some c) ∧
    c.data[linear m.order m.chunkShape (within m.chunkShape p)]? = some v) ∨
  (look env h path m t fs (chunkOf m.chunkShape p) = .ok none ∧ effectiveFillValue env m t = .ok v)

section

variable {env : Env} {h : Hier} {path : Str} {m : ArrayMetadata} {t : RsType} {bbox : BBox}
  {fs fs' : Fs}

theorem Reads.unique {p : List Nat} {v v' : El t} (h1 : Reads env h path m t fs p v)
    (h2 : Reads env h path m t fs p v') : v = v' := by
  rcases h1 with ⟨c, h1, h1'⟩ | ⟨h1, h1'⟩ <;> rcases h2 with ⟨c2, h2, h2'⟩ | ⟨h2, h2'⟩
  · rw [h1] at h2
    simp only [Outcome.ok.injEq, Option.some.injEq] at h2
    subst h2
    rw [h1'] at h2'
    simpa using h2'
  · rw [h1] at h2; simp at h2
  · rw [h1] at h2; simp at h2
  · rw [h1'] at h2'
    simpa using h2'

theorem Reads.congr {p : List Nat} {v : El t}
    (he : look env h path m t fs' (chunkOf m.chunkShape p)
      = look env h path m t fs (chunkOf m.chunkShape p)) :
    Reads env h path m t fs' p v ↔ Reads env h path m t fs p v := by
  unfold Reads; rw [he]

/-! ## The range of a full chunk -/

theorem sub_self_ranges {s o i : List Nat} (h1 : o.length = s.length) (h2 : i.length = s.length) :
    List.zipWith (· - ·) i ((relRanges (s, o) o).map (·.1)) = i := by
  induction s generalizing o i with
  | nil => cases i <;> simp_all
  | cons a s ih =>
    cases o with
    | nil => simp at h1
    | cons b o =>
      cases i with
      | nil => simp at h2
      | cons c i =>
        have := ih (o := o) (i := i) (by simpa using h1) (by simpa using h2)
        rw [show relRanges (a :: s, b :: o) (b :: o)
          = (b - b, b - b + a) :: relRanges (s, o) o from relRanges_cons a b (s, o) b o]
        simp only [List.map_cons, List.zipWith_cons_cons, this]
        simp

theorem full_index {s o w k i : List Nat} (h1 : o.length = s.length) (h2 : w.length = s.length)
    (h3 : k.length = s.length) (hf : isectLoop s o w k = (s, o)) (hi : Inside s i) :
    InBox k w (shift o i) ∧
    List.zipWith (· + ·) i ((relRanges (s, o) k).map (·.1)) = rel k (shift o i) := by
  have hb : InBox k w (shift o i) := by
    have := inBox_isect (p := shift o i) h1 h2 h3
    rw [hf] at this
    exact (this.mp ((inside_shift h1).mp hi).2).2
  refine ⟨hb, ?_⟩
  have := index_isect h1 h2 h3 hi hb
  rw [hf, sub_self_ranges h1 (Inside.length hi)] at this
  exact this

theorem starts_of_full {s k o w c : List Nat} (hk : ∀ x ∈ k, x ≠ 0)
    (ht : Touches s k o w c) (hf : isectLoop k (chunkOffset c k) w o = (k, chunkOffset c k)) :
    Starts s k c := by
  induction s generalizing k o w c with
  | nil => cases k <;> cases o <;> cases w <;> cases c <;> simp_all [Touches, Starts]
  | cons a s ih =>
    cases k <;> cases o <;> cases w <;> cases c <;> simp only [Touches] at ht
    rename_i b k d o e w f c
    have h1 := ht.1
    simp only [chunkOffset, List.zipWith_cons_cons, isectLoop] at hf
    injection hf with hf1 hf2
    injection hf1 with hf1 hf3
    injection hf2 with hf2 hf4
    have hb := hk b (by simp)
    refine ⟨?_, ih (fun x hx => hk x (by simp [hx])) ht.2 ?_⟩
    · have : d ≤ f * b := by omega
      omega
    · exact Prod.ext hf3 hf4

/-! ## Writing one chunk -/

/-- A successful chunk write: what reads give afterwards. -/
theorem writeChunk_look {c : DataChunk t} (hwf : fs.WF) (hb : Plain (segs h.base))
    (hp : Plain (segs path)) (hs : GoodSep m.separator)
    (hcodec : (codecOf env.codecs m.compressor).Lawful)
    (hlen : c.data.length = m.chunkShape.prod) (hin : m.inBounds c.gridPosition = .ok true)
    (hw : writeChunk env h path m c fs = (.ok (), fs')) :
    fs'.WF ∧ (∀ pos, pos ≠ c.gridPosition →
      look env h path m t fs' pos = look env h path m t fs pos) ∧
    look env h path m t fs' c.gridPosition = .ok (some c) := by
  refine ⟨?_, fun pos hne => ?_, ?_⟩
  · have hpl := plain_loc_chunk (h := h) (m := m) hb hp hs c.gridPosition
    exact (storeSet_frame (v := writeChunkBytes env.codecs env.native m c) hwf hpl hw).1
  · have := (C03 env h path path m m c pos fs hwf hb hp hp hs hs (t' := t)
      (.inr ⟨rfl, fun he => hne he.symm⟩)).1
    rw [hw] at this
    exact this
  · rw [look, C01 env h path m c fs fs' hcodec hlen hin hw]

theorem writeCoord_inv {fill : El t} {array : NdArr (El t)} {pos : List Nat}
    {existing e : List (El t)}
    (hw : writeCoord env h path m bbox fill array pos existing fs = (.ok e, fs')) :
    ∃ writeBb arrBb view, (m.chunkBounds pos).intersect bbox = .ok writeBb ∧
      writeBb.sub bbox.offset = .ok arrBb ∧ array.slice arrBb.toSlice = .ok view ∧
      ((writeBb = m.chunkBounds pos ∧
        writeChunk env h path m ⟨pos, view.toVec m.order⟩ fs = (.ok (), fs')) ∨
       (writeBb ≠ m.chunkBounds pos ∧
        writePartial env h path m fill pos (m.chunkBounds pos) writeBb view existing fs
          = (.ok e, fs'))) := by
  unfold writeCoord at hw
  simp only [M.bind_apply, M.lift_apply] at hw
  cases h1 : (m.chunkBounds pos).intersect bbox with
  | err x => simp [h1] at hw
  | panic => simp [h1] at hw
  | ok writeBb =>
    simp only [h1] at hw
    cases h2 : writeBb.sub bbox.offset with
    | err x => simp [h2] at hw
    | panic => simp [h2] at hw
    | ok arrBb =>
      simp only [h2] at hw
      cases h3 : array.slice arrBb.toSlice with
      | err x => simp [h3] at hw
      | panic => simp [h3] at hw
      | ok view =>
        simp only [h3] at hw
        refine ⟨_, _, _, rfl, h2, h3, ?_⟩
        by_cases hf : writeBb = m.chunkBounds pos
        · refine .inl ⟨hf, ?_⟩
          rw [if_pos hf] at hw
          simp only [M.bind_apply] at hw
          cases hwc : writeChunk env h path m ⟨pos, view.toVec m.order⟩ fs with
          | mk r fs1 =>
            rw [hwc] at hw
            cases r with
            | err x => simp at hw
            | panic => simp at hw
            | ok u =>
              simp only [M.pure_apply, Prod.mk.injEq] at hw
              rw [hw.2]
        · rw [if_neg hf] at hw
          exact .inr ⟨hf, hw⟩

theorem writeCoord_spec {fill : El t} {array : NdArr (El t)} {pos : List Nat}
    {existing e : List (El t)} (hwf : fs.WF) (hb : Plain (segs h.base))
    (hp : Plain (segs path)) (hs : GoodSep m.separator)
    (hcodec : (codecOf env.codecs m.compressor).Lawful)
    (hl : m.shape.length = m.chunkShape.length) (hk : ∀ k ∈ m.chunkShape, k ≠ 0)
    (hfill : effectiveFillValue env m t = .ok fill)
    (h1 : bbox.offset.length = m.chunkShape.length) (h2 : bbox.shape.length = m.chunkShape.length)
    (ht : Touches m.shape m.chunkShape bbox.offset bbox.shape pos)
    (hw : writeCoord env h path m bbox fill array pos existing fs = (.ok e, fs')) :
    fs'.WF ∧ (∀ pos', pos' ≠ pos →
      look env h path m t fs' pos' = look env h path m t fs pos') ∧
    (∃ v, look env h path m t fs' pos = .ok (some ⟨pos, v⟩) ∧ v.length = m.chunkShape.prod) ∧
    ∀ p, p.length = m.chunkShape.length → chunkOf m.chunkShape p = pos →
      (InBox bbox.offset bbox.shape p →
        Reads env h path m t fs' p (array.get (rel bbox.offset p))) ∧
      (¬ InBox bbox.offset bbox.shape p → ∀ v, Reads env h path m t fs p v →
        Reads env h path m t fs' p v) := by
  have hpl : pos.length = m.chunkShape.length := Touches.length ht
  have hck : (chunkOffset pos m.chunkShape).length = m.chunkShape.length := by simp [hpl]
  obtain ⟨writeBb, arrBb, view, i1, i2, hv, i4⟩ := writeCoord_inv hw
  clear hw
  rw [intersect_eq (show (m.chunkBounds pos).offset.length = bbox.offset.length by
    rw [ArrayMetadata.chunkBounds, hck, h1])] at i1
  simp only [Outcome.ok.injEq, ArrayMetadata.chunkBounds] at i1
  subst i1
  obtain ⟨e1, e2⟩ := isect_sub (s := m.chunkShape) (o := chunkOffset pos m.chunkShape)
    (w := bbox.shape) (k := bbox.offset) hck h2 h1
  simp only [BBox.sub, e2, Outcome.bind_ok, Outcome.pure_def, Outcome.ok.injEq] at i2
  subst i2
  have hv : array.slice (relRanges (isectLoop m.chunkShape (chunkOffset pos m.chunkShape) bbox.shape
      bbox.offset) bbox.offset) = .ok view := hv
  simp only [ArrayMetadata.chunkBounds] at i4
  rcases i4 with ⟨hfull, hwc⟩ | ⟨_, hw⟩
  · -- the whole chunk is overwritten
    simp only [BBox.mk.injEq] at hfull
    have hf : isectLoop m.chunkShape (chunkOffset pos m.chunkShape) bbox.shape bbox.offset
        = (m.chunkShape, chunkOffset pos m.chunkShape) := Prod.ext hfull.2 hfull.1
    have hin : m.inBounds pos = .ok true := by
      rw [inBounds_iff hl hk]
      exact bounded_of_starts hk (starts_of_full hk ht hf)
    rw [hf] at hv
    have hvs : view.shape = m.chunkShape ∧ ∀ i, Inside m.chunkShape i →
        view.get i = array.get (rel bbox.offset (shift (chunkOffset pos m.chunkShape) i)) := by
      unfold NdArr.slice at hv
      split at hv
      · simp only [Outcome.ok.injEq] at hv
        subst hv
        refine ⟨relRanges_shape hck h1, fun i hi => ?_⟩
        simp only
        rw [(full_index hck h2 h1 hf hi).2]
      · simp at hv
    obtain ⟨hvs, hvg⟩ := hvs
    have hvl : (view.toVec m.order).length = m.chunkShape.prod := by rw [toVec_length, hvs]
    obtain ⟨w1, w2, w3⟩ := writeChunk_look hwf hb hp hs hcodec hvl hin hwc
    refine ⟨w1, w2, ⟨_, w3, hvl⟩, fun p hpl' hpc => ?_⟩
    have hi := within_inside hk hpl'
    have hsp := shift_within hpl'
    rw [hpc] at hsp
    obtain ⟨f1, _⟩ := full_index hck h2 h1 hf hi
    rw [hsp] at f1
    refine ⟨fun _ => .inl ⟨_, by rw [hpc]; exact w3, ?_⟩, fun hn => absurd f1 hn⟩
    have := toVec_getElem (o := m.order) (a := view) (by rw [hvs]; exact hi)
    rw [hvs, hvg _ hi, hsp] at this
    exact this
  · -- the chunk is read, updated and written
    unfold writePartial at hw
    simp only [M.bind_apply, C11, readChunk_look] at hw
    cases hlk : look env h path m t fs pos with
    | err x => simp [hlk] at hw
    | panic => simp [hlk] at hw
    | ok old =>
      have hin : m.inBounds pos = .ok true := by
        have := hlk
        simp only [look, readChunk, M.bind_apply, M.lift_apply] at this
        cases ha : assertInBounds m pos with
        | err e => simp [ha] at this
        | panic => simp [ha] at this
        | ok u => exact assertInBounds_ok.mp (by rw [ha])
      -- the array that is updated
      suffices ∃ (cur : NdArr (El t)) (cur' : NdArr (El t)) (u : Unit), cur.shape = m.chunkShape ∧
          (∀ p, p.length = m.chunkShape.length → chunkOf m.chunkShape p = pos →
            ∀ v, Reads env h path m t fs p v → cur.get (within m.chunkShape p) = v) ∧
          cur.sliceAssign (relRanges (isectLoop m.chunkShape (chunkOffset pos m.chunkShape)
            bbox.shape bbox.offset) (chunkOffset pos m.chunkShape)) view = .ok cur' ∧
          writeChunk env h path m ⟨pos, cur'.toVec m.order⟩ fs = (.ok u, fs') by
        obtain ⟨cur, cur', u, c1, c2, c3, c4⟩ := this
        obtain ⟨d1, d2⟩ := copy_isect hck h2 h1 c1 hv c3
        have hvl : (cur'.toVec m.order).length = m.chunkShape.prod := by rw [toVec_length, d1]
        obtain ⟨w1, w2, w3⟩ := writeChunk_look hwf hb hp hs hcodec hvl hin c4
        refine ⟨w1, w2, ⟨_, w3, hvl⟩, fun p hpl' hpc => ?_⟩
        have hi := within_inside hk hpl'
        have hsp := shift_within hpl'
        rw [hpc] at hsp
        have hget := toVec_getElem (o := m.order) (a := cur') (by rw [d1]; exact hi)
        rw [d1] at hget
        obtain ⟨g1, g2⟩ := d2 _ hi
        rw [hsp] at g1 g2
        refine ⟨fun hbx => .inl ⟨_, by rw [hpc]; exact w3, ?_⟩,
          fun hbx v hv => .inl ⟨_, by rw [hpc]; exact w3, ?_⟩⟩
        · rw [hget, g1 hbx]
        · rw [hget, g2 hbx, c2 p hpl' hpc v hv]
      have hoff : (BBox.mk (isectLoop m.chunkShape (chunkOffset pos m.chunkShape) bbox.shape
          bbox.offset).2 (isectLoop m.chunkShape (chunkOffset pos m.chunkShape) bbox.shape
          bbox.offset).1).sub (chunkOffset pos m.chunkShape) = .ok ⟨List.zipWith (· - ·)
            (isectLoop m.chunkShape (chunkOffset pos m.chunkShape) bbox.shape
            bbox.offset).2 (chunkOffset pos m.chunkShape), (isectLoop m.chunkShape
              (chunkOffset pos m.chunkShape) bbox.shape bbox.offset).1⟩ := by
        simp only [BBox.sub, e1, Outcome.bind_ok, Outcome.pure_def]
      -- the rest of the computation, given the current contents
      have finish : ∀ (cur : NdArr (El t)) (o : Order), cur.shape = m.chunkShape →
          (∀ p, p.length = m.chunkShape.length → chunkOf m.chunkShape p = pos →
            ∀ v, Reads env h path m t fs p v → cur.get (within m.chunkShape p) = v) →
          (do let chunkWriteBb ← M.lift ((BBox.mk (isectLoop m.chunkShape
                (chunkOffset pos m.chunkShape) bbox.shape bbox.offset).2 (isectLoop m.chunkShape
                (chunkOffset pos m.chunkShape) bbox.shape bbox.offset).1).sub
                (chunkOffset pos m.chunkShape))
              let a ← M.lift (cur.sliceAssign chunkWriteBb.toSlice view)
              writeChunk env h path m ⟨pos, a.toVec m.order⟩
              pure (a.toVec o) : M Fs (List (El t))) fs = (.ok e, fs') →
          ∃ (cur : NdArr (El t)) (cur' : NdArr (El t)) (u : Unit), cur.shape = m.chunkShape ∧
          (∀ p, p.length = m.chunkShape.length → chunkOf m.chunkShape p = pos →
            ∀ v, Reads env h path m t fs p v → cur.get (within m.chunkShape p) = v) ∧
          cur.sliceAssign (relRanges (isectLoop m.chunkShape (chunkOffset pos m.chunkShape)
            bbox.shape bbox.offset) (chunkOffset pos m.chunkShape)) view = .ok cur' ∧
          writeChunk env h path m ⟨pos, cur'.toVec m.order⟩ fs = (.ok u, fs') := by
        intro cur o hc1 hc2 hrun
        simp only [M.bind_apply, M.lift_apply, hoff] at hrun
        cases hsa : cur.sliceAssign (relRanges (isectLoop m.chunkShape
            (chunkOffset pos m.chunkShape) bbox.shape bbox.offset)
            (chunkOffset pos m.chunkShape)) view with
        | err x => simp only [relRanges] at hsa; rw [hsa] at hrun; simp at hrun
        | panic => simp only [relRanges] at hsa; rw [hsa] at hrun; simp at hrun
        | ok cur' =>
          have hsa' := hsa
          simp only [relRanges] at hsa'
          rw [hsa'] at hrun
          simp only at hrun
          cases hwc : writeChunk env h path m ⟨pos, cur'.toVec m.order⟩ fs with
          | mk r fs1 =>
            rw [hwc] at hrun
            cases r with
            | err x => simp at hrun
            | panic => simp at hrun
            | ok u =>
              simp only [M.pure_apply, Prod.mk.injEq] at hrun
              obtain ⟨_, rfl⟩ := hrun
              exact ⟨cur, cur', u, hc1, hc2, hsa, hwc⟩
      cases old with
      | none =>
        rw [hlk] at hw
        simp only [M.lift_apply, Bool.false_eq_true, if_false, fromShapeVec,
          List.length_replicate, if_true, Outcome.bind_ok, Outcome.pure_def] at hw
        refine finish (NdArr.ofMemory (El.default t) .rowMajor m.chunkShape
          (List.replicate m.chunkShape.prod fill)) .rowMajor rfl ?_ hw
        intro p hpl' hpc v hv
        rw [ofMemory_get]
        have hlt := linear_lt (o := .rowMajor) (within_inside hk hpl')
        rw [List.getElem?_replicate, if_pos hlt]
        rcases hv with ⟨c, hc, _⟩ | ⟨_, hc⟩
        · rw [hpc, hlk] at hc; simp at hc
        · rw [hfill] at hc; simpa using hc
      | some ch =>
        obtain ⟨_, hgp, _⟩ := look_some hlk
        rw [hlk] at hw
        simp only [M.lift_apply, if_true, fromShapeVec] at hw
        by_cases hpl2 : ch.data.length = m.chunkShape.prod
        · simp only [hpl2, if_true, Outcome.bind_ok, Outcome.pure_def, hgp,
            ArrayMetadata.chunkBounds] at hw
          refine finish (NdArr.ofMemory (El.default t) m.order m.chunkShape ch.data) m.order rfl
            ?_ hw
          intro p hpl' hpc v hv
          rw [ofMemory_get]
          rcases hv with ⟨c, hc, hd⟩ | ⟨hc, _⟩
          · rw [hpc, hlk] at hc
            simp only [Outcome.ok.injEq, Option.some.injEq] at hc
            subst hc
            rw [hd]; rfl
          · rw [hpc, hlk] at hc; simp at hc
        · simp [hpl2] at hw

theorem writeLoop_spec {fill : El t} {array : NdArr (El t)} (hb : Plain (segs h.base))
    (hp : Plain (segs path)) (hs : GoodSep m.separator)
    (hcodec : (codecOf env.codecs m.compressor).Lawful)
    (hl : m.shape.length = m.chunkShape.length) (hk : ∀ k ∈ m.chunkShape, k ≠ 0)
    (hfill : effectiveFillValue env m t = .ok fill)
    (h1 : bbox.offset.length = m.chunkShape.length) (h2 : bbox.shape.length = m.chunkShape.length)
    (coords : List (List Nat)) (existing : List (El t)) (hwf : fs.WF)
    (ht : ∀ c ∈ coords, Touches m.shape m.chunkShape bbox.offset bbox.shape c)
    (hw : writeLoop env h path m bbox fill array coords existing fs = (.ok (), fs')) :
    fs'.WF ∧ (∀ pos, pos ∉ coords →
      look env h path m t fs' pos = look env h path m t fs pos) ∧
    (∀ pos ∈ coords, ∃ v, look env h path m t fs' pos = .ok (some ⟨pos, v⟩) ∧
      v.length = m.chunkShape.prod) ∧
    ∀ p, p.length = m.chunkShape.length → chunkOf m.chunkShape p ∈ coords →
      (InBox bbox.offset bbox.shape p →
        Reads env h path m t fs' p (array.get (rel bbox.offset p))) ∧
      (¬ InBox bbox.offset bbox.shape p → ∀ v, Reads env h path m t fs p v →
        Reads env h path m t fs' p v) := by
  induction coords generalizing existing fs with
  | nil =>
    simp only [writeLoop, M.pure_apply, Prod.mk.injEq, true_and] at hw
    subst hw
    exact ⟨hwf, fun _ _ => rfl, by simp, by simp⟩
  | cons pos rest ih =>
    simp only [writeLoop, M.bind_apply] at hw
    cases hwc : writeCoord env h path m bbox fill array pos existing fs with
    | mk r fs1 =>
      rw [hwc] at hw
      cases r with
      | err x => simp at hw
      | panic => simp at hw
      | ok e =>
        simp only at hw
        obtain ⟨w1, w2, w3, w4⟩ := writeCoord_spec hwf hb hp hs hcodec hl hk hfill h1 h2
          (ht pos (by simp)) hwc
        obtain ⟨r1, r2, r3, r4⟩ := ih e w1 (fun c hc => ht c (by simp [hc])) hw
        refine ⟨r1, fun p hp => ?_, fun p hp => ?_, fun p hpl hpc => ?_⟩
        · simp only [List.mem_cons, not_or] at hp
          rw [r2 p hp.2, w2 p hp.1]
        · by_cases hmem : p ∈ rest
          · exact r3 p hmem
          · rcases List.mem_cons.mp hp with rfl | hp
            · rw [r2 p hmem]; exact w3
            · exact absurd hp hmem
        · by_cases hmem : chunkOf m.chunkShape p ∈ rest
          · obtain ⟨q1, q2⟩ := r4 p hpl hmem
            refine ⟨q1, fun hn v hv => q2 hn v ?_⟩
            by_cases he : chunkOf m.chunkShape p = pos
            · exact (w4 p hpl he).2 hn v hv
            · exact (Reads.congr (w2 _ he)).mpr hv
          · rcases List.mem_cons.mp hpc with he | hpc
            · obtain ⟨q1, q2⟩ := w4 p hpl he
              have hcg := fun v => Reads.congr (v := v) (r2 _ hmem)
              exact ⟨fun hi => (hcg _).mpr (q1 hi), fun hn v hv => (hcg _).mpr (q2 hn v hv)⟩
            · exact absurd hpc hmem

end

end Zarr
