import Verif.Props.Total
import Verif.Props.CallsNd
/-!
# Box reads and writes succeed: C68
-/

namespace Zarr

open Spec

variable {env : Env} {h : Hier} {path : Str} {m : ArrayMetadata} {t : RsType} {fs fs' : Fs} {bbox : BBox}

theorem chunkName_length (sep : Str) {p q : List Nat} (hpq : p.length = q.length) :
    (chunkName sep p).length = (chunkName sep q).length := by
  unfold chunkName
  split
  · cases p <;> cases q <;> simp_all
  · rfl

/-- A write at one location keeps other locations of the same depth, and itself, writable. -/
theorem Writable.after_set {p q : Loc} {b : Bytes} (hlen : p.length = q.length) (hq : Writable fs q)
    (hs : ∀ l, fs'.get l = setSpec fs p b l) : Writable fs' q := by
  refine ⟨fun l hl hne c hc => ?_, fun hc => ?_⟩
  · rw [hs, setSpec] at hc
    split at hc
    · rename_i he
      subst he
      exact hne (hl.eq_of_length hlen)
    · split at hc
      · simp at hc
      · exact hq.1 l hl hne c hc
  · rw [hs, setSpec] at hc
    split at hc
    · simp at hc
    · split at hc
      · rename_i hne hpre
        exact hne (hpre.1.eq_of_length hlen.symm)
      · exact hq.2 hc

/-- A chunk of the array's element type and size can be written where nothing is in the way. -/
theorem writeChunk_total {c : DataChunk t} {d : DataType} (hwf : fs.WF) (hb : Plain (segs h.base))
    (hp : Plain (segs path)) (hs : GoodSep m.separator) (hd : effective m.dataType = some d)
    (hk : kindOf d = kindOfRs t) (hlen : c.data.length = m.chunkShape.prod)
    (hsm : m.chunkShape.prod < 2 ^ 32)
    (hcodec : ∀ segs, ((codecOf env.codecs m.compressor).encode segs).2 = .ok ())
    (hw : Writable fs (h.loc (chunkKey path m c.gridPosition))) :
    ∃ fs', writeChunk env h path m c fs = (.ok (), fs') ∧ fs'.WF ∧
      ∃ b, ∀ l, fs'.get l = setSpec fs (h.loc (chunkKey path m c.gridPosition)) b l := by
  obtain ⟨fs', e, hwf', hg⟩ := (storeSet_spec (writeChunkBytes env.codecs env.native m c) hwf
    (plain_loc_chunk (h := h) (m := m) hb hp hs c.gridPosition)).1 hw
  obtain ⟨segs, _, hwr⟩ := writeChunkBytes_fits (ext := env.codecs) (native := env.native) (c := c) (m := m)
    (effective_iff.mpr hd) ((eqModuloEndian_iff_kind _ _ _).mpr hk)
    (by rw [hlen, Nat.mod_eq_of_lt hsm]; rfl)
  rw [hwr, hcodec segs] at e
  refine ⟨fs', ?_, hwf', _, hg⟩
  unfold writeChunk
  rw [hwr]; exact e

theorem covers_inBox {k c p : List Nat} (hcv : Covers k c p) : InBox (chunkOffset c k) k p := by
  induction k generalizing c p with
  | nil => cases c <;> cases p <;> simp_all [Covers, InBox, chunkOffset]
  | cons a k ih =>
    cases c <;> cases p <;> simp only [Covers] at hcv
    rename_i x c y p
    have h1 := hcv.1
    have : (x + 1) * a = x * a + a := by rw [Nat.add_mul, Nat.one_mul]
    refine ⟨⟨h1.1, ?_⟩, ih hcv.2⟩
    show y < x * a + a
    omega

theorem writeCoord_ok {fill : El t} {array : NdArr (El t)} {pos : List Nat} {existing : List (El t)}
    {d : DataType} (hwf : fs.WF) (hb : Plain (segs h.base))
    (hp : Plain (segs path)) (hs : GoodSep m.separator) (hd : effective m.dataType = some d)
    (hkind : kindOf d = kindOfRs t) (hsm : m.chunkShape.prod < 2 ^ 32)
    (hcodec : ∀ segs, ((codecOf env.codecs m.compressor).encode segs).2 = .ok ())
    (h1 : bbox.offset.length = m.chunkShape.length) (h2 : bbox.shape.length = m.chunkShape.length)
    (hlen : pos.length = m.chunkShape.length) (ha : array.shape = bbox.shape)
    (hov : ∃ p, InBox bbox.offset bbox.shape p ∧ Covers m.chunkShape pos p)
    (hlook : ∃ x, look env h path m t fs pos = .ok x)
    (hw : Writable fs (h.loc (chunkKey path m pos))) :
    ∃ e fs' b, writeCoord env h path m bbox fill array pos existing fs = (.ok e, fs') ∧ fs'.WF ∧
      ∀ l, fs'.get l = setSpec fs (h.loc (chunkKey path m pos)) b l := by
  have hck : (chunkOffset pos m.chunkShape).length = m.chunkShape.length := by simp [hlen]
  obtain ⟨p, hpb, hpc⟩ := hov
  have hne : (isectLoop m.chunkShape (chunkOffset pos m.chunkShape) bbox.shape bbox.offset).1.contains 0
      = false := by
    have hin := (inBox_isect (p := p) hck h2 h1).mpr ⟨covers_inBox hpc, hpb⟩
    by_cases hc : (isectLoop m.chunkShape (chunkOffset pos m.chunkShape) bbox.shape bbox.offset).1.contains 0
        = true
    · exact absurd hin ((inBox_empty (by
        have := isectLoop_length (s := m.chunkShape) (o := chunkOffset pos m.chunkShape) (s' := bbox.shape)
          (o' := bbox.offset)
        omega)).mp hc p)
    · simpa using hc
  obtain ⟨f1, f2⟩ := relRanges_facts hck h2 h1 hne
  obtain ⟨e1, e2⟩ := isect_sub hck h2 h1
  -- whatever array the chunk is filled from, the copy works
  have copy : ∀ cur : NdArr (El t), cur.shape = m.chunkShape → ∃ view cur',
      array.slice (relRanges (isectLoop m.chunkShape (chunkOffset pos m.chunkShape) bbox.shape bbox.offset)
        bbox.offset) = .ok view ∧ cur.sliceAssign (relRanges (isectLoop m.chunkShape
          (chunkOffset pos m.chunkShape) bbox.shape bbox.offset) (chunkOffset pos m.chunkShape)) view
          = .ok cur' := fun cur hcur => copy_isect_ok hck h1 hcur ha f1 f2
  obtain ⟨view0, _, hview, _⟩ := copy (NdArr.fromElem m.chunkShape (El.default t)) rfl
  have hvs : view0.shape
      = (isectLoop m.chunkShape (chunkOffset pos m.chunkShape) bbox.shape bbox.offset).1 := by
    have := hview
    unfold NdArr.slice at this
    split at this
    · simp only [Outcome.ok.injEq] at this
      subst this
      have hll := isectLoop_length (s := m.chunkShape) (o := chunkOffset pos m.chunkShape) (s' := bbox.shape)
        (o' := bbox.offset)
      exact relRanges_shape (by omega) (by omega)
    · simp at this
  have total : ∀ v : List (El t), v.length = m.chunkShape.prod → ∃ fs', writeChunk env h path m ⟨pos, v⟩ fs
      = (.ok (), fs') ∧ fs'.WF ∧ ∃ b, ∀ l, fs'.get l = setSpec fs (h.loc (chunkKey path m pos)) b l :=
    fun v hv => writeChunk_total (c := ⟨pos, v⟩) hwf hb hp hs hd hkind hv hsm hcodec hw
  have hview' := hview
  simp only [relRanges] at hview'
  have hcb : m.chunkBounds pos = ⟨chunkOffset pos m.chunkShape, m.chunkShape⟩ := rfl
  unfold writeCoord
  simp only [M.bind_apply, M.lift_apply]
  rw [intersect_eq (show (m.chunkBounds pos).offset.length = bbox.offset.length by
    rw [ArrayMetadata.chunkBounds, hck, h1])]
  simp only [hcb, BBox.sub, e2, Outcome.bind_ok, Outcome.pure_def]
  rw [hview']
  simp only
  by_cases hfull : BBox.mk (isectLoop m.chunkShape (chunkOffset pos m.chunkShape) bbox.shape bbox.offset).2
      (isectLoop m.chunkShape (chunkOffset pos m.chunkShape) bbox.shape bbox.offset).1
      = ⟨chunkOffset pos m.chunkShape, m.chunkShape⟩
  · simp only [if_pos hfull]
    simp only [BBox.mk.injEq] at hfull
    obtain ⟨fs', w1, w2, b, w3⟩ := total (view0.toVec m.order) (by rw [toVec_length, hvs, hfull.2])
    simp only [M.bind_apply, w1, M.pure_apply]
    exact ⟨_, fs', b, rfl, w2, w3⟩
  · simp only [if_neg hfull]
    unfold writePartial
    simp only [M.bind_apply, C11, readChunk_look]
    obtain ⟨old, hlk⟩ := hlook
    rw [hlk]
    -- the rest of the computation, given the current contents
    have finish : ∀ (cur : NdArr (El t)) (o : Order), cur.shape = m.chunkShape →
        ∃ e fs' b, (do
          let chunkWriteBb ← M.lift ((BBox.mk (isectLoop m.chunkShape
              (chunkOffset pos m.chunkShape) bbox.shape bbox.offset).2 (isectLoop m.chunkShape
              (chunkOffset pos m.chunkShape) bbox.shape bbox.offset).1).sub
              (chunkOffset pos m.chunkShape))
          let a ← M.lift (cur.sliceAssign chunkWriteBb.toSlice view0)
          writeChunk env h path m ⟨pos, a.toVec m.order⟩
          pure (a.toVec o) : M Fs (List (El t))) fs = (.ok e, fs') ∧ fs'.WF ∧
          ∀ l, fs'.get l = setSpec fs (h.loc (chunkKey path m pos)) b l := by
      intro cur o hcur
      obtain ⟨view, cur', hv, hc⟩ := copy cur hcur
      rw [hview] at hv
      simp only [Outcome.ok.injEq] at hv
      subst hv
      have hcs : cur'.shape = m.chunkShape := by
        have := hc
        unfold NdArr.sliceAssign at this
        split at this
        · simp only [Outcome.ok.injEq] at this
          subst this
          exact hcur
        · simp at this
      obtain ⟨fs', w1, w2, b, w3⟩ := total (cur'.toVec m.order) (by rw [toVec_length, hcs])
      simp only [relRanges] at hc
      simp only [M.bind_apply, M.lift_apply, BBox.sub, e1, Outcome.bind_ok, Outcome.pure_def]
      rw [hc]
      simp only [w1, M.pure_apply]
      exact ⟨_, fs', b, rfl, w2, w3⟩
    cases old with
    | none =>
      simp only [M.lift_apply, Bool.false_eq_true, if_false, fromShapeVec,
        List.length_replicate, if_true, Outcome.bind_ok, Outcome.pure_def]
      exact finish (NdArr.ofMemory (El.default t) .rowMajor m.chunkShape
        (List.replicate m.chunkShape.prod fill)) .rowMajor rfl
    | some ch =>
      obtain ⟨_, hgp, hcl⟩ := look_some hlk
      rw [Nat.mod_eq_of_lt hsm] at hcl
      simp only [M.lift_apply, if_true, fromShapeVec, hcl, Outcome.bind_ok, Outcome.pure_def, hgp, hcb]
      exact finish (NdArr.ofMemory (El.default t) m.order m.chunkShape ch.data) m.order rfl

theorem writeLoop_ok {fill : El t} {array : NdArr (El t)} {d : DataType} (hb : Plain (segs h.base))
    (hp : Plain (segs path)) (hs : GoodSep m.separator) (hd : effective m.dataType = some d)
    (hkind : kindOf d = kindOfRs t) (hsm : m.chunkShape.prod < 2 ^ 32)
    (hcodec : ∀ segs, ((codecOf env.codecs m.compressor).encode segs).2 = .ok ())
    (hlaw : (codecOf env.codecs m.compressor).Lawful)
    (hl : m.shape.length = m.chunkShape.length) (hk : ∀ k ∈ m.chunkShape, k ≠ 0)
    (hfill : effectiveFillValue env m t = .ok fill)
    (h1 : bbox.offset.length = m.chunkShape.length) (h2 : bbox.shape.length = m.chunkShape.length)
    (ha : array.shape = bbox.shape) (coords : List (List Nat)) (existing : List (El t)) (hwf : fs.WF)
    (hc : ∀ c ∈ coords, OverlapsBoth m bbox c ∧ (∃ x, look env h path m t fs c = .ok x) ∧
      Writable fs (h.loc (chunkKey path m c))) :
    ∃ fs', writeLoop env h path m bbox fill array coords existing fs = (.ok (), fs') := by
  induction coords generalizing existing fs with
  | nil => exact ⟨fs, rfl⟩
  | cons pos rest ih =>
    obtain ⟨⟨p, o1, o2, o3⟩, hlk, hwr⟩ := hc pos (by simp)
    have ht := touches_of_overlap hk hl o1 o2 o3
    have hpl : pos.length = m.chunkShape.length := (Covers.length o3).2
    obtain ⟨e, fs1, b, w1, w2, w3⟩ := writeCoord_ok (fill := fill) (array := array) (existing := existing)
      hwf hb hp hs hd hkind hsm hcodec h1 h2 hpl ha ⟨p, o2, o3⟩ hlk hwr
    obtain ⟨_, s2, ⟨v, s3, _⟩, _⟩ := writeCoord_spec hwf hb hp hs hlaw hl hk hfill h1 h2 ht w1
    simp only [writeLoop, M.bind_apply, w1]
    refine ih e w2 (fun c hcr => ?_)
    obtain ⟨q1, q2, q3⟩ := hc c (by simp [hcr])
    refine ⟨q1, ?_, q3.after_set ?_ w3⟩
    · by_cases he : c = pos
      · subst he; exact ⟨_, s3⟩
      · rw [s2 c he]; exact q2
    · obtain ⟨_, _, _, q⟩ := q1
      have hs' : m.separator = str!"/" ∨ '/' ∉ m.separator := hs.imp id (·.2)
      rw [loc_chunkKey hs', loc_chunkKey hs']
      simp only [chunkLoc, List.length_append]
      rw [chunkName_length _ (show pos.length = c.length by rw [hpl, (Covers.length q).2])]

/-- **C68, reading.** `read_ndarray` of a box with a point in common with the array returns `Ok` if the
array's fill value is valid and every chunk that meets the box is absent or can be read. -/
theorem C68_read (env : Env) (h : Hier) (path : Str) (m : ArrayMetadata) (t : RsType) (bbox : BBox) (fs : Fs)
    (hl : m.shape.length = m.chunkShape.length) (hk : ∀ k ∈ m.chunkShape, k ≠ 0)
    (hsm : m.chunkShape.prod < 2 ^ 32) (hd : bbox.offset.length = m.shape.length)
    (hd' : bbox.shape.length = m.shape.length) (hm : BoxMeetsArray m bbox)
    (hfill : ∃ fill, effectiveFillValue env m t = .ok fill)
    (hread : ∀ pos, OverlapsBoth m bbox pos → ∃ x, (readChunk env h path m t pos fs).1 = .ok x) :
    ∃ a, readNdarray env h path m t bbox fs = (.ok a, fs) := by
  obtain ⟨fill, hfill⟩ := hfill
  have key : ∃ a, (readNdarray env h path m t bbox fs).1 = .ok a := by
    obtain ⟨it, hit⟩ := boundedCoordIter_exists hd hk
    refine readNdarray_ok hl (by omega) hd hfill hit (fun c hc => ?_)
    by_cases hn : m.shape = []
    · obtain ⟨_, _, h3, _⟩ := boundedCoordIter_ok hl (by omega) hit
      rw [h3, hn] at hc
      simp [boundedRanges, isectLoop, multiCartesian] at hc
    obtain ⟨x, hx⟩ := hread c (overlap_of_touches hk hm ((mem_boundedCoordIter hl (by omega) hn hit).mp hc))
    cases x with
    | none => exact .inl hx
    | some c' =>
      have := (look_some hx).2.2
      rw [Nat.mod_eq_of_lt hsm] at this
      exact .inr ⟨c', hx, by omega⟩
  obtain ⟨a, ha⟩ := key
  exact ⟨a, Prod.ext ha (C58_ndarray env h path m t bbox fs).1⟩

/-- **C68, writing.** `write_ndarray` of an array over a box with a point in common with the stored array
returns `Ok` if its element type is the array's, the fill value is valid, every chunk that meets the box is
absent or can be read, nothing blocks its location, and the compressor accepts all data. -/
theorem C68_write (env : Env) (h : Hier) (path : Str) (m : ArrayMetadata) {t : RsType}
    (offset : List Nat) (array : NdArr (El t)) (fs : Fs) (d : DataType) (hwf : fs.WF)
    (hb : Plain (segs h.base)) (hp : Plain (segs path)) (hs : GoodSep m.separator)
    (hd : effective m.dataType = some d) (hkind : kindOf d = kindOfRs t)
    (hlaw : (codecOf env.codecs m.compressor).Lawful)
    (hcodec : ∀ segs, ((codecOf env.codecs m.compressor).encode segs).2 = .ok ())
    (hl : m.shape.length = m.chunkShape.length) (hk : ∀ k ∈ m.chunkShape, k ≠ 0)
    (hsm : m.chunkShape.prod < 2 ^ 32) (ho : offset.length = m.shape.length)
    (ha : array.shape.length = m.shape.length) (hm : BoxMeetsArray m ⟨offset, array.shape⟩)
    (hfill : ∃ fill, effectiveFillValue env m t = .ok fill)
    (hfree : ∀ pos, OverlapsBoth m ⟨offset, array.shape⟩ pos →
      (∃ x, (readChunk env h path m t pos fs).1 = .ok x) ∧
      Writable fs (chunkLoc h path m.separator pos)) :
    ∃ fs', writeNdarray env h path m offset array fs = (.ok (), fs') := by
  obtain ⟨fill, hfill⟩ := hfill
  obtain ⟨it, hit⟩ := boundedCoordIter_exists (b := ⟨offset, array.shape⟩) ho hk
  unfold writeNdarray
  rw [if_neg (by simpa using ha)]
  simp only [M.bind_apply, M.lift_apply, hfill, hit]
  refine writeLoop_ok (bbox := ⟨offset, array.shape⟩) hb hp hs hd hkind hsm hcodec hlaw hl hk hfill
    (by simp only; omega) (by simp only; omega) rfl it.rest [] hwf (fun c hc => ?_)
  by_cases hn : m.shape = []
  · obtain ⟨_, _, h3, _⟩ := boundedCoordIter_ok hl (by simp only; omega) hit
    rw [h3, hn] at hc
    simp [boundedRanges, isectLoop, multiCartesian] at hc
  have hov := overlap_of_touches hk hm ((mem_boundedCoordIter hl (by simp only; omega) hn hit).mp hc)
  obtain ⟨f1, f2⟩ := hfree c hov
  refine ⟨hov, f1, ?_⟩
  rw [loc_chunkKey (hs.imp id (·.2))]
  exact f2

/-- **C68, from nothing.** Where the array has no data yet and no file stands where its data directory
goes, `write_ndarray` over any box that meets the array returns `Ok`, and `read_ndarray` over the box then
returns the written values inside the array's extent. -/
theorem C68_fresh (env : Env) (h : Hier) (path : Str) (m : ArrayMetadata) {t : RsType}
    (offset : List Nat) (array : NdArr (El t)) (fs : Fs) (d : DataType) (hwf : fs.WF)
    (hb : Plain (segs h.base)) (hp : Plain (segs path)) (hs : GoodSep m.separator)
    (hd : effective m.dataType = some d) (hkind : kindOf d = kindOfRs t)
    (hlaw : (codecOf env.codecs m.compressor).Lawful)
    (hcodec : ∀ segs, ((codecOf env.codecs m.compressor).encode segs).2 = .ok ())
    (hl : m.shape.length = m.chunkShape.length) (hn : m.shape ≠ []) (hk : ∀ k ∈ m.chunkShape, k ≠ 0)
    (hsm : m.chunkShape.prod < 2 ^ 32) (ho : offset.length = m.shape.length)
    (ha : array.shape.length = m.shape.length) (hm : BoxMeetsArray m ⟨offset, array.shape⟩)
    (hfill : ∃ fill, effectiveFillValue env m t = .ok fill)
    (hnone : ∀ l, dataLoc h path <+: l → fs.get l = none)
    (hdir : ∀ l, l <+: dataLoc h path → ∀ b, fs.get l ≠ some (.file b)) :
    ∃ fs' a, writeNdarray env h path m offset array fs = (.ok (), fs') ∧
      readNdarray env h path m t ⟨offset, array.shape⟩ fs' = (.ok a, fs') ∧ a.shape = array.shape ∧
      ∀ i, Inside array.shape i → Inside m.shape (shift offset i) → a.get i = array.get i := by
  have hs' : m.separator = str!"/" ∨ '/' ∉ m.separator := hs.imp id (·.2)
  obtain ⟨fs', hw⟩ := C68_write env h path m offset array fs d hwf hb hp hs hd hkind hlaw hcodec hl hk hsm
    ho ha hm hfill (fun pos hov => by
      obtain ⟨p, h1, _, h3⟩ := hov
      have hin : m.inBounds pos = .ok true := by
        rw [inBounds_iff hl hk]
        exact bounded_of_starts hk ((starts_iff hl hk).mp ⟨p, h1, h3⟩)
      have hpre : dataLoc h path <+: chunkLoc h path m.separator pos := List.prefix_append _ _
      have hget := hnone _ hpre
      refine ⟨⟨none, ?_⟩, fun l hlp _ b hb => ?_, by rw [hget]; simp⟩
      · have hc : fs.content (chunkLoc h path m.separator pos) = none := by unfold Fs.content; rw [hget]
        have hg := storeGet_eq hwf (plain_loc_chunk (h := h) (m := m) hb hp hs pos)
        rw [loc_chunkKey hs', hc] at hg
        rw [readChunk_inBounds hin hg]
      · rcases List.prefix_or_prefix_of_prefix hlp hpre with hq | hq
        · exact hdir l hq b hb
        · rw [hnone l hq] at hb; simp at hb)
  obtain ⟨a, h1, h2, h3⟩ := C21 env h path m offset array fs fs' hwf hb hp hs hlaw hl hn hw
  exact ⟨fs', a, hw, Prod.ext h1 (C58_ndarray env h path m t _ fs').1, h2, h3⟩

/-- A write of three elements over the boundary of two chunks of an array without data. -/
example : ∃ fs' a, writeNdarray Demo.env Demo.hier Demo.path Demo.arr [1] demoWrite Demo.emptyFs
      = (.ok (), fs') ∧
    readNdarray Demo.env Demo.hier Demo.path Demo.arr .u16 ⟨[1], [3]⟩ fs' = (.ok a, fs') ∧ a.shape = [3] ∧
    ∀ i, Inside [3] i → Inside [5] (shift [1] i) → a.get i = demoWrite.get i := by
  refine C68_fresh Demo.env Demo.hier Demo.path Demo.arr [1] demoWrite Demo.emptyFs (.uint .B2 .big)
    Demo.emptyFs_wf (by decide) (by decide) (Or.inl rfl) rfl rfl rawCodec_lawful (fun _ => rfl) rfl (by decide)
    (by decide) (by decide) rfl rfl ⟨[1], by simp [Inside, Demo.arr], by simp [InBox]⟩ ⟨_, rfl⟩ ?_ ?_
  · intro l hl
    have : l ≠ [] := by rintro rfl; revert hl; decide
    simp [Demo.emptyFs, Fs.get, Fs.lookup, Ne.symm this]
  · intro l _ b hc
    by_cases hn : l = []
    · subst hn; simp [Demo.emptyFs, Fs.get, Fs.lookup] at hc
    · simp [Demo.emptyFs, Fs.get, Fs.lookup, Ne.symm hn] at hc

/-- Reading a box that holds a stored and an absent chunk. -/
example : (readNdarray Demo.env Demo.hier Demo.path Demo.arr .u16 ⟨[1], [3]⟩ demoFs).1
      >>= (fun a => .ok (a.toVec .rowMajor)) = .ok [0#16, 258#16, 7#16] := by decide +kernel

end Zarr
