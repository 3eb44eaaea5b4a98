import Verif.Props.DeviceBox
/-!
# C122: box writes that run out of space harm only the chunks of the box
-/

namespace Zarr

open Spec

section
variable {env : Env} {h : Hier} {path : Str} {m : ArrayMetadata} {t : RsType} {bbox : BBox} {fill : El t}
  {array : NdArr (El t)} {fs fs' g : Fs} {room : List Nat → Nat} {Q : Nat → Bytes → Prop}
  {V : DataChunk t → Bytes × Outcome Unit} {done : List (List Nat)}

/-- A round leaves the tree alone or does what `write_chunk` does. -/
theorem writeCoordWith_tree (W : DataChunk t → M Fs Unit) (pos : List Nat) (existing : List (El t)) (fs : Fs) :
    (writeCoordWith W env h path m bbox fill array pos existing fs).2 = fs ∨
      ∃ data, (writeCoordWith W env h path m bbox fill array pos existing fs).2 = (W ⟨pos, data⟩ fs).2 := by
  have hro : readChunkInto env h path m t pos ⟨pos, existing⟩ fs =
      ((readChunkInto env h path m t pos ⟨pos, existing⟩ fs).1, fs) :=
    (readChunkInto_ro env h path m t pos ⟨pos, existing⟩).eq fs
  unfold writeCoordWith
  simp only [M.bind_apply, M.lift_apply]
  cases (m.chunkBounds pos).intersect bbox with
  | err x => exact .inl rfl
  | panic => exact .inl rfl
  | ok writeBb =>
    simp only
    cases writeBb.sub bbox.offset with
    | err x => exact .inl rfl
    | panic => exact .inl rfl
    | ok arrBb =>
      simp only
      cases array.slice arrBb.toSlice with
      | err x => exact .inl rfl
      | panic => exact .inl rfl
      | ok view =>
        simp only
        by_cases hf : writeBb = m.chunkBounds pos
        · rw [if_pos hf]
          refine .inr ⟨view.toVec m.order, ?_⟩
          simp only [M.bind_apply]
          generalize W ⟨pos, view.toVec m.order⟩ fs = x
          obtain ⟨r, s⟩ := x
          cases r <;> rfl
        · rw [if_neg hf]
          simp only [M.bind_apply, M.lift_apply]
          rw [hro]
          cases (readChunkInto env h path m t pos ⟨pos, existing⟩ fs).1 with
          | err x => exact .inl rfl
          | panic => exact .inl rfl
          | ok r =>
            simp only
            generalize (if r.1 = true then do
                let a ← fromShapeVec m.order m.chunkShape r.2.data
                pure (m.chunkBounds r.2.gridPosition, a, m.order)
              else do
                let a ← fromShapeVec .rowMajor (m.chunkBounds pos).shape
                  (List.replicate (m.chunkBounds pos).shape.prod fill)
                pure (m.chunkBounds pos, a, Order.rowMajor)) = c
            cases c with
            | err x => exact .inl rfl
            | panic => exact .inl rfl
            | ok c =>
              simp only
              cases writeBb.sub c.1.offset with
              | err x => exact .inl rfl
              | panic => exact .inl rfl
              | ok cw =>
                simp only
                cases c.2.1.sliceAssign cw.toSlice view with
                | err x => exact .inl rfl
                | panic => exact .inl rfl
                | ok a =>
                  refine .inr ⟨a.toVec m.order, ?_⟩
                  simp only
                  generalize W ⟨pos, a.toVec m.order⟩ fs = x
                  obtain ⟨r, s⟩ := x
                  cases r <;> rfl

/-- The loop changes the files of its chunks only. -/
theorem writeLoopWith_frame (V : DataChunk t → Bytes × Outcome Unit) (hb : Plain (segs h.base)) (hp : Plain (segs path))
    (hs : GoodSep m.separator) (coords : List (List Nat)) (existing : List (El t)) (hwf : fs.WF) :
    (writeLoopWith (fun c => storeSet h (chunkKey path m c.gridPosition) (V c)) env h path m bbox fill array coords
      existing fs).2.WF ∧
    ∀ l, (∀ c ∈ coords, l ≠ h.loc (chunkKey path m c)) →
      (writeLoopWith (fun c => storeSet h (chunkKey path m c.gridPosition) (V c)) env h path m bbox fill array coords
        existing fs).2.content l = fs.content l := by
  induction coords generalizing existing fs with
  | nil => exact ⟨hwf, fun _ _ => rfl⟩
  | cons pos rest ih =>
    have hstep := writeCoordWith_tree (env := env) (h := h) (path := path) (m := m) (bbox := bbox) (fill := fill)
      (array := array) (fun c => storeSet h (chunkKey path m c.gridPosition) (V c)) pos existing fs
    simp only [writeLoopWith, M.bind_apply]
    generalize writeCoordWith (fun c => storeSet h (chunkKey path m c.gridPosition) (V c)) env h path m bbox fill array
      pos existing fs = x at hstep ⊢
    obtain ⟨r, s⟩ := x
    have hs1 : s.WF ∧ ∀ l, l ≠ h.loc (chunkKey path m pos) → s.content l = fs.content l := by
      rcases hstep with e | ⟨data, e⟩
      · simp only at e; rw [e]; exact ⟨hwf, fun _ _ => rfl⟩
      · simp only at e
        have := storeSet_frame (v := V ⟨pos, data⟩) hwf (plain_loc_chunk (h := h) (m := m) hb hp hs pos)
          (r := (storeSet h (chunkKey path m pos) (V ⟨pos, data⟩) fs).1) rfl
        rw [e]; exact this
    cases r with
    | err x => exact ⟨hs1.1, fun l hl => hs1.2 l (hl pos (by simp))⟩
    | panic => exact ⟨hs1.1, fun l hl => hs1.2 l (hl pos (by simp))⟩
    | ok e =>
      obtain ⟨i1, i2⟩ := ih e hs1.1
      exact ⟨i1, fun l hl => (i2 l fun c hc => hl c (by simp [hc])).trans (hs1.2 l (hl pos (by simp)))⟩

/-- The chunks of the loop, if it succeeds on the unlimited device. -/
theorem writeLoopWith_torn (hv : Limited env m room Q V) (hb : Plain (segs h.base)) (hp : Plain (segs path))
    (hs : GoodSep m.separator) (coords : List (List Nat)) (existing : List (El t)) (hnd : coords.Nodup)
    (hdone : ∀ c ∈ coords, c ∉ done) (hwf : fs.WF) (hwf' : fs'.WF) (hc : Cut room Q h path m done fs fs')
    (hw : writeLoop env h path m bbox fill array coords existing fs = (.ok (), g)) (pos : List Nat)
    (hpos : pos ∈ coords) : ∃ b, g.get (h.loc (chunkKey path m pos)) = some (.file b) ∧
      ((writeLoopWith (fun c => storeSet h (chunkKey path m c.gridPosition) (V c)) env h path m bbox fill array coords
          existing fs').2.content (h.loc (chunkKey path m pos)) = fs'.content (h.loc (chunkKey path m pos)) ∨
        (writeLoopWith (fun c => storeSet h (chunkKey path m c.gridPosition) (V c)) env h path m bbox fill array coords
          existing fs').2.content (h.loc (chunkKey path m pos)) = some (b.take (room pos))) := by
  induction coords generalizing existing fs fs' done with
  | nil => simp at hpos
  | cons p rest ih =>
    have hfiles := writeLoop_files hb hp hs (p :: rest) existing hnd hwf hw
    simp only [List.nodup_cons] at hnd
    simp only [writeLoop, M.bind_apply] at hw
    generalize hx : writeCoord env h path m bbox fill array p existing fs = x at hw
    obtain ⟨r, fs1⟩ := x
    cases r with
    | err x => simp at hw
    | panic => simp at hw
    | ok e =>
      simp only at hw
      rw [writeCoord_with] at hx
      obtain ⟨data, hwc, hback⟩ := via_ok hx
      have hpl := plain_loc_chunk (h := h) (m := m) hb hp hs p
      have hst := hback (fun c => storeSet h (chunkKey path m c.gridPosition) (V c)) fs'
        (hc.read hwf hwf' hb hp hs (hdone p (by simp)) _)
      unfold writeChunk at hwc
      have hok := storeSet_result_ok hwc
      have hwr : Writable fs (h.loc (chunkKey path m p)) := by
        refine Classical.byContradiction fun hn => ?_
        obtain ⟨x, e⟩ := (storeSet_spec (writeChunkBytes env.codecs env.native m ⟨p, data⟩) hwf hpl).2 hn
        rw [hwc] at e; cases e
      obtain ⟨g2, e2, w2, q2⟩ := (storeSet_spec (writeChunkBytes env.codecs env.native m ⟨p, data⟩) hwf hpl).1 hwr
      rw [hwc] at e2
      have : fs1 = g2 := (Prod.mk.inj e2).2
      subst this
      obtain ⟨g1', e1', w1', q1'⟩ := (storeSet_spec (V ⟨p, data⟩) hwf' hpl).1 ((hc.writable _).mpr hwr)
      have hwrit := hv.written ⟨p, data⟩ hok
      have hkeep : ∀ l b, (∀ c ∈ rest, l ≠ h.loc (chunkKey path m c)) → fs1.get l = some (.file b) →
          g.get l = some (.file b) := (writeLoop_files hb hp hs rest e hnd.2 w2 hw).2.1
      have hsep : ∀ c ∈ rest, h.loc (chunkKey path m p) ≠ h.loc (chunkKey path m c) := by
        intro c hcr
        refine chunk_loc_ne hs hs (.inr ⟨rfl, ?_⟩)
        intro e; exact hnd.1 (e ▸ hcr)
      simp only [M.bind_apply] at hst
      rw [e1'] at hst
      cases hr : (V ⟨p, data⟩).2 with
      | ok u =>
        rw [hr] at hst e1'
        simp only [M.pure_apply] at hst
        simp only [writeLoopWith, M.bind_apply, hst]
        have hc1 : Cut room Q h path m (p :: done) fs1 g1' :=
          hc.set (hv.cut ⟨p, data⟩ hr).2.2 q2 (by rw [hwrit] at q1'; exact q1')
        rcases List.mem_cons.mp hpos with ep | ep
        · subst ep
          refine ⟨_, hkeep _ _ hsep (by rw [q2, setSpec, if_pos rfl]), .inr ?_⟩
          rw [(writeLoopWith_frame V hb hp hs rest e w1').2 _ hsep, Fs.content, q1', setSpec, if_pos rfl, hwrit]
        · obtain ⟨b, b1, b2⟩ := ih e hnd.2 (done := p :: done) (by
            intro c hcr hcd
            rcases List.mem_cons.mp hcd with e | e
            · exact hnd.1 (e ▸ hcr)
            · exact hdone c (by simp [hcr]) e) w2 w1' hc1 hw ep
          refine ⟨b, b1, b2.imp (fun b2 => b2.trans ?_) id⟩
          exact (storeSet_frame hwf' hpl e1').2 _ (hsep pos ep).symm
      | err x =>
        rw [hr] at hst e1'
        simp only [writeLoopWith, M.bind_apply, hst]
        rcases List.mem_cons.mp hpos with ep | ep
        · subst ep
          exact ⟨_, hkeep _ _ hsep (by rw [q2, setSpec, if_pos rfl]),
            .inr (by rw [Fs.content, q1', setSpec, if_pos rfl, hwrit])⟩
        · obtain ⟨dc, _, _, hg⟩ := hfiles.2.2 pos (by simp [ep])
          exact ⟨_, hg, .inl ((storeSet_frame hwf' hpl e1').2 _ (hsep pos ep).symm)⟩
      | panic =>
        rw [hr] at hst e1'
        simp only [writeLoopWith, M.bind_apply, hst]
        rcases List.mem_cons.mp hpos with ep | ep
        · subst ep
          exact ⟨_, hkeep _ _ hsep (by rw [q2, setSpec, if_pos rfl]),
            .inr (by rw [Fs.content, q1', setSpec, if_pos rfl, hwrit])⟩
        · obtain ⟨dc, _, _, hg⟩ := hfiles.2.2 pos (by simp [ep])
          exact ⟨_, hg, .inl ((storeSet_frame hwf' hpl e1').2 _ (hsep pos ep).symm)⟩

/-- The call leaves the tree alone, or has rounds. -/
theorem writeNdarrayWith_cases {offset : List Nat} (W : DataChunk t → M Fs Unit)
    (hl : m.shape.length = m.chunkShape.length) (hk : ∀ k ∈ m.chunkShape, k ≠ 0) (hn : m.shape ≠ [])
    (hbox : BoxMeetsArray m ⟨offset, array.shape⟩) :
    (∀ fs, (writeNdarrayWith W env h path m offset array fs).2 = fs) ∨
    ∃ xs fill, (∀ c, c ∈ xs ↔ OverlapsBoth m ⟨offset, array.shape⟩ c) ∧
      ∀ fs, writeNdarrayWith W env h path m offset array fs =
        writeLoopWith W env h path m ⟨offset, array.shape⟩ fill array xs [] fs := by
  unfold writeNdarrayWith
  by_cases hd : array.shape.length ≠ m.shape.length
  · exact .inl fun fs => by simp [hd]
  · simp only [hd, if_false, M.bind_apply, M.lift_apply]
    cases effectiveFillValue env m t with
    | err x => exact .inl fun fs => rfl
    | panic => exact .inl fun fs => rfl
    | ok fill =>
      simp only
      cases hi : m.boundedCoordIter ⟨offset, array.shape⟩ with
      | err x => exact .inl fun fs => rfl
      | panic => exact .inl fun fs => rfl
      | ok it =>
        obtain ⟨it', xs, h1, h2, h3, _, h5⟩ := C16_partial m ⟨offset, array.shape⟩ hl hk hn (boundedCoordIter_dim hi)
          (by simpa using hd)
        rw [hi] at h1
        cases h1
        rw [yields_iff] at h2
        subst h2
        exact .inr ⟨it.rest, fill, h5 hbox, fun _ => rfl⟩

/-- Everything, for any limited device. -/
theorem writeNdarrayWith_torn {offset : List Nat} (hv : Limited env m room Q V) (hwf : fs.WF) (hb : Plain (segs h.base))
    (hp : Plain (segs path)) (hs : GoodSep m.separator)
    (hl : m.shape.length = m.chunkShape.length) (hk : ∀ k ∈ m.chunkShape, k ≠ 0) (hn : m.shape ≠ [])
    (hbox : BoxMeetsArray m ⟨offset, array.shape⟩)
    (hw : writeNdarrayWith (fun c => storeSet h (chunkKey path m c.gridPosition) (V c)) env h path m offset array fs =
      (r, fs')) :
    (∀ l, (∀ c, OverlapsBoth m ⟨offset, array.shape⟩ c → l ≠ chunkLoc h path m.separator c) →
      fs'.content l = fs.content l) ∧
    ∀ fs1, writeNdarray env h path m offset array fs = (.ok (), fs1) →
      ∀ c, OverlapsBoth m ⟨offset, array.shape⟩ c → ∃ b, fs1.content (chunkLoc h path m.separator c) = some b ∧
        (fs'.content (chunkLoc h path m.separator c) = fs.content (chunkLoc h path m.separator c) ∨
          fs'.content (chunkLoc h path m.separator c) = some (b.take (room c))) := by
  have hloc : ∀ c, h.loc (chunkKey path m c) = chunkLoc h path m.separator c :=
    fun c => loc_chunkKey (hs.imp id (·.2))
  obtain rfl : (writeNdarrayWith (fun c => storeSet h (chunkKey path m c.gridPosition) (V c)) env h path m offset array
    fs).2 = fs' := by rw [hw]
  refine ⟨fun l hlo => ?_, fun fs1 hw1 c hc => ?_⟩
  · rcases writeNdarrayWith_cases (env := env) (h := h) (path := path)
      (fun c => storeSet h (chunkKey path m c.gridPosition) (V c)) hl hk hn hbox with e | ⟨xs, fill, hmem, e⟩
    · rw [e]
    · rw [e]
      exact (writeLoopWith_frame V hb hp hs xs [] hwf).2 l fun c hc => by rw [hloc]; exact hlo c ((hmem c).mp hc)
  · rw [writeNdarray_with] at hw1
    obtain ⟨xs, fill, hnd, hmem, e1⟩ := writeNdarrayWith_rounds hl hk hn hbox hw1
    rw [e1, ← writeLoop_with] at hw1
    rw [e1, ← hloc]
    obtain ⟨b, b1, b2⟩ := writeLoopWith_torn hv hb hp hs xs [] hnd (done := []) (by simp) hwf hwf
      (fun l => .inl ⟨rfl, by simp⟩) hw1 c ((hmem c).mpr hc)
    exact ⟨b, by rw [Fs.content, b1], b2⟩

end

/-- **C122.** Every compressor, every box that shares a point with the array, every room for the file of each chunk and
every result of `write_ndarray`: no file changes except those of the chunks that share a point with the box and the
array. If the call succeeds on an unlimited device, each of these then holds what it held before the call, or the first
bytes, as many as fit, of what it holds on the unlimited device. -/
theorem C122 (room : List Nat → Nat) (e : StreamEncoder) (env : Env) (h : Hier) (path : Str)
    (m : ArrayMetadata) {t : RsType} (offset : List Nat) (array : NdArr (El t)) (fs fs' : Fs) (r : Outcome Unit)
    (he : EncoderOf e (codecOf env.codecs m.compressor)) (hwf : fs.WF) (hb : Plain (segs h.base))
    (hp : Plain (segs path)) (hs : GoodSep m.separator)
    (hl : m.shape.length = m.chunkShape.length) (hk : ∀ k ∈ m.chunkShape, k ≠ 0) (hn : m.shape ≠ [])
    (hbox : BoxMeetsArray m ⟨offset, array.shape⟩)
    (hw : writeNdarrayStream room e env h path m offset array fs = (r, fs')) :
    (∀ l, (∀ c, OverlapsBoth m ⟨offset, array.shape⟩ c → l ≠ chunkLoc h path m.separator c) →
      fs'.content l = fs.content l) ∧
    ∀ fs1, writeNdarray env h path m offset array fs = (.ok (), fs1) →
      ∀ c, OverlapsBoth m ⟨offset, array.shape⟩ c → ∃ b, fs1.content (chunkLoc h path m.separator c) = some b ∧
        (fs'.content (chunkLoc h path m.separator c) = fs.content (chunkLoc h path m.separator c) ∨
          fs'.content (chunkLoc h path m.separator c) = some (b.take (room c))) :=
  writeNdarrayWith_torn (limited_stream room he) hwf hb hp hs hl hk hn hbox hw

/-- **C122** for the raw compressor. -/
theorem C122_raw (room : List Nat → Nat) (env : Env) (h : Hier) (path : Str)
    (m : ArrayMetadata) {t : RsType} (offset : List Nat) (array : NdArr (El t)) (fs fs' : Fs) (r : Outcome Unit)
    (hm : m.compressor = .raw) (hwf : fs.WF) (hb : Plain (segs h.base))
    (hp : Plain (segs path)) (hs : GoodSep m.separator)
    (hl : m.shape.length = m.chunkShape.length) (hk : ∀ k ∈ m.chunkShape, k ≠ 0) (hn : m.shape ≠ [])
    (hbox : BoxMeetsArray m ⟨offset, array.shape⟩)
    (hw : writeNdarrayDev room env h path m offset array fs = (r, fs')) :
    (∀ l, (∀ c, OverlapsBoth m ⟨offset, array.shape⟩ c → l ≠ chunkLoc h path m.separator c) →
      fs'.content l = fs.content l) ∧
    ∀ fs1, writeNdarray env h path m offset array fs = (.ok (), fs1) →
      ∀ c, OverlapsBoth m ⟨offset, array.shape⟩ c → ∃ b, fs1.content (chunkLoc h path m.separator c) = some b ∧
        (fs'.content (chunkLoc h path m.separator c) = fs.content (chunkLoc h path m.separator c) ∨
          fs'.content (chunkLoc h path m.separator c) = some (b.take (room c))) :=
  writeNdarrayWith_torn (limited_raw room hm) hwf hb hp hs hl hk hn hbox hw

/-- A header as large as the buffer. -/
def Demo.head : Bytes := List.replicate 8192 7

/-- An encoder that begins with a header as large than the buffer, and the library it belongs to. -/
def Demo.headEncoder : StreamEncoder where
  start := [Demo.head]
  write _ seg := [seg]
  finish _ := []
  unwraps := false

def Demo.envHead : Env :=
  { Demo.env with
    codecs := fun _ => ⟨fun segs => (Demo.head ++ segs.flatten, .ok ()), fun b => .ok ⟨b.drop 8192, none⟩⟩ }

theorem Demo.headEncoder_of : EncoderOf Demo.headEncoder (codecOf Demo.envHead.codecs (.bzip2 9)) := by
  intro segs
  have : ∀ segs done, fedOutput Demo.headEncoder done segs = segs.flatten := by
    intro segs
    induction segs with
    | nil => intro _; rfl
    | cons s r ih => intro d; rw [fedOutput, ih]; simp [Demo.headEncoder]
  rw [output, outputBefore, this]
  simp [Demo.headEncoder, codecOf, Demo.envHead]

set_option maxRecDepth 100000 in
/-- A call that fails: there is room for the file of the first chunk and for three bytes of the second. The first chunk
is new, the second is cut off, and nothing is written for the third. -/
example :
    let room := fun pos : List Nat => if pos = [0] then 9000 else 3
    let r := writeNdarrayStream room Demo.headEncoder Demo.envHead Demo.hier Demo.path
      { Demo.arr with compressor := .bzip2 9 } [1] Demo.boxFour Demo.emptyFs
    (writeNdarray Demo.envHead Demo.hier Demo.path { Demo.arr with compressor := .bzip2 9 } [1] Demo.boxFour
      Demo.emptyFs).1 = .ok () ∧
    r.1 ≠ .ok () ∧
    (readChunk Demo.envHead Demo.hier Demo.path { Demo.arr with compressor := .bzip2 9 } .u16 [0] r.2).1 =
      .ok (some ⟨[0], [0#16, 1#16]⟩) ∧
    r.2.content (chunkLoc Demo.hier Demo.path Demo.arr.separator [1]) = some [7, 7, 7] ∧
    r.2.content (chunkLoc Demo.hier Demo.path Demo.arr.separator [2]) = none := by
  decide +kernel

end Zarr
