import Verif.Model.DeviceBox
import Verif.Props.DeviceCut
import Verif.Props.Streams
import Verif.Props.Locations
import Verif.Props.Grid
import Verif.Props.NdWrite
/-!
# C121: box writes that run out of space
-/

namespace Zarr

open Spec

section
variable {env : Env} {h : Hier} {path : Str} {m : ArrayMetadata} {t : RsType} {bbox : BBox} {fill : El t}
  {array : NdArr (El t)} {fs fs' g g' : Fs} {room : List Nat → Nat} {Q : Nat → Bytes → Prop}
  {V : DataChunk t → Bytes × Outcome Unit} {done : List (List Nat)}

theorem writeCoord_with : writeCoord env h path m bbox fill array =
    writeCoordWith (t := t) (writeChunk env h path m) env h path m bbox fill array := rfl

theorem writeLoop_with (coords : List (List Nat)) (existing : List (El t)) :
    writeLoop env h path m bbox fill array coords existing =
      writeLoopWith (writeChunk env h path m) env h path m bbox fill array coords existing := by
  induction coords generalizing existing with
  | nil => rfl
  | cons pos rest ih => simp only [writeLoop, writeLoopWith, ih, writeCoord_with]

theorem writeNdarray_with {offset : List Nat} : writeNdarray env h path m offset array =
    writeNdarrayWith (writeChunk env h path m) env h path m offset array := by
  unfold writeNdarray writeNdarrayWith
  simp only [writeLoop_with]

/-- A round that succeeds writes a chunk, which depends only on the chunk that is read. -/
theorem via_ok {W : DataChunk t → M Fs Unit} {pos : List Nat} {existing e : List (El t)}
    (hw : writeCoordWith W env h path m bbox fill array pos existing fs = (.ok e, g)) :
    ∃ data, W ⟨pos, data⟩ fs = (.ok (), g) ∧ ∀ (W' : DataChunk t → M Fs Unit) (fs' : Fs),
      (readChunkInto env h path m t pos ⟨pos, existing⟩ fs').1 =
        (readChunkInto env h path m t pos ⟨pos, existing⟩ fs).1 →
      writeCoordWith W' env h path m bbox fill array pos existing fs' = (W' ⟨pos, data⟩ >>= fun _ => pure e) fs' := by
  have hro : ∀ f, readChunkInto env h path m t pos ⟨pos, existing⟩ f =
      ((readChunkInto env h path m t pos ⟨pos, existing⟩ f).1, f) :=
    fun f => (readChunkInto_ro env h path m t pos ⟨pos, existing⟩).eq f
  unfold writeCoordWith at hw ⊢
  simp only [M.bind_apply, M.lift_apply] at hw ⊢
  cases h1 : (m.chunkBounds pos).intersect bbox with
  | err x => simp [h1] at hw
  | panic => simp [h1] at hw
  | ok writeBb =>
    simp only [h1] at hw ⊢
    cases h2 : writeBb.sub bbox.offset with
    | err x => simp [h2] at hw
    | panic => simp [h2] at hw
    | ok arrBb =>
      simp only [h2] at hw ⊢
      cases h3 : array.slice arrBb.toSlice with
      | err x => simp [h3] at hw
      | panic => simp [h3] at hw
      | ok view =>
        simp only [h3] at hw ⊢
        by_cases hf : writeBb = m.chunkBounds pos
        · rw [if_pos hf] at hw
          simp only [M.bind_apply] at hw
          refine ⟨view.toVec m.order, ?_, fun W' fs' _ => ?_⟩
          · generalize W ⟨pos, view.toVec m.order⟩ fs = x at hw
            obtain ⟨r, s⟩ := x
            cases r <;> simp at hw
            rw [hw.2]
          · rw [if_pos hf]
            simp only [M.bind_apply]
            generalize W ⟨pos, view.toVec m.order⟩ fs = x at hw
            obtain ⟨r, s⟩ := x
            cases r <;> simp at hw
            rw [← hw.1]
        · rw [if_neg hf] at hw
          simp only [if_neg hf, M.bind_apply, M.lift_apply] at hw ⊢
          rw [hro fs] at hw
          generalize hr : (readChunkInto env h path m t pos ⟨pos, existing⟩ fs).1 = r at hw
          cases r with
          | err x => simp at hw
          | panic => simp at hw
          | ok r =>
            simp only at hw
            generalize hc : (if r.1 = true then do
                let a ← fromShapeVec m.order m.chunkShape r.2.data
                pure (m.chunkBounds r.2.gridPosition, a, m.order)
              else do
                let a ← fromShapeVec .rowMajor (m.chunkBounds pos).shape
                  (List.replicate (m.chunkBounds pos).shape.prod fill)
                pure (m.chunkBounds pos, a, Order.rowMajor)) = c at hw
            cases c with
            | err x => simp at hw
            | panic => simp at hw
            | ok c =>
              simp only at hw
              cases h4 : writeBb.sub c.1.offset with
              | err x => simp [h4] at hw
              | panic => simp [h4] at hw
              | ok cw =>
                simp only [h4] at hw
                cases h5 : c.2.1.sliceAssign cw.toSlice view with
                | err x => simp [h5] at hw
                | panic => simp [h5] at hw
                | ok a =>
                  simp only [h5] at hw
                  refine ⟨a.toVec m.order, ?_, fun W' fs' he => ?_⟩
                  · generalize W ⟨pos, a.toVec m.order⟩ fs = x at hw
                    obtain ⟨r, s⟩ := x
                    cases r <;> simp at hw
                    rw [hw.2]
                  · rw [hro fs', he]
                    simp only [hc, h4, h5]
                    generalize W ⟨pos, a.toVec m.order⟩ fs = x at hw
                    obtain ⟨r, s⟩ := x
                    cases r <;> simp at hw
                    rw [← hw.1]

/-- `V` is what a device with the given room makes of the bytes of a chunk, and `Q` what is known about the room and the
bytes if there is no error. -/
structure Limited (env : Env) (m : ArrayMetadata) (room : List Nat → Nat) (Q : Nat → Bytes → Prop)
    (V : DataChunk t → Bytes × Outcome Unit) : Prop where
  cut : ∀ c, (V c).2 = .ok () → (writeChunkBytes env.codecs env.native m c).2 = .ok () ∧
    (V c).1 = (writeChunkBytes env.codecs env.native m c).1.take (room c.gridPosition) ∧
    Q (room c.gridPosition) (writeChunkBytes env.codecs env.native m c).1
  written : ∀ c, (writeChunkBytes env.codecs env.native m c).2 = .ok () →
    (V c).1 = (writeChunkBytes env.codecs env.native m c).1.take (room c.gridPosition)
  small : ∀ c, (writeChunkBytes env.codecs env.native m c).2 = .ok () →
    ((writeChunkBytes env.codecs env.native m c).1.length ≤ room c.gridPosition ∨
      (writeChunkBytes env.codecs env.native m c).1.length < 8192) → (V c).2 = .ok ()

theorem limited_raw (room : List Nat → Nat) (hm : m.compressor = .raw) :
    Limited env m room (fun r b => b.length ≤ r + 8192)
      (fun c : DataChunk t => writeChunkBytesDev (room c.gridPosition) env.native m c) where
  cut c hok := by
    rcases writeChunkBytesDev_eq (free := room c.gridPosition) (env := env) (m := m) (c := c) hm with
      ⟨ps, h1, h2⟩ | ⟨h1, h2⟩
    · rw [h2] at hok ⊢
      rw [h1]
      exact ⟨rfl, devValue_written _ _, devValue_accepted hok⟩
    · simp only [h2] at hok
      exact absurd hok h1
  written c hok := by
    rcases writeChunkBytesDev_eq (free := room c.gridPosition) (env := env) (m := m) (c := c) hm with
      ⟨ps, h1, h2⟩ | ⟨h1, _⟩
    · rw [h1, h2]; exact devValue_written _ _
    · exact absurd hok h1
  small c hok hfit := by
    rcases writeChunkBytesDev_eq (free := room c.gridPosition) (env := env) (m := m) (c := c) hm with
      ⟨ps, h1, h2⟩ | ⟨h1, _⟩
    · rw [h1] at hfit
      rw [h2]
      rcases hfit with hl | hl
      · rw [devValue_room hl]
      · rw [devValue_small hl]
    · exact absurd hok h1

theorem limited_stream (room : List Nat → Nat) {e : StreamEncoder}
    (he : EncoderOf e (codecOf env.codecs m.compressor)) :
    Limited env m room (fun r b => e.unwraps = true → b.length ≤ r + 8192)
      (fun c : DataChunk t => writeChunkBytesStream (room c.gridPosition) e env.native m c) where
  cut c hok := by
    rcases writeChunkBytesStream_eq (free := room c.gridPosition) (c := c) he with ⟨ps, _, h1, h2⟩ | ⟨h1, h2⟩
    · obtain ⟨r1, r2, _, _⟩ := run_spec e 8192 (room c.gridPosition) ps
      rw [h2] at hok ⊢
      rw [h1]
      exact ⟨rfl, r1, (r2 hok).2⟩
    · simp only [h2] at hok
      exact absurd hok h1
  written c hok := by
    rcases writeChunkBytesStream_eq (free := room c.gridPosition) (c := c) he with ⟨ps, _, h1, h2⟩ | ⟨h1, _⟩
    · rw [h1, h2]; exact (run_spec e 8192 (room c.gridPosition) ps).1
    · exact absurd hok h1
  small c hok hfit := by
    rcases writeChunkBytesStream_eq (free := room c.gridPosition) (c := c) he with ⟨ps, _, h1, h2⟩ | ⟨h1, h2⟩
    · obtain ⟨_, _, r3, r4⟩ := run_spec e 8192 (room c.gridPosition) ps
      rw [h1] at hfit
      rw [h2]
      rcases hfit with hl | hl
      · exact r3 hl
      · refine r4 ?_ fun _ => hl
        simp only [output, List.length_append] at hl
        omega
    · exact absurd hok h1

/-- The second tree is the first, with the files of the chunks `done` cut off. -/
def Cut (room : List Nat → Nat) (Q : Nat → Bytes → Prop) (h : Hier) (path : Str) (m : ArrayMetadata) (done : List (List Nat))
    (fs fs' : Fs) : Prop :=
  ∀ l, (fs'.get l = fs.get l ∧ ∀ pos ∈ done, l ≠ h.loc (chunkKey path m pos)) ∨
    ∃ pos ∈ done, ∃ b, l = h.loc (chunkKey path m pos) ∧ fs.get l = some (.file b) ∧ fs'.get l = some (.file (b.take (room pos))) ∧ Q (room pos) b

theorem Cut.none_iff (hc : Cut room Q h path m done fs fs') (l : Loc) : fs'.get l = none ↔ fs.get l = none := by
  rcases hc l with ⟨e, _⟩ | ⟨pos, _, b, _, e1, e2, _⟩
  · rw [e]
  · rw [e1, e2]; simp

theorem Cut.writable (hc : Cut room Q h path m done fs fs') (p : Loc) : Writable fs' p ↔ Writable fs p := by
  have h1 : ∀ l, (∃ b, fs'.get l = some (.file b)) ↔ ∃ b, fs.get l = some (.file b) := by
    intro l
    rcases hc l with ⟨e, _⟩ | ⟨pos, _, b, _, e1, e2, _⟩
    · rw [e]
    · rw [e1, e2]; simp
  have h2 : fs'.get p = some .dir ↔ fs.get p = some .dir := by
    rcases hc p with ⟨e, _⟩ | ⟨pos, _, b, _, e1, e2, _⟩
    · rw [e]
    · rw [e1, e2]; simp
  unfold Writable
  rw [ne_eq, ne_eq, h2]
  refine and_congr (forall_congr' fun l => imp_congr_right fun _ => imp_congr_right fun _ => ?_) Iff.rfl
  have := h1 l
  constructor
  · intro hn b hb
    obtain ⟨b', hb'⟩ := this.mpr ⟨b, hb⟩
    exact hn b' hb'
  · intro hn b hb
    obtain ⟨b', hb'⟩ := this.mp ⟨b, hb⟩
    exact hn b' hb'

theorem Cut.set (hc : Cut room Q h path m done fs fs') {pos : List Nat} {b : Bytes}
    (hlen : Q (room pos) b) (hg : ∀ l, g.get l = setSpec fs (h.loc (chunkKey path m pos)) b l)
    (hg' : ∀ l, g'.get l = setSpec fs' (h.loc (chunkKey path m pos)) (b.take (room pos)) l) :
    Cut room Q h path m (pos :: done) g g' := by
  intro l
  rw [hg, hg']
  unfold setSpec
  by_cases hl : l = h.loc (chunkKey path m pos)
  · exact .inr ⟨pos, by simp, b, hl, by simp [hl], by simp [hl], hlen⟩
  · rw [if_neg hl, if_neg hl]
    by_cases hn : l <+: h.loc (chunkKey path m pos) ∧ fs.get l = none
    · rcases hc l with ⟨_, e⟩ | ⟨_, _, _, _, e, _⟩
      · refine .inl ⟨by rw [if_pos hn, if_pos ⟨hn.1, (hc.none_iff l).mpr hn.2⟩], fun p hp => ?_⟩
        rcases List.mem_cons.mp hp with e' | e'
        · exact e' ▸ hl
        · exact e p e'
      · rw [hn.2] at e; cases e
    · rw [if_neg hn, if_neg (fun x => hn ⟨x.1, (hc.none_iff l).mp x.2⟩)]
      rcases hc l with ⟨e, e1⟩ | ⟨p, hp, r⟩
      · refine .inl ⟨e, fun p hp => ?_⟩
        rcases List.mem_cons.mp hp with e' | e'
        · exact e' ▸ hl
        · exact e1 p e'
      · exact .inr ⟨p, List.mem_cons_of_mem _ hp, r⟩

/-- A chunk is read the same unless it was cut off. -/
theorem Cut.read (hc : Cut room Q h path m done fs fs') (hwf : fs.WF) (hwf' : fs'.WF) (hb : Plain (segs h.base))
    (hp : Plain (segs path)) (hs : GoodSep m.separator) {pos : List Nat} (hn : pos ∉ done) (buf : DataChunk t) :
    (readChunkInto env h path m t pos buf fs').1 = (readChunkInto env h path m t pos buf fs).1 := by
  have hpl := plain_loc_chunk (h := h) (m := m) hb hp hs pos
  have e : fs'.content (h.loc (chunkKey path m pos)) = fs.content (h.loc (chunkKey path m pos)) := by
    rcases hc (h.loc (chunkKey path m pos)) with ⟨e, _⟩ | ⟨p, hp, _, e, _⟩
    · rw [Fs.content, Fs.content, e]
    · refine absurd e (chunk_loc_ne hs hs (.inr ⟨rfl, ?_⟩))
      intro e; exact hn (e ▸ hp)
  unfold readChunkInto
  simp only [M.bind_apply, M.lift_apply]
  cases assertInBounds m pos with
  | err x => rfl
  | panic => rfl
  | ok u =>
    simp only
    rw [storeGet_eq hwf hpl, storeGet_eq hwf' hpl, e]
    simp only
    cases fs.content (h.loc (chunkKey path m pos)) with
    | none => rfl
    | some b =>
      simp only [M.bind_apply, M.lift_apply]
      cases readChunkIntoBytes env.codecs env.native m t pos b buf <;> rfl

/-- What a chunk write that succeeds on the limited device does on the other one. -/
theorem Cut.write (hc : Cut room Q h path m done fs fs') (hv : Limited env m room Q V) (hwf : fs.WF) (hwf' : fs'.WF)
    (hb : Plain (segs h.base)) (hp : Plain (segs path)) (hs : GoodSep m.separator) {c : DataChunk t}
    (hw : storeSet h (chunkKey path m c.gridPosition) (V c) fs' = (.ok (), g')) :
    ∃ g, writeChunk env h path m c fs = (.ok (), g) ∧ g.WF ∧ g'.WF ∧
      Cut room Q h path m (c.gridPosition :: done) g g' := by
  have hpl := plain_loc_chunk (h := h) (m := m) hb hp hs c.gridPosition
  obtain ⟨h1, h2, h3⟩ := hv.cut c (storeSet_result_ok hw)
  obtain ⟨s1, s2⟩ := storeSet_spec (V c) hwf' hpl
  by_cases hwr : Writable fs' (h.loc (chunkKey path m c.gridPosition))
  · obtain ⟨g1, e1, w1, q1⟩ := s1 hwr
    obtain ⟨g2, e2, w2, q2⟩ := (storeSet_spec (writeChunkBytes env.codecs env.native m c) hwf hpl).1
      ((hc.writable _).mp hwr)
    rw [hw] at e1
    have : g' = g1 := (Prod.mk.inj e1).2
    subst this
    refine ⟨g2, ?_, w2, w1, hc.set h3 q2 (by rw [h2] at q1; exact q1)⟩
    unfold writeChunk; rw [e2, h1]
  · obtain ⟨x, e⟩ := s2 hwr
    rw [hw] at e; cases e

/-- What a chunk write that succeeds on the unlimited device does on the other one, if what it writes fits or is
small. -/
theorem Cut.write_back (hc : Cut room Q h path m done fs fs') (hv : Limited env m room Q V) (hwf : fs.WF)
    (hwf' : fs'.WF) (hb : Plain (segs h.base)) (hp : Plain (segs path)) (hs : GoodSep m.separator) {c : DataChunk t}
    (hw : writeChunk env h path m c fs = (.ok (), g))
    (hfit : (writeChunkBytes env.codecs env.native m c).1.length ≤ room c.gridPosition ∨
      (writeChunkBytes env.codecs env.native m c).1.length < 8192) :
    ∃ g', storeSet h (chunkKey path m c.gridPosition) (V c) fs' = (.ok (), g') := by
  have hpl := plain_loc_chunk (h := h) (m := m) hb hp hs c.gridPosition
  unfold writeChunk at hw
  have hok := storeSet_result_ok hw
  obtain ⟨_, s2⟩ := storeSet_spec (writeChunkBytes env.codecs env.native m c) hwf hpl
  by_cases hwr : Writable fs (h.loc (chunkKey path m c.gridPosition))
  · obtain ⟨g1, e1, _⟩ := (storeSet_spec (V c) hwf' hpl).1 ((hc.writable _).mpr hwr)
    exact ⟨g1, by rw [e1, hv.small c hok hfit]⟩
  · obtain ⟨x, e⟩ := s2 hwr
    rw [hw] at e; cases e

/-- The loop: what it does on the unlimited device if it succeeds on the limited one. -/
theorem writeLoop_cut (hb : Plain (segs h.base)) (hp : Plain (segs path)) (hs : GoodSep m.separator)
    (hv : Limited env m room Q V) (coords : List (List Nat)) (existing : List (El t)) (hnd : coords.Nodup)
    (hdone : ∀ c ∈ coords, c ∉ done) (hwf : fs.WF) (hwf' : fs'.WF) (hc : Cut room Q h path m done fs fs')
    (hw : writeLoopWith (fun c => storeSet h (chunkKey path m c.gridPosition) (V c)) env h path m bbox fill array coords existing fs' = (.ok (), g')) :
    ∃ g, writeLoop env h path m bbox fill array coords existing fs = (.ok (), g) ∧ g.WF ∧ g'.WF ∧
      Cut room Q h path m (coords.reverse ++ done) g g' := by
  induction coords generalizing existing fs fs' done with
  | nil =>
    simp only [writeLoopWith, M.pure_apply, Prod.mk.injEq, true_and] at hw
    subst hw
    exact ⟨fs, rfl, hwf, hwf', hc⟩
  | cons pos rest ih =>
    simp only [writeLoopWith, M.bind_apply] at hw
    generalize hx : writeCoordWith (fun c => storeSet h (chunkKey path m c.gridPosition) (V c)) env h path m bbox fill array pos existing fs' = x at hw
    obtain ⟨r, fs1'⟩ := x
    cases r with
    | err x => simp at hw
    | panic => simp at hw
    | ok e =>
      simp only at hw
      obtain ⟨data, hwc, hback⟩ := via_ok hx
      obtain ⟨g1, e1, w1, w1', c1⟩ := hc.write hv hwf hwf' hb hp hs (c := ⟨pos, data⟩) hwc
      have hst := hback (writeChunk env h path m) fs
        (hc.read hwf hwf' hb hp hs (hdone pos (by simp)) _).symm
      simp only [M.bind_apply, e1, M.pure_apply] at hst
      rw [← writeCoord_with] at hst
      simp only [List.nodup_cons] at hnd
      obtain ⟨g, i1, i2, i3, i4⟩ := ih e hnd.2 (done := pos :: done) (by
        intro c hcr hcd
        rcases List.mem_cons.mp hcd with e | e
        · exact hnd.1 (e ▸ hcr)
        · exact hdone c (by simp [hcr]) e) w1 w1' c1 hw
      refine ⟨g, ?_, i2, i3, by simpa using i4⟩
      simp only [writeLoop, M.bind_apply, hst]
      exact i1

/-- Files that the loop does not write stay; those it writes hold chunks. -/
theorem writeLoop_files (hb : Plain (segs h.base)) (hp : Plain (segs path)) (hs : GoodSep m.separator)
    (coords : List (List Nat)) (existing : List (El t)) (hnd : coords.Nodup) (hwf : fs.WF)
    (hw : writeLoop env h path m bbox fill array coords existing fs = (.ok (), g)) :
    g.WF ∧ (∀ l b, (∀ c ∈ coords, l ≠ h.loc (chunkKey path m c)) → fs.get l = some (.file b) →
      g.get l = some (.file b)) ∧
    ∀ pos ∈ coords, ∃ c : DataChunk t, c.gridPosition = pos ∧
      (writeChunkBytes env.codecs env.native m c).2 = .ok () ∧
      g.get (h.loc (chunkKey path m pos)) = some (.file (writeChunkBytes env.codecs env.native m c).1) := by
  induction coords generalizing existing fs with
  | nil =>
    simp only [writeLoop, M.pure_apply, Prod.mk.injEq, true_and] at hw
    subst hw
    exact ⟨hwf, fun _ _ _ hb => hb, by simp⟩
  | cons pos rest ih =>
    simp only [writeLoop, M.bind_apply] at hw
    generalize hx : writeCoord env h path m bbox fill array pos existing fs = x at hw
    obtain ⟨r, fs1⟩ := x
    cases r with
    | err x => simp at hw
    | panic => simp at hw
    | ok e =>
      simp only at hw
      rw [writeCoord_with] at hx
      obtain ⟨data, hwc, _⟩ := via_ok hx
      have hpl := plain_loc_chunk (h := h) (m := m) hb hp hs pos
      unfold writeChunk at hwc
      have hok := storeSet_result_ok hwc
      obtain ⟨s1, s2⟩ := storeSet_spec (writeChunkBytes env.codecs env.native m ⟨pos, data⟩) hwf hpl
      by_cases hwr : Writable fs (h.loc (chunkKey path m pos))
      · obtain ⟨g1, e1, w1, q1⟩ := s1 hwr
        rw [hwc] at e1
        have : fs1 = g1 := (Prod.mk.inj e1).2
        subst this
        simp only [List.nodup_cons] at hnd
        obtain ⟨i1, i2, i3⟩ := ih e hnd.2 w1 hw
        refine ⟨i1, fun l b hl hg => i2 l b (fun c hc => hl c (by simp [hc])) ?_, ?_⟩
        · rw [q1, setSpec, if_neg (hl pos (by simp)), if_neg (by simp [hg]), hg]
        · intro p hp
          rcases List.mem_cons.mp hp with e | e
          · subst e
            refine ⟨⟨p, data⟩, rfl, hok, i2 _ _ ?_ (by rw [q1, setSpec, if_pos rfl])⟩
            intro c hc
            refine chunk_loc_ne hs hs (.inr ⟨rfl, ?_⟩)
            intro e; exact hnd.1 (e ▸ hc)
          · exact i3 p e
      · obtain ⟨x, e⟩ := s2 hwr
        rw [hwc] at e; cases e

/-- The loop succeeds on the limited device if it does on the other one and what it writes there is small or fits. -/
theorem writeLoop_back (hb : Plain (segs h.base)) (hp : Plain (segs path)) (hs : GoodSep m.separator)
    (hv : Limited env m room Q V) (coords : List (List Nat)) (existing : List (El t)) (hnd : coords.Nodup)
    (hdone : ∀ c ∈ coords, c ∉ done) (hwf : fs.WF) (hwf' : fs'.WF) (hc : Cut room Q h path m done fs fs')
    (hw : writeLoop env h path m bbox fill array coords existing fs = (.ok (), g))
    (hsm : ∀ pos ∈ coords, ∀ b, g.get (h.loc (chunkKey path m pos)) = some (.file b) →
      b.length ≤ room pos ∨ b.length < 8192) :
    ∃ g', writeLoopWith (fun c => storeSet h (chunkKey path m c.gridPosition) (V c)) env h path m bbox fill array coords existing fs' = (.ok (), g') := by
  induction coords generalizing existing fs fs' done with
  | nil => exact ⟨fs', rfl⟩
  | cons pos rest ih =>
    have hw0 := hw
    simp only [writeLoop, M.bind_apply] at hw
    generalize hx : writeCoord env h path m bbox fill array pos existing fs = x at hw
    obtain ⟨r, fs1⟩ := x
    cases r with
    | err x => simp at hw
    | panic => simp at hw
    | ok e =>
      simp only at hw
      rw [writeCoord_with] at hx
      obtain ⟨data, hwc, hback⟩ := via_ok hx
      have hpl := plain_loc_chunk (h := h) (m := m) hb hp hs pos
      simp only [List.nodup_cons] at hnd
      have hwf1 : fs1.WF := (storeSet_frame (v := writeChunkBytes env.codecs env.native m ⟨pos, data⟩) hwf hpl hwc).1
      have hfile : g.get (h.loc (chunkKey path m pos)) =
          some (.file (writeChunkBytes env.codecs env.native m ⟨pos, data⟩).1) := by
        refine (writeLoop_files hb hp hs rest e hnd.2 hwf1 hw).2.1 _ _ ?_ ?_
        · intro c hc
          refine chunk_loc_ne hs hs (.inr ⟨rfl, ?_⟩)
          intro e; exact hnd.1 (e ▸ hc)
        · obtain ⟨s1, s2⟩ := storeSet_spec (writeChunkBytes env.codecs env.native m ⟨pos, data⟩) hwf hpl
          unfold writeChunk at hwc
          by_cases hwr : Writable fs (h.loc (chunkKey path m pos))
          · obtain ⟨g1, e1, _, q1⟩ := s1 hwr
            rw [hwc] at e1
            have : fs1 = g1 := (Prod.mk.inj e1).2
            subst this
            rw [q1, setSpec, if_pos rfl]
          · obtain ⟨x, e⟩ := s2 hwr
            rw [hwc] at e; cases e
      obtain ⟨g1', e1⟩ := hc.write_back hv hwf hwf' hb hp hs hwc (hsm pos (by simp) _ hfile)
      obtain ⟨g1, f1, _, w1', c1⟩ := hc.write hv hwf hwf' hb hp hs (c := ⟨pos, data⟩) e1
      rw [hwc] at f1
      have : fs1 = g1 := (Prod.mk.inj f1).2
      subst this
      have hst := hback (fun c => storeSet h (chunkKey path m c.gridPosition) (V c)) fs'
        (hc.read hwf hwf' hb hp hs (hdone pos (by simp)) _)
      simp only [M.bind_apply, e1, M.pure_apply] at hst
      obtain ⟨g', i⟩ := ih e hnd.2 (done := pos :: done) (by
        intro c hcr hcd
        rcases List.mem_cons.mp hcd with e | e
        · exact hnd.1 (e ▸ hcr)
        · exact hdone c (by simp [hcr]) e) hwf1 w1' c1 hw (fun p hp => hsm p (by simp [hp]))
      exact ⟨g', by simp only [writeLoopWith, M.bind_apply, hst]; exact i⟩

theorem starts_of_covers {s k c p : List Nat} (h1 : Inside s p) (h2 : Covers k c p) : Starts s k c := by
  induction s generalizing k c p with
  | nil => cases p <;> cases k <;> cases c <;> simp_all [Inside, Covers, Starts]
  | cons a s ih =>
    cases p <;> cases k <;> cases c <;> simp only [Inside, Covers, Starts] at h1 h2 ⊢
    exact ⟨by omega, ih h1.2 h2.2⟩

/-- The rounds of `write_ndarray`, with any `write_chunk`. -/
theorem writeNdarrayWith_rounds {offset : List Nat} {W : DataChunk t → M Fs Unit}
    (hl : m.shape.length = m.chunkShape.length) (hk : ∀ k ∈ m.chunkShape, k ≠ 0) (hn : m.shape ≠ [])
    (hbox : BoxMeetsArray m ⟨offset, array.shape⟩)
    (hok : writeNdarrayWith W env h path m offset array fs = (.ok (), g)) :
    ∃ xs fill, xs.Nodup ∧ (∀ c, c ∈ xs ↔ OverlapsBoth m ⟨offset, array.shape⟩ c) ∧
      ∀ W' fs, writeNdarrayWith W' env h path m offset array fs =
        writeLoopWith W' env h path m ⟨offset, array.shape⟩ fill array xs [] fs := by
  unfold writeNdarrayWith at hok ⊢
  by_cases hd : array.shape.length ≠ m.shape.length
  · simp [hd] at hok
  · simp only [hd, if_false, M.bind_apply, M.lift_apply] at hok ⊢
    cases hf : effectiveFillValue env m t with
    | err x => simp [hf] at hok
    | panic => simp [hf] at hok
    | ok fill =>
      simp only [hf] at hok ⊢
      cases hi : m.boundedCoordIter ⟨offset, array.shape⟩ with
      | err x => simp [hi] at hok
      | panic => simp [hi] at hok
      | ok it =>
        simp only [hi] at hok ⊢
        obtain ⟨it', xs, h1, h2, h3, _, h5⟩ := C16_partial m ⟨offset, array.shape⟩ hl hk hn (boundedCoordIter_dim hi)
          (by simpa using hd)
        rw [hi] at h1
        cases h1
        rw [yields_iff] at h2
        subst h2
        exact ⟨it.rest, fill, h3.imp fun hlt e => absurd (e ▸ hlt) (List.lt_irrefl _), h5 hbox, fun _ _ => rfl⟩

/-- Everything about both devices, for any limited device. -/
theorem writeNdarray_limited {offset : List Nat} (hv : Limited env m room Q V) (hwf : fs.WF) (hb : Plain (segs h.base))
    (hp : Plain (segs path)) (hs : GoodSep m.separator)
    (hl : m.shape.length = m.chunkShape.length) (hk : ∀ k ∈ m.chunkShape, k ≠ 0) (hn : m.shape ≠ [])
    (hbox : BoxMeetsArray m ⟨offset, array.shape⟩)
    (hw : writeNdarrayWith (fun c => storeSet h (chunkKey path m c.gridPosition) (V c)) env h path m offset array fs =
      (.ok (), fs')) :
    fs'.WF ∧ ∃ fs1, writeNdarray env h path m offset array fs = (.ok (), fs1) ∧
      (∀ l, (∀ c, OverlapsBoth m ⟨offset, array.shape⟩ c → l ≠ chunkLoc h path m.separator c) →
        fs'.get l = fs1.get l) ∧
      ∀ c, OverlapsBoth m ⟨offset, array.shape⟩ c → ∃ b, fs1.get (chunkLoc h path m.separator c) = some (.file b) ∧
        fs'.get (chunkLoc h path m.separator c) = some (.file (b.take (room c))) ∧ Q (room c) b ∧
        ∃ dc : DataChunk t, (writeChunkBytes env.codecs env.native m dc).2 = .ok () ∧
          b = (writeChunkBytes env.codecs env.native m dc).1 := by
  have hloc : ∀ c, h.loc (chunkKey path m c) = chunkLoc h path m.separator c :=
    fun c => loc_chunkKey (hs.imp id (·.2))
  obtain ⟨xs, fill, hnd, hmem, e1⟩ := writeNdarrayWith_rounds hl hk hn hbox hw
  rw [e1] at hw
  obtain ⟨fs1, h1, _, h3, h4⟩ := writeLoop_cut hb hp hs hv xs [] hnd (done := []) (by simp) hwf hwf
    (fun l => .inl ⟨rfl, by simp⟩) hw
  refine ⟨h3, fs1, by rw [writeNdarray_with, e1, ← writeLoop_with, h1], fun l hl => ?_, fun c hc => ?_⟩
  · rcases h4 l with ⟨e, _⟩ | ⟨c, hc, _, e, _⟩
    · exact e
    · exact absurd (e.trans (hloc c)) (hl c ((hmem c).mp (by simpa using hc)))
  · obtain ⟨dc, _, hok, hg⟩ := (writeLoop_files hb hp hs xs [] hnd hwf h1).2.2 c ((hmem c).mpr hc)
    rw [← hloc]
    rcases h4 (h.loc (chunkKey path m c)) with ⟨_, e⟩ | ⟨c', hc', b, e, r1, r2, r3⟩
    · exact absurd rfl (e c (by simpa using (hmem c).mpr hc))
    · by_cases hcc : c = c'
      · subst hcc
        rw [r1] at hg
        exact ⟨b, r1, r2, r3, dc, hok, by simpa using hg⟩
      · exact absurd e (chunk_loc_ne hs hs (.inr ⟨rfl, fun e => hcc e.symm⟩))

theorem writeNdarray_unlimited {offset : List Nat} {fs1 : Fs} (hv : Limited env m room Q V) (hwf : fs.WF)
    (hb : Plain (segs h.base)) (hp : Plain (segs path)) (hs : GoodSep m.separator)
    (hl : m.shape.length = m.chunkShape.length) (hk : ∀ k ∈ m.chunkShape, k ≠ 0) (hn : m.shape ≠ [])
    (hbox : BoxMeetsArray m ⟨offset, array.shape⟩)
    (hw : writeNdarray env h path m offset array fs = (.ok (), fs1))
    (hsmall : ∀ c b, OverlapsBoth m ⟨offset, array.shape⟩ c →
      fs1.get (chunkLoc h path m.separator c) = some (.file b) → b.length ≤ room c ∨ b.length < 8192) :
    ∃ fs', writeNdarrayWith (fun c => storeSet h (chunkKey path m c.gridPosition) (V c)) env h path m offset array fs =
      (.ok (), fs') := by
  have hloc : ∀ c, h.loc (chunkKey path m c) = chunkLoc h path m.separator c :=
    fun c => loc_chunkKey (hs.imp id (·.2))
  rw [writeNdarray_with] at hw
  obtain ⟨xs, fill, hnd, hmem, e1⟩ := writeNdarrayWith_rounds hl hk hn hbox hw
  rw [e1, ← writeLoop_with] at hw
  obtain ⟨fs', hdev⟩ := writeLoop_back hb hp hs hv xs [] hnd (done := []) (by simp) hwf hwf
    (fun l => .inl ⟨rfl, by simp⟩) hw (fun c hc b hg => hsmall c b ((hmem c).mp hc) (by rw [← hloc]; exact hg))
  exact ⟨fs', by rw [e1]; exact hdev⟩

/-- **C121 (partial).** Raw compressor, whatever box that shares a point with the array and whatever room for the file
of each chunk: if `write_ndarray` says `Ok`, then it says so on an unlimited device, and the files are those it leaves
there, except that the file of each chunk that shares a point with the box and the array is cut off after the bytes
that fit, of which at most 8192 are missing. Conversely, if everything fits, the call says `Ok` if it does on an
unlimited device. Missing: that nothing is cut off, see `C121_violated`. Other compressors: `C121_partial_compressed`. -/
theorem C121_partial (room : List Nat → Nat) (env : Env) (h : Hier) (path : Str) (m : ArrayMetadata) {t : RsType}
    (offset : List Nat) (array : NdArr (El t)) (fs : Fs) (hwf : fs.WF) (hb : Plain (segs h.base))
    (hp : Plain (segs path)) (hs : GoodSep m.separator) (hm : m.compressor = .raw)
    (hl : m.shape.length = m.chunkShape.length) (hk : ∀ k ∈ m.chunkShape, k ≠ 0) (hn : m.shape ≠ [])
    (hbox : BoxMeetsArray m ⟨offset, array.shape⟩) :
    (∀ fs', writeNdarrayDev room env h path m offset array fs = (.ok (), fs') →
      ∃ fs1, writeNdarray env h path m offset array fs = (.ok (), fs1) ∧
      (∀ l, (∀ c, OverlapsBoth m ⟨offset, array.shape⟩ c → l ≠ chunkLoc h path m.separator c) →
        fs'.get l = fs1.get l) ∧
      ∀ c, OverlapsBoth m ⟨offset, array.shape⟩ c → ∃ b, fs1.get (chunkLoc h path m.separator c) = some (.file b) ∧
        fs'.get (chunkLoc h path m.separator c) = some (.file (b.take (room c))) ∧ b.length ≤ room c + 8192) ∧
    ∀ fs1, writeNdarray env h path m offset array fs = (.ok (), fs1) →
      (∀ c b, OverlapsBoth m ⟨offset, array.shape⟩ c → fs1.get (chunkLoc h path m.separator c) = some (.file b) →
        b.length ≤ room c) →
      ∃ fs', writeNdarrayDev room env h path m offset array fs = (.ok (), fs') ∧ ∀ l, fs'.get l = fs1.get l := by
  have hv : Limited env m room _ (fun c : DataChunk t => writeChunkBytesDev (room c.gridPosition) env.native m c) :=
    limited_raw room hm
  have hfst := fun fs' => writeNdarray_limited (fs := fs) (fs' := fs') hv hwf hb hp hs hl hk hn hbox
  refine ⟨fun fs' hw => ?_, fun fs1 hw hfit => ?_⟩
  · obtain ⟨_, fs1, h1, h2, h3⟩ := hfst fs' hw
    refine ⟨fs1, h1, h2, fun c hc => ?_⟩
    obtain ⟨b, b1, b2, b3, _⟩ := h3 c hc
    exact ⟨b, b1, b2, b3⟩
  · obtain ⟨fs', hdev⟩ := writeNdarray_unlimited hv hwf hb hp hs hl hk hn hbox hw
      fun c b hc hg => .inl (hfit c b hc hg)
    obtain ⟨_, fs2, h1, h2, h3⟩ := hfst fs' hdev
    rw [hw] at h1
    cases h1
    refine ⟨fs', hdev, fun l => ?_⟩
    by_cases hx : ∀ c, OverlapsBoth m ⟨offset, array.shape⟩ c → l ≠ chunkLoc h path m.separator c
    · exact h2 l hx
    · obtain ⟨c, hx⟩ := Classical.not_forall.mp hx
      obtain ⟨hc, e⟩ := Classical.not_imp.mp hx
      obtain ⟨b, b1, b2, _⟩ := h3 c hc
      rw [Classical.not_not.mp e, b1, b2, List.take_of_length_le (hfit c b hc b1)]

/-- **C121 (partial), every compressor.** As `C121_partial`; of the file of a chunk any number of bytes may be missing,
but at most 8192 if the encoder unwraps errors when it is dropped. -/
theorem C121_partial_compressed (room : List Nat → Nat) (e : StreamEncoder) (env : Env) (h : Hier) (path : Str)
    (m : ArrayMetadata) {t : RsType} (offset : List Nat) (array : NdArr (El t)) (fs : Fs)
    (he : EncoderOf e (codecOf env.codecs m.compressor)) (hwf : fs.WF) (hb : Plain (segs h.base))
    (hp : Plain (segs path)) (hs : GoodSep m.separator)
    (hl : m.shape.length = m.chunkShape.length) (hk : ∀ k ∈ m.chunkShape, k ≠ 0) (hn : m.shape ≠ [])
    (hbox : BoxMeetsArray m ⟨offset, array.shape⟩) :
    (∀ fs', writeNdarrayStream room e env h path m offset array fs = (.ok (), fs') →
      ∃ fs1, writeNdarray env h path m offset array fs = (.ok (), fs1) ∧
      (∀ l, (∀ c, OverlapsBoth m ⟨offset, array.shape⟩ c → l ≠ chunkLoc h path m.separator c) →
        fs'.get l = fs1.get l) ∧
      ∀ c, OverlapsBoth m ⟨offset, array.shape⟩ c → ∃ b, fs1.get (chunkLoc h path m.separator c) = some (.file b) ∧
        fs'.get (chunkLoc h path m.separator c) = some (.file (b.take (room c))) ∧
        (e.unwraps = true → b.length ≤ room c + 8192)) ∧
    ∀ fs1, writeNdarray env h path m offset array fs = (.ok (), fs1) →
      (∀ c b, OverlapsBoth m ⟨offset, array.shape⟩ c → fs1.get (chunkLoc h path m.separator c) = some (.file b) →
        b.length ≤ room c) →
      ∃ fs', writeNdarrayStream room e env h path m offset array fs = (.ok (), fs') ∧ ∀ l, fs'.get l = fs1.get l := by
  have hv : Limited env m room _ (fun c : DataChunk t => writeChunkBytesStream (room c.gridPosition) e env.native m c) :=
    limited_stream room he
  have hfst := fun fs' => writeNdarray_limited (fs := fs) (fs' := fs') hv hwf hb hp hs hl hk hn hbox
  refine ⟨fun fs' hw => ?_, fun fs1 hw hfit => ?_⟩
  · obtain ⟨_, fs1, h1, h2, h3⟩ := hfst fs' hw
    refine ⟨fs1, h1, h2, fun c hc => ?_⟩
    obtain ⟨b, b1, b2, b3, _⟩ := h3 c hc
    exact ⟨b, b1, b2, b3⟩
  · obtain ⟨fs', hdev⟩ := writeNdarray_unlimited hv hwf hb hp hs hl hk hn hbox hw
      fun c b hc hg => .inl (hfit c b hc hg)
    obtain ⟨_, fs2, h1, h2, h3⟩ := hfst fs' hdev
    rw [hw] at h1
    cases h1
    refine ⟨fs', hdev, fun l => ?_⟩
    by_cases hx : ∀ c, OverlapsBoth m ⟨offset, array.shape⟩ c → l ≠ chunkLoc h path m.separator c
    · exact h2 l hx
    · obtain ⟨c, hx⟩ := Classical.not_forall.mp hx
      obtain ⟨hc, e⟩ := Classical.not_imp.mp hx
      obtain ⟨b, b1, b2, _⟩ := h3 c hc
      rw [Classical.not_not.mp e, b1, b2, List.take_of_length_le (hfit c b hc b1)]

/-- **C121 (violated).** Raw compressor: every `write_ndarray` that succeeds on an unlimited device with chunk files of
less than 8192 bytes also says `Ok` when the device runs out of space, whatever the room for each file, and then every
chunk whose file did not fit can no longer be read. -/
theorem C121_violated (room : List Nat → Nat) (env : Env) (h : Hier) (path : Str) (m : ArrayMetadata) {t : RsType}
    (offset : List Nat) (array : NdArr (El t)) (fs fs1 : Fs) (hwf : fs.WF) (hb : Plain (segs h.base))
    (hp : Plain (segs path)) (hs : GoodSep m.separator) (hm : m.compressor = .raw)
    (hl : m.shape.length = m.chunkShape.length) (hk : ∀ k ∈ m.chunkShape, k ≠ 0) (hn : m.shape ≠ [])
    (hbox : BoxMeetsArray m ⟨offset, array.shape⟩)
    (hw : writeNdarray env h path m offset array fs = (.ok (), fs1))
    (hsmall : ∀ c b, OverlapsBoth m ⟨offset, array.shape⟩ c →
      fs1.get (chunkLoc h path m.separator c) = some (.file b) → b.length < 8192) :
    ∃ fs', writeNdarrayDev room env h path m offset array fs = (.ok (), fs') ∧
      ∀ c, OverlapsBoth m ⟨offset, array.shape⟩ c → ∃ b, fs1.get (chunkLoc h path m.separator c) = some (.file b) ∧
        (room c < b.length → (readChunk env h path m t c fs').1 = .err .unexpectedEof) := by
  have hloc : ∀ c, h.loc (chunkKey path m c) = chunkLoc h path m.separator c :=
    fun c => loc_chunkKey (hs.imp id (·.2))
  have hv : Limited env m room _ (fun c : DataChunk t => writeChunkBytesDev (room c.gridPosition) env.native m c) :=
    limited_raw room hm
  obtain ⟨fs', hdev⟩ := writeNdarray_unlimited hv hwf hb hp hs hl hk hn hbox hw
    fun c b hc hg => .inr (hsmall c b hc hg)
  refine ⟨fs', hdev, fun c hc => ?_⟩
  obtain ⟨hwf', fs2, q1, _, q3⟩ := writeNdarray_limited hv hwf hb hp hs hl hk hn hbox hdev
  rw [hw] at q1
  cases q1
  obtain ⟨b, hb1, hb2, _, dc, hok, hg⟩ := q3 c hc
  refine ⟨b, hb1, fun hroom => ?_⟩
  obtain ⟨d, segs', hd, ht, hne, hfl, hwb⟩ := writeChunkBytes_ok hok
  rw [hm] at hwb
  have hbe : b = dc.data.flatMap (elBytes (d.endian env.native)) := by
    rw [hg, hwb, ← hfl]; rfl
  have hlen : b.length = dc.data.length * t.size := by rw [hbe, flatMap_elBytes_length]
  have hsm := hsmall c b hc hb1
  have hlt : dc.data.length < 2 ^ 32 := by
    have hs : 0 < t.size := by cases t <;> simp [RsType.size]
    have := Nat.le_mul_of_pos_right dc.data.length hs
    omega
  have hin : m.inBounds c = .ok true := by
    obtain ⟨p, p1, _, p3⟩ := hc
    exact (inBounds_iff hl hk).mpr (bounded_of_starts hk (starts_of_covers p1 p3))
  have hget : storeGet h (chunkKey path m c) fs' = (.ok (some (b.take (room c))), fs') := by
    rw [storeGet_eq hwf' (plain_loc_chunk hb hp hs c), hloc, Fs.content, hb2]
  rw [readChunk_inBounds hin hget]
  simp only [readChunkBytes_eq hd ht, hm]
  have hmod : m.chunkNumElements % 2 ^ 32 = dc.data.length := by
    rw [← hne, Nat.mod_eq_of_lt hlt, Nat.mod_eq_of_lt hlt]
  rw [hmod]
  simp only [codecOf, rawCodec, Outcome.bind_ok]
  rw [if_neg (by rw [List.length_take]; omega)]
  rfl

/-- **C121 (violated), every compressor.** Every `write_ndarray` that succeeds on an unlimited device with chunk files of
less than 8192 bytes also says `Ok` when the device runs out of space; each file then holds the bytes that fitted. -/
theorem C121_violated_compressed (room : List Nat → Nat) (e : StreamEncoder) (env : Env) (h : Hier) (path : Str)
    (m : ArrayMetadata) {t : RsType} (offset : List Nat) (array : NdArr (El t)) (fs fs1 : Fs)
    (he : EncoderOf e (codecOf env.codecs m.compressor)) (hwf : fs.WF) (hb : Plain (segs h.base))
    (hp : Plain (segs path)) (hs : GoodSep m.separator)
    (hl : m.shape.length = m.chunkShape.length) (hk : ∀ k ∈ m.chunkShape, k ≠ 0) (hn : m.shape ≠ [])
    (hbox : BoxMeetsArray m ⟨offset, array.shape⟩)
    (hw : writeNdarray env h path m offset array fs = (.ok (), fs1))
    (hsmall : ∀ c b, OverlapsBoth m ⟨offset, array.shape⟩ c →
      fs1.get (chunkLoc h path m.separator c) = some (.file b) → b.length < 8192) :
    ∃ fs', writeNdarrayStream room e env h path m offset array fs = (.ok (), fs') ∧
      ∀ c, OverlapsBoth m ⟨offset, array.shape⟩ c → ∃ b, fs1.get (chunkLoc h path m.separator c) = some (.file b) ∧
        fs'.get (chunkLoc h path m.separator c) = some (.file (b.take (room c))) := by
  have hv : Limited env m room _ (fun c : DataChunk t => writeChunkBytesStream (room c.gridPosition) e env.native m c) :=
    limited_stream room he
  obtain ⟨fs', hdev⟩ := writeNdarray_unlimited hv hwf hb hp hs hl hk hn hbox hw
    fun c b hc hg => .inr (hsmall c b hc hg)
  refine ⟨fs', hdev, fun c hc => ?_⟩
  obtain ⟨_, fs2, q1, _, q3⟩ := writeNdarray_limited hv hwf hb hp hs hl hk hn hbox hdev
  rw [hw] at q1
  cases q1
  obtain ⟨b, b1, b2, _⟩ := q3 c hc
  exact ⟨b, b1, b2⟩

end

/-- A box over three chunks, the first and the last in part; the middle one has room for one byte, the others for all
of theirs. -/
def Demo.roomBox (pos : List Nat) : Nat := if pos = [1] then 1 else 4

def Demo.boxFour : NdArr (El .u16) := ⟨[4], fun i => BitVec.ofNat 16 (i.sum + 1)⟩

set_option maxRecDepth 20000 in
/-- The hypotheses of `C121_partial`, and what happens: the call says `Ok`, and the middle chunk is gone. -/
example : Demo.emptyFs.WF ∧ Plain (segs Demo.hier.base) ∧ Plain (segs Demo.path) ∧ GoodSep Demo.arr.separator ∧
    Demo.arr.compressor = .raw ∧ Demo.arr.shape ≠ [] ∧ BoxMeetsArray Demo.arr ⟨[1], Demo.boxFour.shape⟩ ∧
    (writeNdarrayDev Demo.roomBox Demo.env Demo.hier Demo.path Demo.arr [1] Demo.boxFour Demo.emptyFs).1 = .ok () ∧
    (readChunk Demo.env Demo.hier Demo.path Demo.arr .u16 [0]
      (writeNdarrayDev Demo.roomBox Demo.env Demo.hier Demo.path Demo.arr [1] Demo.boxFour Demo.emptyFs).2).1 =
        .ok (some ⟨[0], [0#16, 1#16]⟩) ∧
    (readChunk Demo.env Demo.hier Demo.path Demo.arr .u16 [1]
      (writeNdarrayDev Demo.roomBox Demo.env Demo.hier Demo.path Demo.arr [1] Demo.boxFour Demo.emptyFs).2).1 =
        .err .unexpectedEof ∧
    (readChunk Demo.env Demo.hier Demo.path Demo.arr .u16 [2]
      (writeNdarrayDev Demo.roomBox Demo.env Demo.hier Demo.path Demo.arr [1] Demo.boxFour Demo.emptyFs).2).1 =
        .ok (some ⟨[2], [4#16, 0#16]⟩) :=
  ⟨Demo.emptyFs_wf, by decide, by decide, .inl rfl, rfl, by decide, ⟨[1], by simp [Inside, Demo.arr], by simp [InBox, Demo.boxFour]⟩,
    by decide +kernel, by decide +kernel, by decide +kernel, by decide +kernel⟩

/-- The hypotheses of `C121_violated`: the box shares a point with the middle chunk, whose file has four bytes on an
unlimited device. -/
example : (writeNdarray Demo.env Demo.hier Demo.path Demo.arr [1] Demo.boxFour Demo.emptyFs).1 = .ok () ∧
    OverlapsBoth Demo.arr ⟨[1], Demo.boxFour.shape⟩ [1] ∧
    (writeNdarray Demo.env Demo.hier Demo.path Demo.arr [1] Demo.boxFour Demo.emptyFs).2.get
      (chunkLoc Demo.hier Demo.path Demo.arr.separator [1]) = some (.file [0, 2, 0, 3]) ∧ Demo.roomBox [1] < 4 :=
  ⟨by decide +kernel, ⟨[2], by simp [Inside, Demo.arr], by simp [InBox, Demo.boxFour], by simp [Covers, Demo.arr]⟩,
    by decide +kernel, by decide⟩

/-- An array of two chunks with an encoder that holds everything back until it is dropped. -/
def Demo.arrHoldTwo : ArrayMetadata := { Demo.arr with shape := [4], compressor := .bzip2 9 }

set_option maxRecDepth 20000 in
/-- The hypotheses of `C121_partial_compressed` and `C121_violated_compressed`: no room for the second chunk, and the call
says `Ok`. -/
example : EncoderOf (Demo.holdEncoder false) (codecOf Demo.env.codecs Demo.arrHoldTwo.compressor) ∧
    BoxMeetsArray Demo.arrHoldTwo ⟨[0], Demo.boxFour.shape⟩ ∧ OverlapsBoth Demo.arrHoldTwo ⟨[0], Demo.boxFour.shape⟩ [1] ∧
    (writeNdarray Demo.env Demo.hier Demo.path Demo.arrHoldTwo [0] Demo.boxFour Demo.emptyFs).1 = .ok () ∧
    (writeNdarray Demo.env Demo.hier Demo.path Demo.arrHoldTwo [0] Demo.boxFour Demo.emptyFs).2.get
      (chunkLoc Demo.hier Demo.path Demo.arrHoldTwo.separator [1]) = some (.file [0, 3, 0, 4]) ∧
    (writeNdarrayStream (fun pos => if pos = [0] then 4 else 0) (Demo.holdEncoder false) Demo.env Demo.hier Demo.path
      Demo.arrHoldTwo [0] Demo.boxFour Demo.emptyFs).1 = .ok () ∧
    (writeNdarrayStream (fun pos => if pos = [0] then 4 else 0) (Demo.holdEncoder false) Demo.env Demo.hier Demo.path
      Demo.arrHoldTwo [0] Demo.boxFour Demo.emptyFs).2.get
      (chunkLoc Demo.hier Demo.path Demo.arrHoldTwo.separator [1]) = some (.file []) :=
  ⟨Demo.holdEncoder_of, ⟨[1], by simp [Inside, Demo.arrHoldTwo], by simp [InBox, Demo.boxFour]⟩,
    ⟨[2], by simp [Inside, Demo.arrHoldTwo], by simp [InBox, Demo.boxFour], by simp [Covers, Demo.arrHoldTwo, Demo.arr]⟩,
    by decide +kernel, by decide +kernel, by decide +kernel, by decide +kernel⟩

end Zarr
