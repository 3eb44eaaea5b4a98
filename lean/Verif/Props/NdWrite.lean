import Verif.Lemmas.NdWrite
import Verif.Props.NdRead
/-!
# Properties of writing n-dimensional boxes (C21, C22, C23, C27, C28)
-/

namespace Zarr

open Spec

variable {env : Env} {h : Hier} {path : Str} {m : ArrayMetadata} {t : RsType} {fs fs' : Fs}

/-- What a successful `write_ndarray` did. -/
theorem writeNdarray_inv {offset : List Nat} {array : NdArr (El t)}
    (hw : writeNdarray env h path m offset array fs = (.ok (), fs')) :
    array.shape.length = m.shape.length ∧ ∃ fill it, effectiveFillValue env m t = .ok fill ∧
      m.boundedCoordIter ⟨offset, array.shape⟩ = .ok it ∧
      writeLoop env h path m ⟨offset, array.shape⟩ fill array it.rest [] fs = (.ok (), fs') := by
  unfold writeNdarray at hw
  split at hw
  · simp at hw
  · rename_i h1
    simp only [Decidable.not_not] at h1
    simp only [M.bind_apply, M.lift_apply] at hw
    cases hf : effectiveFillValue env m t with
    | err e => simp [hf] at hw
    | panic => simp [hf] at hw
    | ok fill =>
      simp only [hf] at hw
      cases hit : m.boundedCoordIter ⟨offset, array.shape⟩ with
      | err e => simp [hit] at hw
      | panic => simp [hit] at hw
      | ok it =>
        simp only [hit] at hw
        exact ⟨h1, fill, it, rfl, rfl, hw⟩

theorem boundedCoordIter_dim {b : BBox} {it : CoordIter} (h : m.boundedCoordIter b = .ok it) :
    b.offset.length = m.shape.length := by
  unfold ArrayMetadata.boundedCoordIter at h
  rw [Outcome.bind_eq_ok] at h
  obtain ⟨x, hx, _⟩ := h
  unfold BBox.intersect at hx
  split at hx
  · rename_i he
    simpa [ArrayMetadata.bounds] using he.symm
  · simp at hx

/-- The store after a successful `write_ndarray`, chunk by chunk and point by point. -/
theorem writeNdarray_spec {offset : List Nat} {array : NdArr (El t)} (hwf : fs.WF)
    (hb : Plain (segs h.base)) (hp : Plain (segs path)) (hs : GoodSep m.separator)
    (hcodec : (codecOf env.codecs m.compressor).Lawful)
    (hl : m.shape.length = m.chunkShape.length) (hn : m.shape ≠ [])
    (hw : writeNdarray env h path m offset array fs = (.ok (), fs')) :
    fs'.WF ∧ offset.length = array.shape.length ∧ array.shape.length = m.shape.length ∧
    (∀ k ∈ m.chunkShape, k ≠ 0) ∧ (∃ fill, effectiveFillValue env m t = .ok fill) ∧
    (fs' = fs ∨ m.chunkShape.prod < 2 ^ 32) ∧
    ∃ it, m.boundedCoordIter ⟨offset, array.shape⟩ = .ok it ∧
    (∀ pos, pos ∉ it.rest → look env h path m t fs' pos = look env h path m t fs pos) ∧
    (∀ pos ∈ it.rest, ∃ v, look env h path m t fs' pos = .ok (some ⟨pos, v⟩) ∧
      v.length = m.chunkShape.prod) ∧
    ∀ p, Inside m.shape p →
      (InBox offset array.shape p → Reads env h path m t fs' p (array.get (rel offset p))) ∧
      (¬ InBox offset array.shape p → ∀ v, Reads env h path m t fs p v →
        Reads env h path m t fs' p v) := by
  obtain ⟨h1, fill, it, hfill, hit, hloop⟩ := writeNdarray_inv hw
  have hol := boundedCoordIter_dim hit
  simp only at hol
  have hb' : (BBox.mk offset array.shape).offset.length = (BBox.mk offset array.shape).shape.length := by
    simp only; omega
  obtain ⟨_, hk, _⟩ := boundedCoordIter_ok hl hb' hit
  have ht : ∀ c ∈ it.rest, Touches m.shape m.chunkShape offset array.shape c :=
    fun c hc => (mem_boundedCoordIter hl hb' hn hit).mp hc
  obtain ⟨w1, w2, w3, w4⟩ := writeLoop_spec (bbox := ⟨offset, array.shape⟩) hb hp hs hcodec hl hk
    hfill (by simp only; omega) (by simp only; omega) it.rest [] hwf ht hloop
  refine ⟨w1, by omega, h1, hk, ⟨fill, hfill⟩, ?_, it, hit, w2, w3, fun p hin => ?_⟩
  · cases hr : it.rest with
    | nil =>
      rw [hr] at hloop
      simp only [writeLoop, M.pure_apply, Prod.mk.injEq, true_and] at hloop
      exact .inl hloop.symm
    | cons pos rest =>
      right
      obtain ⟨v, hv, hvl⟩ := w3 pos (by simp [hr])
      have := (look_some hv).2.2
      simp only at this
      have hlt : m.chunkShape.prod % 2 ^ 32 < 2 ^ 32 := Nat.mod_lt _ (by decide)
      omega
  · have hpl : p.length = m.chunkShape.length := by rw [Inside.length hin, hl]
    by_cases hmem : chunkOf m.chunkShape p ∈ it.rest
    · exact w4 p hpl hmem
    · have hno : ¬ InBox offset array.shape p := by
        intro hbx
        apply hmem
        rw [mem_boundedCoordIter hl hb' hn hit]
        exact touches_of_point hk hl hin hbx
      exact ⟨fun hbx => absurd hbx hno, fun _ v hv => (Reads.congr (w2 _ hmem)).mpr hv⟩

/-- `read_ndarray` returns `Ok` if every chunk it looks at is absent or complete. -/
theorem readNdarray_ok {b : BBox} {it : CoordIter} {fill : El t}
    (hl : m.shape.length = m.chunkShape.length) (hb : b.offset.length = b.shape.length)
    (hd : b.offset.length = m.shape.length) (hfill : effectiveFillValue env m t = .ok fill)
    (hit : m.boundedCoordIter b = .ok it)
    (hlk : ∀ c ∈ it.rest, look env h path m t fs c = .ok none ∨
      ∃ x, look env h path m t fs c = .ok (some x) ∧ m.chunkShape.prod ≤ x.data.length) :
    ∃ a, (readNdarray env h path m t b fs).1 = .ok a := by
  have hlen := bounded_lengths hl hb hit
  obtain ⟨r, hr⟩ := readLoop_ok (bbox := b) hb (by omega) it.rest
    (fun c hc => by rw [hlen c hc]; omega) (NdArr.fromElem b.shape fill) none rfl hlk
  refine ⟨r.1, ?_⟩
  rw [readNdarray_one, hfill, Outcome.bind_ok, readNdarrayInto_one,
    readInto_eq hd rfl (by omega) hit, hr]
  rfl

/-- What a successful read looked at. -/
theorem readNdarray_looks {b : BBox} {a : NdArr (El t)}
    (hl : m.shape.length = m.chunkShape.length) (hb : b.offset.length = b.shape.length)
    (hr : (readNdarray env h path m t b fs).1 = .ok a) :
    b.offset.length = m.shape.length ∧ ∃ it, m.boundedCoordIter b = .ok it ∧
      ∀ c ∈ it.rest, ∃ x, look env h path m t fs c = .ok x := by
  rw [readNdarray_one, Outcome.bind_eq_ok] at hr
  obtain ⟨fill, hfill, hr⟩ := hr
  rw [readNdarrayInto_one, Outcome.bind_eq_ok] at hr
  obtain ⟨r, hr, _⟩ := hr
  obtain ⟨h1, h2, h3, it, hit, hr⟩ := readInto_inv hr
  obtain ⟨_, hk, _⟩ := boundedCoordIter_ok hl hb hit
  have hlen := bounded_lengths hl hb hit
  obtain ⟨_, s2, _⟩ := readLoop_spec hb (by omega) hk it.rest
    (fun c hc => by rw [hlen c hc]; omega) _ none h2 hr
  exact ⟨h1, it, hit, s2⟩

theorem readNdarray_reads {b : BBox} {a : NdArr (El t)}
    (hl : m.shape.length = m.chunkShape.length) (hn : m.shape ≠ [])
    (hb : BBox.new b.offset b.shape = .ok b)
    (hr : (readNdarray env h path m t b fs).1 = .ok a) (i : List Nat) (hi : Inside b.shape i)
    (hin : Inside m.shape (shift b.offset i)) :
    Reads env h path m t fs (shift b.offset i) (a.get i) :=
  (C20 env h path m t b fs a hl hn hb hr).2 i hi hin

/-! ## C21 -/

/-- **C21.** After `write_ndarray` returns `Ok`, `read_ndarray` over the same box returns `Ok`, an
array of that shape, and the written values at every position inside the array's extent. -/
theorem C21 (env : Env) (h : Hier) (path : Str) (m : ArrayMetadata) {t : RsType}
    (offset : List Nat) (array : NdArr (El t)) (fs fs' : Fs) (hwf : fs.WF)
    (hb : Plain (segs h.base)) (hp : Plain (segs path)) (hs : GoodSep m.separator)
    (hcodec : (codecOf env.codecs m.compressor).Lawful)
    (hl : m.shape.length = m.chunkShape.length) (hn : m.shape ≠ [])
    (hw : writeNdarray env h path m offset array fs = (.ok (), fs')) :
    ∃ a, (readNdarray env h path m t ⟨offset, array.shape⟩ fs').1 = .ok a ∧
      a.shape = array.shape ∧
      ∀ i, Inside array.shape i → Inside m.shape (shift offset i) → a.get i = array.get i := by
  obtain ⟨w1, w2, w3, w4, ⟨fill, w5⟩, _, it, hit, w7, w8, w9⟩ :=
    writeNdarray_spec hwf hb hp hs hcodec hl hn hw
  obtain ⟨a, ha⟩ := readNdarray_ok (b := ⟨offset, array.shape⟩) hl w2 (by simp only; omega) w5 hit
    (fun c hc => by
      obtain ⟨v, hv, hvl⟩ := w8 c hc
      exact .inr ⟨_, hv, by simp only; omega⟩)
  have hbb : BBox.new offset array.shape = .ok ⟨offset, array.shape⟩ := by simp [BBox.new, w2]
  refine ⟨a, ha, (C20 env h path m t _ fs' a hl hn hbb ha).1, fun i hi hin => ?_⟩
  have hr := readNdarray_reads (b := ⟨offset, array.shape⟩) hl hn hbb ha i hi hin
  have hr' := (w9 _ hin).1 ((inside_shift w2).mp hi).2
  rw [rel_shift (by rw [w2, Inside.length hi])] at hr'
  exact hr.unique hr'

/-- A write of the elements 1, 2, 3 at positions 1 to 3 of the demo array. -/
abbrev demoWrite : NdArr (El .u16) := ⟨[3], fun i => BitVec.ofNat 16 (i.sum + 1)⟩

example : (writeNdarray Demo.env Demo.hier Demo.path Demo.arr [1] demoWrite demoFs).1 = .ok () ∧
    ((readNdarray Demo.env Demo.hier Demo.path Demo.arr .u16 ⟨[1], [3]⟩
      (writeNdarray Demo.env Demo.hier Demo.path Demo.arr [1] demoWrite demoFs).2).1
        >>= fun a => .ok (a.shape, a.toVec .rowMajor)) = .ok ([3], [1#16, 2#16, 3#16]) := by
  decide +kernel

/-! ## C22 -/

theorem write_then_read {offset : List Nat} {array : NdArr (El t)} (hwf : fs.WF)
    (hb : Plain (segs h.base)) (hp : Plain (segs path)) (hs : GoodSep m.separator)
    (hcodec : (codecOf env.codecs m.compressor).Lawful)
    (hl : m.shape.length = m.chunkShape.length) (hn : m.shape ≠ [])
    (hw : writeNdarray env h path m offset array fs = (.ok (), fs'))
    {b : BBox} {a : NdArr (El t)} (hbb : BBox.new b.offset b.shape = .ok b)
    (hr : (readNdarray env h path m t b fs).1 = .ok a) :
    ∃ a', (readNdarray env h path m t b fs').1 = .ok a' ∧
      ∀ i, Inside b.shape i → Inside m.shape (shift b.offset i) →
        (InBox offset array.shape (shift b.offset i) →
          a'.get i = array.get (rel offset (shift b.offset i))) ∧
        (¬ InBox offset array.shape (shift b.offset i) → a'.get i = a.get i) := by
  obtain ⟨w1, w2, w3, w4, ⟨fill, w5⟩, w6, it, hit, w7, w8, w9⟩ :=
    writeNdarray_spec hwf hb hp hs hcodec hl hn hw
  have hb' := BBox.new_ok hbb
  obtain ⟨hd, it2, hit2, hlk⟩ := readNdarray_looks hl hb' hr
  have hok : ∃ a', (readNdarray env h path m t b fs').1 = .ok a' := by
    rcases w6 with w6 | w6
    · rw [w6]; exact ⟨a, hr⟩
    · refine readNdarray_ok hl hb' hd w5 hit2 (fun c hc => ?_)
      by_cases hmem : c ∈ it.rest
      · obtain ⟨v, hv, hvl⟩ := w8 c hmem
        exact .inr ⟨_, hv, by simp only; omega⟩
      · rw [w7 c hmem]
        obtain ⟨x, hx⟩ := hlk c hc
        cases x with
        | none => exact .inl hx
        | some x =>
          have := (look_some hx).2.2
          rw [Nat.mod_eq_of_lt w6] at this
          exact .inr ⟨x, hx, by omega⟩
  obtain ⟨a', ha'⟩ := hok
  refine ⟨a', ha', fun i hi hin => ?_⟩
  have r1 := readNdarray_reads hl hn hbb hr i hi hin
  have r2 := readNdarray_reads hl hn hbb ha' i hi hin
  exact ⟨fun hbx => r2.unique ((w9 _ hin).1 hbx), fun hbx => r2.unique ((w9 _ hin).2 hbx _ r1)⟩

/-- **C22.** After `write_ndarray` returns `Ok`, any box that could be read before can still be read,
and its elements inside the array's extent and outside the written box have the values they had. -/
theorem C22 (env : Env) (h : Hier) (path : Str) (m : ArrayMetadata) {t : RsType}
    (offset : List Nat) (array : NdArr (El t)) (fs fs' : Fs) (hwf : fs.WF)
    (hb : Plain (segs h.base)) (hp : Plain (segs path)) (hs : GoodSep m.separator)
    (hcodec : (codecOf env.codecs m.compressor).Lawful)
    (hl : m.shape.length = m.chunkShape.length) (hn : m.shape ≠ [])
    (hw : writeNdarray env h path m offset array fs = (.ok (), fs'))
    (b : BBox) (a : NdArr (El t)) (hbb : BBox.new b.offset b.shape = .ok b)
    (hr : (readNdarray env h path m t b fs).1 = .ok a) :
    ∃ a', (readNdarray env h path m t b fs').1 = .ok a' ∧
      ∀ i, Inside b.shape i → Inside m.shape (shift b.offset i) →
        ¬ InBox offset array.shape (shift b.offset i) → a'.get i = a.get i := by
  obtain ⟨a', h1, h2⟩ := write_then_read hwf hb hp hs hcodec hl hn hw hbb hr
  exact ⟨a', h1, fun i hi hin => (h2 i hi hin).2⟩

/-- Position 0 was never stored and reads as the fill value 0; position 3 held 7. Writing positions
1 and 2 leaves both. -/
example :
    ((readNdarray Demo.env Demo.hier Demo.path Demo.arr .u16 ⟨[0], [5]⟩
      (writeNdarray Demo.env Demo.hier Demo.path Demo.arr [1]
        (⟨[2], fun i => BitVec.ofNat 16 (i.sum + 1)⟩ : NdArr (El .u16)) demoFs).2).1
        >>= fun a => .ok (a.shape, a.toVec .rowMajor)) = .ok ([5], [0#16, 1#16, 2#16, 7#16, 0#16]) := by
  decide +kernel

/-! ## C23 -/

/-- A history of box writes, each `Ok`. -/
inductive Writes (env : Env) (h : Hier) (path : Str) (m : ArrayMetadata) (t : RsType) :
    List (List Nat × NdArr (El t)) → Fs → Fs → Prop
  | nil {fs : Fs} : Writes env h path m t [] fs fs
  | cons {fs fs1 fs2 : Fs} {offset : List Nat} {array : NdArr (El t)}
      {ws : List (List Nat × NdArr (El t))} :
      writeNdarray env h path m offset array fs = (.ok (), fs1) →
      Writes env h path m t ws fs1 fs2 → Writes env h path m t ((offset, array) :: ws) fs fs2

open Classical in
/-- The mathematical array after the box updates. -/
noncomputable def Spec.update {α : Type} :
    List (List Nat × NdArr α) → (List Nat → α) → List Nat → α
  | [], f => f
  | (offset, array) :: ws, f => Spec.update ws fun p =>
      if InBox offset array.shape p then array.get (rel offset p) else f p

theorem update_congr {α : Type} (ws : List (List Nat × NdArr α)) (f g : List Nat → α) (p : List Nat)
    (h : f p = g p) : Spec.update ws f p = Spec.update ws g p := by
  induction ws generalizing f g with
  | nil => exact h
  | cons w ws ih =>
    obtain ⟨o, a⟩ := w
    simp only [Spec.update]
    apply ih
    simp only [h]

/-- **C23.** After a history of successful `write_ndarray` calls, any box that could be read at the
start can be read, and inside the array's extent it holds the values of the mathematical array that
results from applying the box updates in order to the initial contents. -/
theorem C23 (env : Env) (h : Hier) (path : Str) (m : ArrayMetadata) {t : RsType}
    (ws : List (List Nat × NdArr (El t))) (fs fs' : Fs) (hwf : fs.WF)
    (hb : Plain (segs h.base)) (hp : Plain (segs path)) (hs : GoodSep m.separator)
    (hcodec : (codecOf env.codecs m.compressor).Lawful)
    (hl : m.shape.length = m.chunkShape.length) (hn : m.shape ≠ [])
    (hw : Writes env h path m t ws fs fs')
    (b : BBox) (a : NdArr (El t)) (f : List Nat → El t)
    (hbb : BBox.new b.offset b.shape = .ok b)
    (hr : (readNdarray env h path m t b fs).1 = .ok a)
    (hf : ∀ i, Inside b.shape i → Inside m.shape (shift b.offset i) →
      f (shift b.offset i) = a.get i) :
    ∃ a', (readNdarray env h path m t b fs').1 = .ok a' ∧ a'.shape = b.shape ∧
      ∀ i, Inside b.shape i → Inside m.shape (shift b.offset i) →
        a'.get i = Spec.update ws f (shift b.offset i) := by
  induction hw generalizing a f with
  | nil =>
    exact ⟨a, hr, (C20 env h path m t b _ a hl hn hbb hr).1, fun i hi hin => (hf i hi hin).symm⟩
  | @cons fs fs1 fs2 offset array ws hw _ ih =>
    have hwf1 := (writeNdarray_spec hwf hb hp hs hcodec hl hn hw).1
    obtain ⟨a1, h1, h2⟩ := write_then_read hwf hb hp hs hcodec hl hn hw hbb hr
    refine ih hwf1 a1 _ h1 (fun i hi hin => ?_)
    obtain ⟨e1, e2⟩ := h2 i hi hin
    by_cases hbx : InBox offset array.shape (shift b.offset i)
    · rw [if_pos hbx, e1 hbx]
    · rw [if_neg hbx, e2 hbx, hf i hi hin]

/-- Two overlapping writes: the later one wins. -/
example : Writes Demo.env Demo.hier Demo.path Demo.arr .u16 [([1], demoWrite), ([2], demoWrite)]
      demoFs (writeNdarray Demo.env Demo.hier Demo.path Demo.arr [2] demoWrite
        (writeNdarray Demo.env Demo.hier Demo.path Demo.arr [1] demoWrite demoFs).2).2 ∧
    ((readNdarray Demo.env Demo.hier Demo.path Demo.arr .u16 ⟨[0], [5]⟩
      (writeNdarray Demo.env Demo.hier Demo.path Demo.arr [2] demoWrite
        (writeNdarray Demo.env Demo.hier Demo.path Demo.arr [1] demoWrite demoFs).2).2).1
        >>= fun a => .ok (a.toVec .rowMajor)) = .ok [0#16, 1#16, 1#16, 2#16, 3#16] :=
  ⟨.cons (fs1 := (writeNdarray Demo.env Demo.hier Demo.path Demo.arr [1] demoWrite demoFs).2)
    (by decide +kernel) (.cons (by decide +kernel) .nil), by decide +kernel⟩

/-! ## C27 -/

/-- **C27 (partial).** Writing an array that is empty along a dimension whose offset is a multiple of
the chunk size leaves the store exactly as it was. Missing: empty arrays at other offsets (see
`C27_violated`). -/
theorem C27_partial (env : Env) (h : Hier) (path : Str) (m : ArrayMetadata) {t : RsType}
    (offset : List Nat) (array : NdArr (El t)) (fs : Fs)
    (hl : m.shape.length = m.chunkShape.length)
    (hz : ∃ i o k : Nat, array.shape[i]? = some 0 ∧ offset[i]? = some o ∧
      m.chunkShape[i]? = some k ∧ k ∣ o) :
    (writeNdarray env h path m offset array fs).2 = fs := by
  obtain ⟨i, o, k, hz, ho, hk', hd⟩ := hz
  unfold writeNdarray
  split
  · rfl
  · rename_i h1
    simp only [Decidable.not_not] at h1
    simp only [M.bind_apply, M.lift_apply]
    cases hf : effectiveFillValue env m t with
    | err e => rfl
    | panic => rfl
    | ok fill =>
      simp only
      cases hit : m.boundedCoordIter ⟨offset, array.shape⟩ with
      | err e => rfl
      | panic => rfl
      | ok it =>
        have hol := boundedCoordIter_dim hit
        have hil : i < m.shape.length := by
          have := (List.getElem?_eq_some_iff.mp hz).1
          omega
        have hb' : (BBox.mk offset array.shape).offset.length
            = (BBox.mk offset array.shape).shape.length := by
          simp only at hol ⊢; omega
        have hempty : it.rest = [] := by
          apply List.eq_nil_iff_forall_not_mem.mpr
          intro c hc
          have hn : m.shape ≠ [] := by intro hn; simp [hn] at hil
          rw [mem_boundedCoordIter hl hb' hn hit] at hc
          exact not_touches_of_aligned ho (List.getElem?_eq_getElem hil) hk' (.inr hz) hd hc
        simp only [hempty, writeLoop, M.pure_apply]

example : ([0] : List Nat)[0]? = some 0 ∧ ([4] : List Nat)[0]? = some 4 ∧
    Demo.arr.chunkShape[0]? = some 2 ∧ 2 ∣ 4 ∧
    (writeNdarray Demo.env Demo.hier Demo.path Demo.arr [4]
      (⟨[0], fun _ => 0#16⟩ : NdArr (El .u16)) demoFs).1 = .ok () := by decide +kernel

/-- **C27 (violated).** Writing an empty array at an offset that is not a multiple of the chunk size
stores a chunk of fill values where there was none. -/
theorem C27_violated :
    let fs' := (writeNdarray Demo.env Demo.hier Demo.path Demo.arr [1]
      (⟨[0], fun _ => 0#16⟩ : NdArr (El .u16)) Demo.emptyFs).2
    (writeNdarray Demo.env Demo.hier Demo.path Demo.arr [1]
      (⟨[0], fun _ => 0#16⟩ : NdArr (El .u16)) Demo.emptyFs).1 = .ok () ∧
    (readChunk Demo.env Demo.hier Demo.path Demo.arr .u16 [0] Demo.emptyFs).1 = .ok none ∧
    (readChunk Demo.env Demo.hier Demo.path Demo.arr .u16 [0] fs').1
      = .ok (some ⟨[0], [0#16, 0#16]⟩) := by decide +kernel

/-- What remains true of C27 at any offset: an empty array changes no element inside the extent. -/
theorem C27_partial_values (env : Env) (h : Hier) (path : Str) (m : ArrayMetadata) {t : RsType}
    (offset : List Nat) (array : NdArr (El t)) (fs fs' : Fs) (hwf : fs.WF)
    (hb : Plain (segs h.base)) (hp : Plain (segs path)) (hs : GoodSep m.separator)
    (hcodec : (codecOf env.codecs m.compressor).Lawful)
    (hl : m.shape.length = m.chunkShape.length) (hz : 0 ∈ array.shape)
    (hw : writeNdarray env h path m offset array fs = (.ok (), fs'))
    (b : BBox) (a : NdArr (El t)) (hbb : BBox.new b.offset b.shape = .ok b)
    (hr : (readNdarray env h path m t b fs).1 = .ok a) :
    ∃ a', (readNdarray env h path m t b fs').1 = .ok a' ∧
      ∀ i, Inside b.shape i → Inside m.shape (shift b.offset i) → a'.get i = a.get i := by
  have hn : m.shape ≠ [] := by
    intro hn
    have := (writeNdarray_inv hw).1
    rw [hn] at this
    simp at this
    simp [this] at hz
  obtain ⟨_, w2, _⟩ := writeNdarray_spec hwf hb hp hs hcodec hl hn hw
  obtain ⟨a', h1, h2⟩ := C22 env h path m offset array fs fs' hwf hb hp hs hcodec hl hn hw b a hbb hr
  exact ⟨a', h1, fun i hi hin => h2 i hi hin ((inBox_empty w2).mp (by simpa using hz) _)⟩

example : (0 ∈ ([0] : List Nat)) ∧ (writeNdarray Demo.env Demo.hier Demo.path Demo.arr [1]
      (⟨[0], fun _ => 0#16⟩ : NdArr (El .u16)) demoFs).1 = .ok () := by decide +kernel

/-! ## C28 -/

/-- **C28 (partial).** For an array with no dimensions `write_ndarray` of a zero-dimensional array
stores nothing and returns `Ok` if the fill value is valid, and `read_ndarray` returns the fill value
whatever was written. Missing: that the element is stored and read back (see `C28_violated`). -/
theorem C28_partial (env : Env) (h : Hier) (path : Str) (m : ArrayMetadata) {t : RsType}
    (array : NdArr (El t)) (fill : El t) (fs : Fs) (hm : m.shape = []) (hc : m.chunkShape = [])
    (ha : array.shape = []) (hf : effectiveFillValue env m t = .ok fill) :
    writeNdarray env h path m [] array fs = (.ok (), fs) ∧
    ∃ a, readNdarray env h path m t ⟨[], []⟩ fs = (.ok a, fs) ∧ a.shape = [] ∧ a.get [] = fill := by
  have hit : ∃ it, m.boundedCoordIter ⟨[], []⟩ = .ok it ∧ it.rest = [] := by
    simp only [ArrayMetadata.boundedCoordIter, BBox.intersect, ArrayMetadata.bounds, hm, hc]
    exact ⟨_, rfl, rfl⟩
  obtain ⟨it, hit, hr⟩ := hit
  refine ⟨?_, NdArr.fromElem [] fill, ?_, rfl, rfl⟩
  · simp [writeNdarray, ha, hm, hf, hit, hr, writeLoop]
  · simp [readNdarray, readNdarrayInto, readNdarrayIntoWithBuffer, hm, hf, hit, hr, readLoop,
      NdArr.fromElem]

/-- The hypotheses hold for the example array without its dimension. -/
example : ∃ a, readNdarray Demo.env Demo.hier Demo.path { Demo.arr with shape := [], chunkShape := [] } .u16 ⟨[], []⟩
    Demo.emptyFs = (.ok a, Demo.emptyFs) ∧ a.shape = [] ∧ a.get [] = 0#16 :=
  (C28_partial Demo.env Demo.hier Demo.path { Demo.arr with shape := [], chunkShape := [] }
    (⟨[], fun _ => 7#16⟩ : NdArr (El .u16)) 0#16 Demo.emptyFs rfl rfl rfl (by decide)).2

/-- **C28 (violated).** Writing 7 to an array with no dimensions returns `Ok`, leaves the store empty,
and reading returns 0. -/
theorem C28_violated :
    let m := { Demo.arr with shape := [], chunkShape := [] }
    writeNdarray Demo.env Demo.hier Demo.path m [] (⟨[], fun _ => 7#16⟩ : NdArr (El .u16)) Demo.emptyFs
      = (.ok (), Demo.emptyFs) ∧
    ((readNdarray Demo.env Demo.hier Demo.path m .u16 ⟨[], []⟩ Demo.emptyFs).1
      >>= fun a => .ok (a.get [])) = .ok 0#16 := by decide +kernel

/-- **C28 (exact).** With a valid fill value, in every state: what is read after writing is the element written if and
only if that is the fill value. -/
theorem C28_exact (env : Env) (h : Hier) (path : Str) (m : ArrayMetadata) {t : RsType} (array : NdArr (El t)) (fill : El t)
    (fs : Fs) (hm : m.shape = []) (hc : m.chunkShape = []) (ha : array.shape = [])
    (hf : effectiveFillValue env m t = .ok fill) :
    (∃ a, (readNdarray env h path m t ⟨[], []⟩ (writeNdarray env h path m [] array fs).2).1 = .ok a ∧
      a.get [] = array.get []) ↔ array.get [] = fill := by
  obtain ⟨h1, a, h2, _, h3⟩ := C28_partial env h path m array fill fs hm hc ha hf
  rw [h1, h2]
  constructor
  · rintro ⟨a', e, h⟩
    cases e
    rw [← h, h3]
  · intro e
    exact ⟨a, rfl, by rw [h3, e]⟩

/-- An element that is not the fill value of the array. -/
example : effectiveFillValue Demo.env { Demo.arr with shape := [], chunkShape := [] } .u16 = .ok 0#16 ∧
    (⟨[], fun _ => 7#16⟩ : NdArr (El .u16)).get [] ≠ 0#16 :=
  ⟨by decide, fun h => absurd h (show (7#16 : BitVec 16) ≠ 0#16 by decide)⟩

end Zarr
