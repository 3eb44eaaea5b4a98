import Verif.Model.ChunkViews
import Verif.Props.NdWrite
import Verif.Props.RefineBoxes
import Verif.Props.Machine
/-!
# A chunk is the part of the array at its bounds (C105)
-/

namespace Zarr

open Spec

variable {env : Env} {h : Hier} {path : Str} {m : ArrayMetadata} {t : RsType} {fs : Fs}

/-! ## Arrays over a vector -/

theorem getElem?_ofMemory {α : Type} {d : α} {o : Order} {shape : List Nat} {v : List α}
    {i : List Nat} (hi : Inside shape i) (hv : shape.prod ≤ v.length) :
    v[linear o shape i]? = some ((NdArr.ofMemory d o shape v).get i) := by
  rw [ofMemory_get, List.getElem?_eq_getElem (Nat.lt_of_lt_of_le (linear_lt hi) hv)]
  rfl

/-- Two arrays with the same elements give the same vector. -/
theorem toVec_eq {α : Type} {o : Order} {a : NdArr α} {v : List α} (hv : v.length = a.shape.prod)
    (h : ∀ i, Inside a.shape i → v[linear o a.shape i]? = some (a.get i)) : a.toVec o = v := by
  apply List.ext_getElem?
  intro n
  by_cases hn : n < a.shape.prod
  · obtain ⟨h1, h2⟩ := unlinear_spec (o := o) hn
    rw [← h2, h _ h1]
    exact toVec_getElem h1
  · rw [List.getElem?_eq_none (by rw [toVec_length]; omega), List.getElem?_eq_none (by omega)]

/-! ## The box of a chunk meets one chunk -/

theorem touches_own {s k c c' : List Nat} (hk : ∀ x ∈ k, x ≠ 0) (hs : Starts s k c) :
    Touches s k (chunkOffset c k) k c' ↔ c' = c := by
  induction s generalizing k c c' with
  | nil => cases k <;> cases c <;> cases c' <;> simp_all [Starts, Touches, chunkOffset]
  | cons a s ih =>
    cases k with
    | nil => simp [Starts] at hs
    | cons b k =>
      cases c with
      | nil => simp [Starts] at hs
      | cons x c =>
        cases c' with
        | nil => simp [Touches]
        | cons y c' =>
          have ih := ih (c' := c') (fun x hx => hk x (by simp [hx])) hs.2
          simp only [chunkOffset] at ih
          simp only [chunkOffset, List.zipWith_cons_cons, Touches, ih, List.cons.injEq]
          refine and_congr_left fun _ => ⟨fun ⟨h1, h2⟩ => ?_, ?_⟩
          · have hb : 0 < b := Nat.pos_of_ne_zero (hk b (by simp))
            have e1 : x < y + 1 := Nat.lt_of_mul_lt_mul_right h1
            have h3 : y * b < (x + 1) * b := by
              rw [Nat.succ_mul]; have := hs.1; omega
            have e2 : y < x + 1 := Nat.lt_of_mul_lt_mul_right h3
            omega
          · rintro rfl
            have := hs.1
            have hb : 0 < b := Nat.pos_of_ne_zero (hk b (by simp))
            rw [Nat.succ_mul]
            omega

/-- A list without repetitions whose only member is `x`. -/
theorem eq_singleton {α : Type} {l : List α} {x : α} (hn : l.Nodup) (h : ∀ y, y ∈ l ↔ y = x) :
    l = [x] := by
  cases l with
  | nil => exact absurd ((h x).mpr rfl) (by simp)
  | cons a l =>
    have ha : a = x := (h a).mp (by simp)
    subst ha
    cases l with
    | nil => rfl
    | cons b l =>
      have hb : b = a := (h b).mp (by simp)
      subst hb
      simp at hn

theorem isect_self {s o : List Nat} : isectLoop s o s o = (s, o) := by
  induction s generalizing o with
  | nil => simp [isectLoop]
  | cons a s ih =>
    cases o with
    | nil => simp [isectLoop]
    | cons b o => simp only [isectLoop, ih]; congr 2 <;> omega

theorem bounded_own {pos : List Nat} (hl : m.shape.length = m.chunkShape.length)
    (hk : ∀ k ∈ m.chunkShape, k ≠ 0) (hn : m.shape ≠ []) (hs : Starts m.shape m.chunkShape pos)
    (hp : pos.length = m.chunkShape.length) :
    ∃ it, m.boundedCoordIter (m.chunkBounds pos) = .ok it ∧ it.rest = [pos] := by
  have ho : (m.chunkBounds pos).offset.length = m.shape.length := by
    simp [ArrayMetadata.chunkBounds, hp, hl]
  have hw : (m.chunkBounds pos).shape.length = m.shape.length := hl.symm
  obtain ⟨it, xs, hit, hy, hx, _⟩ := C16_partial m (m.chunkBounds pos) hl hk hn ho hw
  refine ⟨it, hit, ?_⟩
  rw [yields_iff] at hy
  subst hy
  refine eq_singleton (hx.imp fun h e => ?_) fun y => ?_
  · subst e; exact absurd h (List.lt_irrefl _)
  · rw [mem_boundedCoordIter hl (by omega) hn hit]
    exact touches_own hk hs

/-- Writing an array over the box of one chunk is writing that chunk. -/
theorem writeNdarray_own {pos : List Nat} {a : NdArr (El t)} {fill : El t}
    (hl : m.shape.length = m.chunkShape.length)
    (hk : ∀ k ∈ m.chunkShape, k ≠ 0) (hn : m.shape ≠ []) (hs : Starts m.shape m.chunkShape pos)
    (hp : pos.length = m.chunkShape.length) (hfill : effectiveFillValue env m t = .ok fill)
    (ha : a.shape = m.chunkShape) :
    writeNdarray env h path m (m.chunkBounds pos).offset a fs
      = writeChunk env h path m ⟨pos, a.toVec m.order⟩ fs := by
  obtain ⟨it, hit, hrest⟩ := bounded_own hl hk hn hs hp
  have hck : (chunkOffset pos m.chunkShape).length = m.chunkShape.length := by simp [hp]
  unfold writeNdarray
  rw [if_neg (by rw [ha, hl]; simp), M.bind_apply, M.lift_apply, hfill]
  dsimp only
  rw [show (⟨(m.chunkBounds pos).offset, a.shape⟩ : BBox) = m.chunkBounds pos by
    rw [ha]; rfl, M.bind_apply, M.lift_apply, hit]
  dsimp only
  rw [hrest]
  have hsub := (isect_sub (s := m.chunkShape) (o := chunkOffset pos m.chunkShape)
    (w := m.chunkShape) (k := chunkOffset pos m.chunkShape) hck rfl hck).1
  rw [isect_self] at hsub
  have hok := (relRanges_facts (s := m.chunkShape) (o := chunkOffset pos m.chunkShape)
    (w := m.chunkShape) (k := chunkOffset pos m.chunkShape) hck rfl hck (by
      rw [isect_self]
      cases hc : m.chunkShape.contains 0 with
      | false => rfl
      | true => exact absurd rfl (hk 0 (by simpa using hc)))).1
  rw [isect_self] at hok
  obtain ⟨view, hv, hvec⟩ : ∃ view, a.slice
      (relRanges (m.chunkShape, chunkOffset pos m.chunkShape) (chunkOffset pos m.chunkShape))
        = .ok view ∧ view.toVec m.order = a.toVec m.order := by
    refine ⟨_, by rw [NdArr.slice, ha, if_pos hok], ?_⟩
    have hshape : ((relRanges (m.chunkShape, chunkOffset pos m.chunkShape)
        (chunkOffset pos m.chunkShape)).map fun r => r.2 - r.1) = m.chunkShape :=
      relRanges_shape hck hck
    refine toVec_eq (by rw [toVec_length, hshape, ha]) fun i hi => ?_
    simp only [hshape] at hi
    have hfi := full_index (s := m.chunkShape) (o := chunkOffset pos m.chunkShape)
      (w := m.chunkShape) (k := chunkOffset pos m.chunkShape) hck rfl hck isect_self hi
    simp only [hshape]
    rw [hfi.2, rel_shift (by rw [hck, Inside.length hi])]
    have := toVec_getElem (o := m.order) (a := a) (idx := i) (by rw [ha]; exact hi)
    rw [ha] at this
    exact this
  have hcoord : ∀ e, writeCoord env h path m (m.chunkBounds pos) fill a pos e fs
      = (writeChunk env h path m ⟨pos, a.toVec m.order⟩ >>= fun _ => pure e) fs := by
    intro e
    have e1 : (m.chunkBounds pos).intersect (m.chunkBounds pos) = .ok (m.chunkBounds pos) := by
      rw [intersect_eq rfl, isect_self]
    have e2 : (m.chunkBounds pos).sub (m.chunkBounds pos).offset
        = .ok ⟨List.zipWith (· - ·) (chunkOffset pos m.chunkShape)
          (chunkOffset pos m.chunkShape), m.chunkShape⟩ := by
      show (zipOutcome checkedSub (chunkOffset pos m.chunkShape) (chunkOffset pos m.chunkShape)
        >>= fun off => pure (BBox.mk off m.chunkShape)) = _
      rw [hsub]
      rfl
    have e3 : a.slice (BBox.mk (List.zipWith (· - ·) (chunkOffset pos m.chunkShape)
        (chunkOffset pos m.chunkShape)) m.chunkShape).toSlice = .ok view := hv
    unfold writeCoord
    simp only [M.bind_apply, M.lift_apply, e1, e2, e3, if_true, hvec]
  simp only [writeLoop, M.bind_apply, hcoord]
  generalize writeChunk env h path m ⟨pos, a.toVec m.order⟩ fs = x
  obtain ⟨o, s⟩ := x
  cases o <;> rfl

/-! ## C105 -/

/-- **C105 (partial).** A chunk of fewer than `2 ^ 32` elements that was read from the position
`pos`: (1) its bounds hold exactly the points that the chunk covers; (2) `as_ndarray` and
`into_ndarray` do not panic and give one and the same array `a` of the shape of a chunk, which holds
every element of the chunk at its place; (3) at every point of the array that the chunk covers, a
`read_ndarray` of a box around the point answers the element of `a` there; (4) if the chunk starts
inside the array and there is a fill value, `write_ndarray` of `a` at the offset of the bounds does
exactly what `write_chunk` of the chunk does; (5) `reinitialize_with` makes a buffer equal to it,
whatever the buffer held. Missing: chunks of `2 ^ 32` elements and more, see `C105_violated`. -/
theorem C105_partial (env : Env) (h : Hier) (path : Str) (m : ArrayMetadata) (t : RsType)
    (pos : List Nat) (fs : Fs) (c : DataChunk t) (hl : m.shape.length = m.chunkShape.length)
    (hk : ∀ k ∈ m.chunkShape, k ≠ 0) (hn : m.shape ≠ [])
    (hsize : m.chunkShape.prod < 2 ^ 32)
    (hr : (readChunk env h path m t pos fs).1 = .ok (some c)) :
    (∀ p, InBox (c.bounds m).offset (c.bounds m).shape p ↔ Covers m.chunkShape pos p) ∧
    (∃ a, asNdarray m c = .ok a ∧ intoNdarray m c = .ok a ∧ a.shape = m.chunkShape ∧
      (∀ i, Inside m.chunkShape i → c.data[linear m.order m.chunkShape i]? = some (a.get i)) ∧
      (∀ bbox arr, BBox.new bbox.offset bbox.shape = .ok bbox →
        (readNdarray env h path m t bbox fs).1 = .ok arr → ∀ p, Inside m.shape p →
        Covers m.chunkShape pos p → InBox bbox.offset bbox.shape p →
        arr.get (rel bbox.offset p) = a.get (rel (c.bounds m).offset p)) ∧
      (∀ env' h' path' fs' fill, (∃ p, Inside m.shape p ∧ Covers m.chunkShape pos p) →
        effectiveFillValue env' m t = .ok fill →
        writeNdarray env' h' path' m (c.bounds m).offset a fs'
          = writeChunk env' h' path' m c fs')) ∧
    (∀ buf : DataChunk t, buf.reinitializeWith c = c) := by
  obtain ⟨hin, rfl, hlen⟩ := look_some hr
  rw [Nat.mod_eq_of_lt hsize] at hlen
  have hp : c.gridPosition.length = m.chunkShape.length := by
    rw [inBounds_iff hl hk] at hin
    have := Bounded.length hin
    omega
  have hget : ∀ i, Inside m.chunkShape i → c.data[linear m.order m.chunkShape i]?
      = some ((NdArr.ofMemory (El.default t) m.order m.chunkShape c.data).get i) :=
    fun i hi => getElem?_ofMemory hi (by omega)
  refine ⟨fun p => inBox_chunk hp, ⟨_, if_pos (by omega), if_pos hlen, rfl, hget, ?_, ?_⟩, ?_⟩
  · intro bbox arr hb harr p hpin hc hpb
    have hb' := BBox.new_ok hb
    have hsr := shift_rel hpb
    have hrd := readNdarray_reads hl hn hb harr (rel bbox.offset p) (rel_inside hpb)
      (by rw [hsr]; exact hpin)
    rw [hsr] at hrd
    have hcp := (covers_iff hk).mp hc
    refine Reads.unique hrd (.inl ⟨c, by rw [hcp.2]; exact hr, ?_⟩)
    have : rel (c.bounds m).offset p = within m.chunkShape p := by
      have := rel_chunk (k := m.chunkShape) (p := p)
      rw [hcp.2] at this
      exact this
    rw [this]
    exact hget _ (within_inside hk hcp.1)
  · intro env' h' path' fs' fill hst hfill
    rw [starts_iff hl hk] at hst
    have := writeNdarray_own (env := env') (h := h') (path := path') (fs := fs')
      (a := NdArr.ofMemory (El.default t) m.order m.chunkShape c.data) hl hk hn hst hp hfill rfl
    rw [toVec_eq (v := c.data) hlen hget] at this
    exact this
  · intro buf
    simp [DataChunk.reinitializeWith]

/-- The demo chunk, read back: it covers the points 2 and 3 of the array. -/
example : (readChunk Demo.env Demo.hier Demo.path Demo.arr .u16 [1] demoFs).1
      = .ok (some Demo.chunk) ∧
    Demo.chunk.bounds Demo.arr = ⟨[2], [2]⟩ ∧
    (intoNdarray Demo.arr Demo.chunk >>= fun a => .ok (a.get [0], a.get [1]))
      = .ok (258#16, 7#16) ∧
    ((readNdarray Demo.env Demo.hier Demo.path Demo.arr .u16 ⟨[1], [3]⟩ demoFs).1
      >>= fun a => .ok (a.get [1], a.get [2])) = .ok (258#16, 7#16) ∧
    Demo.arr.chunkShape.prod < 2 ^ 32 ∧
    (∃ p, Inside Demo.arr.shape p ∧ Covers Demo.arr.chunkShape [1] p) ∧
    effectiveFillValue Demo.env Demo.arr .u16 = .ok 0#16 ∧
    (writeNdarray Demo.env Demo.hier Demo.path Demo.arr [2]
      (NdArr.ofMemory (El.default .u16) Demo.arr.order [2] Demo.chunk.data) Demo.emptyFs).2 = demoFs := by
  refine ⟨by decide +kernel, rfl, by decide +kernel, by decide +kernel, by decide,
    ⟨[3], by simp [Inside, Demo.arr], by simp [Covers, Demo.arr]⟩, by decide +kernel,
    by decide +kernel⟩

/-- A row-major and a column-major chunk of two by three. -/
example :
    (intoNdarray { Demo.arr with shape := [2, 3], chunkShape := [2, 3], order := .rowMajor }
      (⟨[0, 0], [1#16, 2#16, 3#16, 4#16, 5#16, 6#16]⟩ : DataChunk .u16)
        >>= fun a => .ok (a.get [0, 1], a.get [1, 0]))
      = .ok (2#16, 4#16) ∧
    (intoNdarray { Demo.arr with shape := [2, 3], chunkShape := [2, 3], order := .columnMajor }
      (⟨[0, 0], [1#16, 2#16, 3#16, 4#16, 5#16, 6#16]⟩ : DataChunk .u16)
        >>= fun a => .ok (a.get [0, 1], a.get [1, 0]))
      = .ok (3#16, 2#16) := by
  decide +kernel

set_option maxRecDepth 20000 in
/-- **C105 (violated).** `read_chunk` answers a chunk of `2 ^ 32` elements with an empty chunk, and
`as_ndarray` and `into_ndarray` of that chunk panic. -/
theorem C105_violated :
    (readChunk Demo.env Demo.hier Demo.path Demo.arrBigChunk .u16 [0, 0]
      (storeSet Demo.hier (chunkKey Demo.path Demo.arrBigChunk [0, 0]) ([], .ok ())
        Demo.emptyFs).2).1 = .ok (some ⟨[0, 0], []⟩) ∧
    (asNdarray Demo.arrBigChunk (⟨[0, 0], []⟩ : DataChunk .u16) >>= fun _ => .ok ()) = .panic ∧
    (intoNdarray Demo.arrBigChunk (⟨[0, 0], []⟩ : DataChunk .u16) >>= fun _ => .ok ()) = .panic := by
  decide +kernel

/-- **C105 (exact).** For any chunk a caller builds: `as_ndarray` panics exactly if the chunk has
fewer elements than the shape of a chunk calls for, `into_ndarray` exactly if it has not that
number, and where both succeed they give the same array. -/
theorem C105_exact (m : ArrayMetadata) (t : RsType) (c : DataChunk t) :
    (asNdarray m c = .panic ↔ c.data.length < m.chunkShape.prod) ∧
    (intoNdarray m c = .panic ↔ c.data.length ≠ m.chunkShape.prod) ∧
    (∀ a, intoNdarray m c = .ok a → asNdarray m c = .ok a) ∧
    (∀ e, asNdarray m c ≠ .err e ∧ intoNdarray m c ≠ .err e) := by
  unfold asNdarray intoNdarray fromShapeVec
  refine ⟨?_, ?_, ?_, ?_⟩
  · split <;> simp <;> omega
  · split
    · rename_i he; simp [show c.data.length = m.chunkShape.prod from he]
    · rename_i he; simp [show c.data.length ≠ m.chunkShape.prod from he]
  · intro a ha
    split at ha
    · rename_i he
      rw [if_pos (Nat.le_of_eq (show c.data.length = m.chunkShape.prod from he).symm)]
      exact ha
    · simp at ha
  · intro e
    constructor <;> split <;> simp

example : (asNdarray Demo.arr (⟨[1], [1#16, 2#16, 3#16]⟩ : DataChunk .u16) >>= fun a => .ok (a.get [1]))
      = .ok 2#16 ∧
    (intoNdarray Demo.arr (⟨[1], [1#16, 2#16, 3#16]⟩ : DataChunk .u16) >>= fun _ => .ok ()) = .panic := by
  decide +kernel

/-- **C105 (violated, always).** The views of a chunk that `read_chunk` returned panic exactly if a chunk of the array has
`2 ^ 32` elements or more: such chunks have no view, whatever is stored and wherever they are. -/
theorem C105_violated_always (env : Env) (h : Hier) (path : Str) (m : ArrayMetadata) (t : RsType) (pos : List Nat) (fs : Fs)
    (c : DataChunk t) (hr : (readChunk env h path m t pos fs).1 = .ok (some c)) :
    (asNdarray m c = .panic ↔ 2 ^ 32 ≤ m.chunkShape.prod) ∧ (intoNdarray m c = .panic ↔ 2 ^ 32 ≤ m.chunkShape.prod) := by
  obtain ⟨_, _, hlen⟩ := look_some hr
  obtain ⟨e1, e2, _, _⟩ := C105_exact m t c
  rw [e1, e2, hlen]
  have hlt : m.chunkShape.prod % 2 ^ 32 < 2 ^ 32 := Nat.mod_lt _ (by decide)
  constructor
  · refine ⟨fun hlt' => Nat.le_of_not_lt fun hs => ?_, fun hs => by omega⟩
    rw [Nat.mod_eq_of_lt hs] at hlt'
    omega
  · exact ⟨fun hne => Nat.le_of_not_lt fun hs => hne (Nat.mod_eq_of_lt hs), fun hs => by omega⟩

set_option maxRecDepth 20000 in
/-- Both kinds of chunk are read. -/
example : (readChunk Demo.env Demo.hier Demo.path Demo.arrBigChunk .u16 [0, 0]
      (storeSet Demo.hier (chunkKey Demo.path Demo.arrBigChunk [0, 0]) ([], .ok ()) Demo.emptyFs).2).1
      = .ok (some ⟨[0, 0], []⟩) ∧ 2 ^ 32 ≤ Demo.arrBigChunk.chunkShape.prod ∧
    (readChunk Demo.env Demo.hier Demo.path Demo.arr .u16 [0] (storeSet Demo.hier (chunkKey Demo.path Demo.arr [0])
      ([0, 1, 0, 2], .ok ()) Demo.emptyFs).2).1.isOk = true ∧ Demo.arr.chunkShape.prod < 2 ^ 32 := by
  decide +kernel

end Zarr
