import Verif.Model.Store
/-!
# Bounding boxes, chunk coordinates and n-dimensional access (`src/ndarray.rs`)

Coordinates are natural numbers: the overflow of `u64`/`usize` sums and products and the casts to
`isize` are not modelled here (`Model/Machine.lean` has the machine arithmetic of the grid).

From the `ndarray` crate the model uses: an array has a shape and an element per index; `slice`,
`slice_mut` with half-open ranges; `assign`; `from_elem`; `from_shape` and `from_shape_vec` in
row-major and column-major layout; iteration in logical (row-major) order; `t()` which reverses the
axes. From `itertools` 0.8 it uses `multi_cartesian_product`: all tuples, the last factor fastest,
and no tuple at all for an empty list of factors. -/

namespace Zarr

/-! ## Bounding boxes -/

/-- `BoundingBox` (ndarray.rs:43-46). -/
structure BBox where
  offset : List Nat
  shape : List Nat
  deriving DecidableEq

/-- `BoundingBox::new` (ndarray.rs:49-53). -/
def BBox.new (offset shape : List Nat) : Outcome BBox :=
  if offset.length = shape.length then .ok ⟨offset, shape⟩ else .panic

/-- The loop of `intersect` (ndarray.rs:75-84) on `self.shape`, `self.offset`, `other.shape`,
`other.offset`: the new shape and offset. Entries beyond the shortest list stay. -/
def isectLoop : List Nat → List Nat → List Nat → List Nat → List Nat × List Nat
  | s :: ss, o :: os, s' :: ss', o' :: os' =>
    let newO := max o' o
    let r := isectLoop ss os ss' os'
    ((min (s + o) (o' + s') - newO) :: r.1, newO :: r.2)
  | ss, os, _, _ => (ss, os)

/-- `intersect` (ndarray.rs:72-85); `saturating_sub` is the subtraction of `Nat`. -/
def BBox.intersect (a b : BBox) : Outcome BBox :=
  if a.offset.length = b.offset.length then
    let r := isectLoop a.shape a.offset b.shape b.offset
    .ok ⟨r.2, r.1⟩
  else .panic

/-- The loop of `union` (ndarray.rs:99-108). The difference never underflows: the minimum of the
offsets is at most either end. -/
def unionLoop : List Nat → List Nat → List Nat → List Nat → List Nat × List Nat
  | s :: ss, o :: os, s' :: ss', o' :: os' =>
    let newO := min o' o
    let r := unionLoop ss os ss' os'
    ((max (s + o) (o' + s') - newO) :: r.1, newO :: r.2)
  | ss, os, _, _ => (ss, os)

/-- `union` (ndarray.rs:96-109). -/
def BBox.union (a b : BBox) : Outcome BBox :=
  if a.offset.length = b.offset.length then
    let r := unionLoop a.shape a.offset b.shape b.offset
    .ok ⟨r.2, r.1⟩
  else .panic

/-- `end` (ndarray.rs:111-116). -/
def BBox.end (a : BBox) : List Nat := List.zipWith (· + ·) a.offset a.shape

/-- `to_ndarray_slice` (ndarray.rs:118-128): the half-open ranges. -/
def BBox.toSlice (a : BBox) : List (Nat × Nat) := a.offset.zip a.end

/-- `is_empty` (ndarray.rs:130-132). -/
def BBox.isEmpty (a : BBox) : Bool := a.shape.contains 0

/-- `checked_sub(..).unwrap()` (ndarray.rs:144). -/
def checkedSub (a b : Nat) : Outcome Nat := if b ≤ a then .ok (a - b) else .panic

/-- `impl Sub<&GridCoord> for BoundingBox` (ndarray.rs:135-149). -/
def BBox.sub (a : BBox) (o : List Nat) : Outcome BBox := do
  let off ← zipOutcome checkedSub a.offset o
  pure ⟨off, a.shape⟩

/-! ## Coordinate iterators -/

/-- `multi_cartesian_product` over a non-empty list of factors, lexicographic. -/
def cartesian : List (List Nat) → List (List Nat)
  | [] => [[]]
  | r :: rs => r.flatMap fun x => (cartesian rs).map (x :: ·)

/-- `multi_cartesian_product` of itertools 0.8: no factors, no tuples. -/
def multiCartesian (rs : List (List Nat)) : List (List Nat) :=
  if rs.isEmpty then [] else cartesian rs

/-- The range `f..c`. -/
def coordRange (f c : Nat) : List Nat := List.range' f (c - f)

/-- `CoordIterator` (ndarray.rs:485-489): the tuples still to come, the number of calls of `next`
and the expected total. Itertools' product starts over when it is polled again after `None`; the
model keeps returning `none` instead. -/
structure CoordIter where
  rest : List (List Nat)
  accumulator : Nat
  total : Nat
  deriving DecidableEq

/-- `CoordIterator::new` (ndarray.rs:492-498). -/
def CoordIter.new (ceil : List Nat) : CoordIter :=
  ⟨multiCartesian (ceil.map (coordRange 0)), 0, ceil.prod⟩

/-- `CoordIterator::floor_ceil` (ndarray.rs:500-515). -/
def CoordIter.floorCeil (floor ceil : List Nat) : CoordIter :=
  ⟨multiCartesian (List.zipWith coordRange floor ceil), 0,
   (List.zipWith (fun f c => c - f) floor ceil).prod⟩

/-- `next` (ndarray.rs:521-524). -/
def CoordIter.next (it : CoordIter) : Option (List Nat) × CoordIter :=
  (it.rest.head?, { it with rest := it.rest.tail, accumulator := it.accumulator + 1 })

/-- `size_hint` and `len` (ndarray.rs:526-532). The subtraction underflows when the accumulator
exceeds the total: a panic with overflow checks, otherwise a wrapped value. -/
def CoordIter.len (overflowChecks : Bool) (it : CoordIter) : Outcome Nat :=
  if it.accumulator ≤ it.total then .ok (it.total - it.accumulator)
  else if overflowChecks then .panic
  else .ok ((it.total + 2 ^ 64 - it.accumulator) % 2 ^ 64)

/-- `(d + s - 1) / s` (ndarray.rs:396, 419). With `s = 0` the division (or the subtraction before
it) panics. -/
def ceilDiv (d s : Nat) : Outcome Nat := if s = 0 then .panic else .ok ((d + s - 1) / s)

/-- `o / cs` (ndarray.rs:412). -/
def floorDiv (o s : Nat) : Outcome Nat := if s = 0 then .panic else .ok (o / s)

/-- `coord_iter` (ndarray.rs:391-400). -/
def ArrayMetadata.coordIter (m : ArrayMetadata) : Outcome CoordIter := do
  let ceil ← zipOutcome ceilDiv m.shape m.chunkShape
  pure (CoordIter.new ceil)

/-- `get_bounds` (ndarray.rs:425-430). -/
def ArrayMetadata.bounds (m : ArrayMetadata) : BBox :=
  ⟨List.replicate m.shape.length 0, m.shape⟩

/-- `bounded_coord_iter` (ndarray.rs:402-423). -/
def ArrayMetadata.boundedCoordIter (m : ArrayMetadata) (unbounded : BBox) : Outcome CoordIter := do
  let bbox ← m.bounds.intersect unbounded
  let floor ← zipOutcome floorDiv bbox.offset m.chunkShape
  let ceil ← zipOutcome ceilDiv bbox.end m.chunkShape
  pure (CoordIter.floorCeil floor ceil)

/-- `get_chunk_bounds` (ndarray.rs:432-443). -/
def ArrayMetadata.chunkBounds (m : ArrayMetadata) (coord : List Nat) : BBox :=
  ⟨List.zipWith (· * ·) coord m.chunkShape, m.chunkShape⟩

/-! ## Arrays -/

/-- An `ndarray::Array` or view: its shape and its elements by index. Only the elements at indices
inside the shape belong to the array. -/
structure NdArr (α : Type) where
  shape : List Nat
  get : List Nat → α

/-- `Array::from_elem`. -/
def NdArr.fromElem {α : Type} (shape : List Nat) (v : α) : NdArr α := ⟨shape, fun _ => v⟩

/-- Strides of a contiguous row-major array: each is the product of the lengths after it. -/
def rowStrides : List Nat → List Nat
  | [] => []
  | _ :: ss => ss.prod :: rowStrides ss

/-- Strides of a contiguous column-major array: each is the product of the lengths before it. -/
def colStrides (acc : Nat) : List Nat → List Nat
  | [] => []
  | s :: ss => acc :: colStrides (acc * s) ss

/-- The strides by memory layout. -/
def strides (o : Order) (shape : List Nat) : List Nat :=
  match o with
  | .rowMajor => rowStrides shape
  | .columnMajor => colStrides 1 shape

/-- The position in memory of an index. -/
def memOffset (o : Order) (shape idx : List Nat) : Nat :=
  (List.zipWith (· * ·) idx (strides o shape)).sum

/-- The array with the given memory. The default stands for memory outside the vector, which is
never looked at for an index inside the shape when the vector is long enough. -/
def NdArr.ofMemory {α : Type} (dflt : α) (o : Order) (shape : List Nat) (v : List α) : NdArr α :=
  ⟨shape, fun idx => (v[memOffset o shape idx]?).getD dflt⟩

/-- `ArrayView::from_shape(..).expect(..)` (ndarray.rs:464-470, `as_ndarray`): the slice may be
longer than the shape calls for. -/
def asNdarray (m : ArrayMetadata) {t : RsType} (c : DataChunk t) : Outcome (NdArr (El t)) :=
  if m.chunkShape.prod ≤ c.data.length then
    .ok (NdArr.ofMemory (El.default t) m.order m.chunkShape c.data)
  else .panic

/-- `Array::from_shape_vec(..).expect(..)` (ndarray.rs:474-480, 361): the length must be exact. -/
def fromShapeVec {t : RsType} (o : Order) (shape : List Nat) (v : List (El t)) :
    Outcome (NdArr (El t)) :=
  if v.length = shape.prod then .ok (NdArr.ofMemory (El.default t) o shape v) else .panic

/-- All indices of a shape in logical order: the last axis fastest. -/
def indices (shape : List Nat) : List (List Nat) := cartesian (shape.map List.range)

/-- `extend_from_array` (ndarray.rs:305-315) on an empty vector: the elements in logical order, or
in the logical order of the transposed view. `as_slice` gives the same elements as `iter`. -/
def NdArr.toVec {α : Type} (o : Order) (a : NdArr α) : List α :=
  match o with
  | .rowMajor => (indices a.shape).map a.get
  | .columnMajor => (indices a.shape.reverse).map fun i => a.get i.reverse

/-- The bounds checks of `slice` (ndarray 0.13, `do_slice`): one range per axis, ends inside. -/
def sliceOk : List (Nat × Nat) → List Nat → Bool
  | (_, e) :: rs, n :: ns => decide (e ≤ n) && sliceOk rs ns
  | [], [] => true
  | _, _ => false

/-- `slice(..)` with ranges `start..end`, `start ≤ end`. -/
def NdArr.slice {α : Type} (a : NdArr α) (rs : List (Nat × Nat)) : Outcome (NdArr α) :=
  if sliceOk rs a.shape then
    .ok ⟨rs.map fun r => r.2 - r.1, fun i => a.get (List.zipWith (· + ·) i (rs.map (·.1)))⟩
  else .panic

/-- Whether an index lies in the ranges. -/
def inRanges : List (Nat × Nat) → List Nat → Bool
  | (s, e) :: rs, i :: is => decide (s ≤ i) && decide (i < e) && inRanges rs is
  | [], [] => true
  | _, _ => false

/-- `a.slice_mut(rs).assign(&src)`. `assign` also accepts a source it can broadcast; here both
shapes are always the shape of one box, so the model only has the case of equal shapes. -/
def NdArr.sliceAssign {α : Type} (a : NdArr α) (rs : List (Nat × Nat)) (src : NdArr α) :
    Outcome (NdArr α) :=
  if sliceOk rs a.shape ∧ (rs.map fun r => r.2 - r.1) = src.shape then
    .ok ⟨a.shape, fun i =>
      if inRanges rs i then src.get (List.zipWith (· - ·) i (rs.map (·.1))) else a.get i⟩
  else .panic

/-! ## Reading -/

/-- The body of the loop for a present chunk (ndarray.rs:238-264). -/
def copyChunk (m : ArrayMetadata) (bbox : BBox) {t : RsType} (chunk : DataChunk t)
    (arr : NdArr (El t)) : Outcome (NdArr (El t)) := do
  let chunkBb := m.chunkBounds chunk.gridPosition
  let readBb ← bbox.intersect chunkBb
  if readBb.isEmpty then pure arr
  else do
    let arrBb ← readBb.sub bbox.offset
    let chunkReadBb ← readBb.sub chunkBb.offset
    let data ← asNdarray m chunk
    let view ← data.slice chunkReadBb.toSlice
    arr.sliceAssign arrBb.toSlice view

/-- Reading one chunk with or without a buffer (ndarray.rs:222-231): whether there was a chunk, and
the buffer afterwards. -/
def readCoord (env : Env) (h : Hier) (path : Str) (m : ArrayMetadata) (t : RsType) (pos : List Nat)
    (buf : Option (DataChunk t)) : M Fs (Bool × Option (DataChunk t)) :=
  match buf with
  | none => do
    let c ← readChunk env h path m t pos
    pure (c.isSome, c)
  | some b => do
    let r ← readChunkInto env h path m t pos b
    pure (r.1, some r.2)

/-- The loop of `read_ndarray_into_with_buffer` (ndarray.rs:221-265). The array is the caller's;
what it holds after an error is not modelled. -/
def readLoop (env : Env) (h : Hier) (path : Str) (m : ArrayMetadata) (t : RsType) (bbox : BBox) :
    List (List Nat) → NdArr (El t) → Option (DataChunk t) →
    M Fs (NdArr (El t) × Option (DataChunk t))
  | [], arr, buf => pure (arr, buf)
  | pos :: rest, arr, buf => do
    let r ← readCoord env h path m t pos buf
    match r.1, r.2 with
    | true, some chunk => do
      let arr ← M.lift (copyChunk m bbox chunk arr)
      readLoop env h path m t bbox rest arr r.2
    | _, buf => readLoop env h path m t bbox rest arr buf

/-- `read_ndarray_into_with_buffer` (ndarray.rs:195-268): the array and the buffer afterwards. -/
def readNdarrayIntoWithBuffer (env : Env) (h : Hier) (path : Str) (m : ArrayMetadata) (t : RsType)
    (bbox : BBox) (arr : NdArr (El t)) (buf : Option (DataChunk t)) :
    M Fs (NdArr (El t) × Option (DataChunk t)) :=
  if bbox.offset.length ≠ m.shape.length ∨ m.shape.length ≠ arr.shape.length then
    M.lift (.err .invalidData)
  else if bbox.shape ≠ arr.shape then M.lift (.err .invalidData)
  else do
    let it ← M.lift (m.boundedCoordIter bbox)
    readLoop env h path m t bbox it.rest arr buf

/-- `read_ndarray_into` (ndarray.rs:178-190). -/
def readNdarrayInto (env : Env) (h : Hier) (path : Str) (m : ArrayMetadata) (t : RsType)
    (bbox : BBox) (arr : NdArr (El t)) : M Fs (NdArr (El t)) := do
  let r ← readNdarrayIntoWithBuffer env h path m t bbox arr none
  pure r.1

/-- `read_ndarray` (ndarray.rs:154-174). -/
def readNdarray (env : Env) (h : Hier) (path : Str) (m : ArrayMetadata) (t : RsType)
    (bbox : BBox) : M Fs (NdArr (El t)) := do
  let fill ← M.lift (effectiveFillValue env m t)
  readNdarrayInto env h path m t bbox (NdArr.fromElem bbox.shape fill)

/-! ## Writing -/

/-- The partial-chunk branch of `write_ndarray` (ndarray.rs:337-380): the new `existing_chunk_vec`.
`chunk_vec` is cleared before each use and carries nothing from one chunk to the next. -/
def writePartial (env : Env) (h : Hier) (path : Str) (m : ArrayMetadata) {t : RsType}
    (fill : El t) (pos : List Nat) (nomBb writeBb : BBox) (arrView : NdArr (El t))
    (existing : List (El t)) : M Fs (List (El t)) := do
  let r ← readChunkInto env h path m t pos ⟨pos, existing⟩
  let c ← M.lift (
    if r.1 then do
      let a ← fromShapeVec m.order m.chunkShape r.2.data
      pure (m.chunkBounds r.2.gridPosition, a, m.order)
    else do
      let a ← fromShapeVec .rowMajor nomBb.shape (List.replicate nomBb.shape.prod fill)
      pure (nomBb, a, Order.rowMajor))
  let chunkWriteBb ← M.lift (writeBb.sub c.1.offset)
  let a ← M.lift (c.2.1.sliceAssign chunkWriteBb.toSlice arrView)
  writeChunk env h path m ⟨pos, a.toVec m.order⟩
  pure (a.toVec c.2.2)

/-- One round of the loop of `write_ndarray` (ndarray.rs:317-382). -/
def writeCoord (env : Env) (h : Hier) (path : Str) (m : ArrayMetadata) {t : RsType} (bbox : BBox)
    (fill : El t) (array : NdArr (El t)) (pos : List Nat) (existing : List (El t)) :
    M Fs (List (El t)) := do
  let nomBb := m.chunkBounds pos
  let writeBb ← M.lift (nomBb.intersect bbox)
  let arrBb ← M.lift (writeBb.sub bbox.offset)
  let arrView ← M.lift (array.slice arrBb.toSlice)
  if writeBb = nomBb then do
    writeChunk env h path m ⟨pos, arrView.toVec m.order⟩
    pure existing
  else writePartial env h path m fill pos nomBb writeBb arrView existing

/-- The loop of `write_ndarray`. -/
def writeLoop (env : Env) (h : Hier) (path : Str) (m : ArrayMetadata) {t : RsType} (bbox : BBox)
    (fill : El t) (array : NdArr (El t)) : List (List Nat) → List (El t) → M Fs Unit
  | [], _ => pure ()
  | pos :: rest, existing => do
    let e ← writeCoord env h path m bbox fill array pos existing
    writeLoop env h path m bbox fill array rest e

/-- `write_ndarray` (ndarray.rs:276-385). -/
def writeNdarray (env : Env) (h : Hier) (path : Str) (m : ArrayMetadata) {t : RsType}
    (offset : List Nat) (array : NdArr (El t)) : M Fs Unit :=
  if array.shape.length ≠ m.shape.length then M.lift (.err .invalidData)
  else do
    let bbox : BBox := ⟨offset, array.shape⟩
    let fill ← M.lift (effectiveFillValue env m t)
    let it ← M.lift (m.boundedCoordIter bbox)
    writeLoop env h path m bbox fill array it.rest []

end Zarr
