import Verif.Model.Ndarray
/-!
# Machine arithmetic

The arithmetic of `src/lib.rs` and `src/ndarray.rs` again, on 64-bit words: a sum, difference or
product outside the range of `u64` (and of `usize`, 64 bits wide here) panics when the program is
compiled with overflow checks (`chk = true`) and wraps around otherwise. Values are natural numbers
below `2 ^ 64`. `Props/Machine.lean` proves when these functions agree with the ones of
`Model/Grid.lean` and `Model/Ndarray.lean`. -/

namespace Zarr

/-- The result of an operation whose mathematical result is `n`. -/
def wrap64 (chk : Bool) (n : Nat) : Outcome Nat :=
  if n < 2 ^ 64 then .ok n else if chk then .panic else .ok (n % 2 ^ 64)

/-- `a + b`. -/
def add64 (chk : Bool) (a b : Nat) : Outcome Nat := wrap64 chk (a + b)

/-- `a * b`. -/
def mul64 (chk : Bool) (a b : Nat) : Outcome Nat := wrap64 chk (a * b)

/-- `a - b`. -/
def sub64 (chk : Bool) (a b : Nat) : Outcome Nat :=
  if b ≤ a then .ok (a - b) else if chk then .panic else .ok (a + 2 ^ 64 - b)

/-- `a / b`. -/
def div64 (a b : Nat) : Outcome Nat := if b = 0 then .panic else .ok (a / b)

/-- `a % b`. -/
def rem64 (a b : Nat) : Outcome Nat := if b = 0 then .panic else .ok (a % b)

/-- `Iterator::product`: a fold of `*` from `1`. -/
def prodM (chk : Bool) (acc : Nat) : List Nat → Outcome Nat
  | [] => .ok acc
  | x :: xs => do
    let a ← mul64 chk acc x
    prodM chk a xs

/-- `u64_ceil_div` (lib.rs:340-342). -/
def u64CeilDivM (chk : Bool) (a b : Nat) : Outcome Nat := do
  let a1 ← add64 chk a 1
  let q ← div64 a1 b
  let r ← rem64 a b
  add64 chk q (if r ≠ 0 then 1 else 0)

/-- `get_grid_extent` (lib.rs:483-489). -/
def ArrayMetadata.gridExtentM (chk : Bool) (m : ArrayMetadata) : Outcome (List Nat) :=
  zipOutcome (u64CeilDivM chk) m.shape m.chunkShape

/-- `get_num_chunks` (lib.rs:503-505). -/
def ArrayMetadata.numChunksM (chk : Bool) (m : ArrayMetadata) : Outcome Nat := do
  let e ← m.gridExtentM chk
  prodM chk 1 e

/-- `get_num_elements` (lib.rs:469-471). -/
def ArrayMetadata.numElementsM (chk : Bool) (m : ArrayMetadata) : Outcome Nat := prodM chk 1 m.shape

/-- `get_chunk_num_elements` (lib.rs:474-480). -/
def ArrayMetadata.chunkNumElementsM (chk : Bool) (m : ArrayMetadata) : Outcome Nat :=
  prodM chk 1 m.chunkShape

/-- `in_bounds` (lib.rs:520-527). -/
def ArrayMetadata.inBoundsM (chk : Bool) (m : ArrayMetadata) (pos : List Nat) : Outcome Bool :=
  if m.shape.length = pos.length then do
    let e ← m.gridExtentM chk
    pure (allBelow e pos)
  else .ok false

/-- The loop of `intersect` (ndarray.rs:75-84). -/
def isectLoopM (chk : Bool) : List Nat → List Nat → List Nat → List Nat →
    Outcome (List Nat × List Nat)
  | s :: ss, o :: os, s' :: ss', o' :: os' => do
    let newO := max o' o
    let e ← add64 chk s o
    let e' ← add64 chk o' s'
    let r ← isectLoopM chk ss os ss' os'
    pure ((min e e' - newO) :: r.1, newO :: r.2)
  | ss, os, _, _ => .ok (ss, os)

/-- `intersect` (ndarray.rs:72-85). -/
def BBox.intersectM (chk : Bool) (a b : BBox) : Outcome BBox :=
  if a.offset.length = b.offset.length then do
    let r ← isectLoopM chk a.shape a.offset b.shape b.offset
    pure ⟨r.2, r.1⟩
  else .panic

/-- The loop of `union` (ndarray.rs:99-108). -/
def unionLoopM (chk : Bool) : List Nat → List Nat → List Nat → List Nat →
    Outcome (List Nat × List Nat)
  | s :: ss, o :: os, s' :: ss', o' :: os' => do
    let newO := min o' o
    let e ← add64 chk s o
    let e' ← add64 chk o' s'
    let d ← sub64 chk (max e e') newO
    let r ← unionLoopM chk ss os ss' os'
    pure (d :: r.1, newO :: r.2)
  | ss, os, _, _ => .ok (ss, os)

/-- `union` (ndarray.rs:96-109). -/
def BBox.unionM (chk : Bool) (a b : BBox) : Outcome BBox :=
  if a.offset.length = b.offset.length then do
    let r ← unionLoopM chk a.shape a.offset b.shape b.offset
    pure ⟨r.2, r.1⟩
  else .panic

/-- `end` (ndarray.rs:111-116). -/
def BBox.endM (chk : Bool) (a : BBox) : Outcome (List Nat) := zipOutcome (add64 chk) a.offset a.shape

/-- `as isize` of a `u64`. -/
def asIsize (n : Nat) : Int := if n < 2 ^ 63 then n else (n : Int) - 2 ^ 64

/-- `to_ndarray_slice` (ndarray.rs:118-128): the bounds as `isize`; ndarray counts a negative bound
from the end of the axis. -/
def BBox.toSliceM (chk : Bool) (a : BBox) : Outcome (List (Int × Int)) := do
  let e ← a.endM chk
  pure ((a.offset.map asIsize).zip (e.map asIsize))

/-- `shape_chunk` (ndarray.rs:55-57): `*n as u32`. -/
def BBox.shapeChunk (a : BBox) : List Nat := a.shape.map (· % 2 ^ 32)

/-- `(d + s - 1) / s` (ndarray.rs:396, 419). -/
def ceilDivM (chk : Bool) (d s : Nat) : Outcome Nat := do
  let a ← add64 chk d s
  let b ← sub64 chk a 1
  div64 b s

/-- `CoordIterator::new` (ndarray.rs:492-498). -/
def CoordIter.newM (chk : Bool) (ceil : List Nat) : Outcome CoordIter := do
  let n ← prodM chk 1 ceil
  pure ⟨multiCartesian (ceil.map (coordRange 0)), 0, n⟩

/-- `CoordIterator::floor_ceil` (ndarray.rs:500-515). -/
def CoordIter.floorCeilM (chk : Bool) (floor ceil : List Nat) : Outcome CoordIter := do
  let n ← prodM chk 1 (List.zipWith (fun f c => c - f) floor ceil)
  pure ⟨multiCartesian (List.zipWith coordRange floor ceil), 0, n⟩

/-- `coord_iter` (ndarray.rs:391-400). -/
def ArrayMetadata.coordIterM (chk : Bool) (m : ArrayMetadata) : Outcome CoordIter := do
  let ceil ← zipOutcome (ceilDivM chk) m.shape m.chunkShape
  CoordIter.newM chk ceil

/-- `bounded_coord_iter` (ndarray.rs:402-423). -/
def ArrayMetadata.boundedCoordIterM (chk : Bool) (m : ArrayMetadata) (unbounded : BBox) :
    Outcome CoordIter := do
  let bbox ← m.bounds.intersectM chk unbounded
  let floor ← zipOutcome div64 bbox.offset m.chunkShape
  let e ← bbox.endM chk
  let ceil ← zipOutcome (ceilDivM chk) e m.chunkShape
  CoordIter.floorCeilM chk floor ceil

/-- `get_chunk_bounds` (ndarray.rs:432-443). -/
def ArrayMetadata.chunkBoundsM (chk : Bool) (m : ArrayMetadata) (coord : List Nat) : Outcome BBox := do
  let o ← zipOutcome (mul64 chk) coord m.chunkShape
  pure ⟨o, m.chunkShape⟩

/-- The boxes of one round of the loops of `read_ndarray` (ndarray.rs:239-259) and `write_ndarray`
(ndarray.rs:319-325): the box of the chunk, its common part with the requested box, that part
relative to the requested box and relative to the chunk, each as ranges. `common` is the order of
the operands of `intersect`: the requested box first (`read`) or the chunk first (`write`). -/
def roundBoxesM (chk : Bool) (m : ArrayMetadata) (bbox : BBox) (readOrder : Bool) (pos : List Nat) :
    Outcome (BBox × BBox × List (Int × Int) × List (Int × Int)) := do
  let chunkBb ← m.chunkBoundsM chk pos
  let bb ← if readOrder then bbox.intersectM chk chunkBb else chunkBb.intersectM chk bbox
  let arrBb ← bb.sub bbox.offset
  let chunkRel ← bb.sub chunkBb.offset
  let s1 ← arrBb.toSliceM chk
  let s2 ← chunkRel.toSliceM chk
  pure (chunkBb, bb, s1, s2)

/-- The same on natural numbers, as in `copyChunk` and `writeCoord`. -/
def roundBoxes (m : ArrayMetadata) (bbox : BBox) (readOrder : Bool) (pos : List Nat) :
    Outcome (BBox × BBox × List (Nat × Nat) × List (Nat × Nat)) := do
  let chunkBb := m.chunkBounds pos
  let bb ← if readOrder then bbox.intersect chunkBb else chunkBb.intersect bbox
  let arrBb ← bb.sub bbox.offset
  let chunkRel ← bb.sub chunkBb.offset
  pure (chunkBb, bb, arrBb.toSlice, chunkRel.toSlice)

end Zarr
