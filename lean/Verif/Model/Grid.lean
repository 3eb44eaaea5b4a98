import Verif.Model.Metadata
/-!
# The chunk grid (`src/lib.rs:340-342, 482-527`)

Coordinates are natural numbers here. `Model/Machine.lean` repeats this arithmetic on machine words. A zero chunk size makes the Rust code panic with a division by zero; the functions below return
`panic` in that case. -/

namespace Zarr

/-- `u64_ceil_div` (lib.rs:340-342). -/
def u64CeilDiv (a b : Nat) : Outcome Nat :=
  if b = 0 then .panic
  else .ok ((a + 1) / b + (if a % b ≠ 0 then 1 else 0))

/-- The zipped map of `get_grid_extent` (lib.rs:484-488). -/
def zipOutcome (f : Nat → Nat → Outcome Nat) : List Nat → List Nat → Outcome (List Nat)
  | a :: as, b :: bs => do
    let x ← f a b
    let xs ← zipOutcome f as bs
    pure (x :: xs)
  | _, _ => .ok []

/-- `get_grid_extent` (lib.rs:483-489). -/
def ArrayMetadata.gridExtent (m : ArrayMetadata) : Outcome (List Nat) :=
  zipOutcome u64CeilDiv m.shape m.chunkShape

/-- `get_num_chunks` (lib.rs:503-505). -/
def ArrayMetadata.numChunks (m : ArrayMetadata) : Outcome Nat := do
  let e ← m.gridExtent
  pure e.prod

/-- `extent.iter().zip(pos.iter()).all(|(&bound, &coord)| coord < bound)` (lib.rs:522-526). -/
def allBelow : List Nat → List Nat → Bool
  | b :: bs, c :: cs => decide (c < b) && allBelow bs cs
  | _, _ => true

/-- `in_bounds` (lib.rs:520-527). The comparison of lengths is evaluated first. -/
def ArrayMetadata.inBounds (m : ArrayMetadata) (pos : List Nat) : Outcome Bool :=
  if m.shape.length = pos.length then do
    let e ← m.gridExtent
    pure (allBelow e pos)
  else .ok false

end Zarr
