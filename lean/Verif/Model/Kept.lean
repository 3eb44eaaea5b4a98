import Verif.Model.Ndarray

/-!
# What the caller's array holds when a box read stops

`read_ndarray_into` and `read_ndarray_into_with_buffer` write through a mutable view of an array
the caller owns. `Model/Ndarray.lean` returns that array only when the call succeeds; here it is
returned whatever the call returns, including when it panics (the array outlives the unwinding).
-/

namespace Zarr

/-- The loop of `read_ndarray_into_with_buffer` (ndarray.rs:221-265) with the array at the moment
the loop ends. `?` leaves the loop before the array is touched in that round
(ndarray.rs:225,229-230); slicing the view, `as_ndarray` and the comparison of shapes in `assign`
all come before the first element is copied (ndarray.rs:249-262), so a round that panics leaves the
array as it was. The buffer after a failed round is not modelled. -/
def readLoopKept (env : Env) (h : Hier) (path : Str) (m : ArrayMetadata) (t : RsType) (bbox : BBox)
    (fs : Fs) :
    List (List Nat) → NdArr (El t) → Option (DataChunk t) → Outcome Unit × NdArr (El t)
  | [], arr, _ => (.ok (), arr)
  | pos :: rest, arr, buf =>
    match (readCoord env h path m t pos buf fs).1 with
    | .ok (true, some chunk) =>
      match copyChunk m bbox chunk arr with
      | .ok arr' => readLoopKept env h path m t bbox fs rest arr' (some chunk)
      | .err e => (.err e, arr)
      | .panic => (.panic, arr)
    | .ok (_, buf') => readLoopKept env h path m t bbox fs rest arr buf'
    | .err e => (.err e, arr)
    | .panic => (.panic, arr)

/-- `read_ndarray_into_with_buffer` (ndarray.rs:195-268): what it returns, and the array the caller
has afterwards. -/
def readNdarrayIntoKept (env : Env) (h : Hier) (path : Str) (m : ArrayMetadata) (t : RsType)
    (bbox : BBox) (arr : NdArr (El t)) (buf : Option (DataChunk t)) (fs : Fs) :
    Outcome Unit × NdArr (El t) :=
  if bbox.offset.length ≠ m.shape.length ∨ m.shape.length ≠ arr.shape.length then
    (.err .invalidData, arr)
  else if bbox.shape ≠ arr.shape then (.err .invalidData, arr)
  else
    match m.boundedCoordIter bbox with
    | .ok it => readLoopKept env h path m t bbox fs it.rest arr buf
    | .err e => (.err e, arr)
    | .panic => (.panic, arr)

end Zarr
