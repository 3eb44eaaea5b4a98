import Verif.Basic
import Verif.Model.Metadata
/-!
# Points, boxes, chunks of a regular grid

A point and a box of the same dimension are compared coordinate by coordinate. These definitions do
not use the functions of the model. -/

namespace Zarr.Spec

/-- The point `p` has one coordinate per dimension and lies in the array of the given shape. -/
def Inside : List Nat → List Nat → Prop
  | s :: ss, p :: ps => p < s ∧ Inside ss ps
  | [], [] => True
  | _, _ => False

/-- The point lies in the box with the given offset and shape. -/
def InBox : List Nat → List Nat → List Nat → Prop
  | o :: os, s :: ss, p :: ps => (o ≤ p ∧ p < o + s) ∧ InBox os ss ps
  | [], [], [] => True
  | _, _, _ => False

/-- The chunk at grid position `c` covers the point: along every dimension
`c * size ≤ p < (c + 1) * size`. -/
def Covers : List Nat → List Nat → List Nat → Prop
  | k :: ks, c :: cs, p :: ps => (c * k ≤ p ∧ p < (c + 1) * k) ∧ Covers ks cs ps
  | [], [], [] => True
  | _, _, _ => False

/-- `n` is the least number of chunks of size `k` that cover a dimension of length `s`. -/
def LeastCover (s k n : Nat) : Prop := s ≤ n * k ∧ ∀ n', s ≤ n' * k → n ≤ n'

/-- The point shifted by an offset. -/
def shift : List Nat → List Nat → List Nat
  | o :: os, i :: is => (o + i) :: shift os is
  | _, _ => []

/-- The point relative to an offset. -/
def rel : List Nat → List Nat → List Nat
  | o :: os, p :: ps => (p - o) :: rel os ps
  | _, _ => []

/-- The grid position of the chunk that covers a point. -/
def chunkOf : List Nat → List Nat → List Nat
  | k :: ks, p :: ps => (p / k) :: chunkOf ks ps
  | _, _ => []

/-- The position of a point inside the chunk that covers it. -/
def within : List Nat → List Nat → List Nat
  | k :: ks, p :: ps => (p % k) :: within ks ps
  | _, _ => []

/-- The linear position of an index: row-major, the last index fastest. -/
def linearRow : List Nat → List Nat → Nat
  | _ :: ns, i :: is => i * ns.prod + linearRow ns is
  | _, _ => 0

/-- The linear position of an index: column-major, the first index fastest. -/
def linearCol : List Nat → List Nat → Nat
  | n :: ns, i :: is => i + n * linearCol ns is
  | _, _ => 0

/-- The linear position of an index by memory order. -/
def linear (o : Order) (shape idx : List Nat) : Nat :=
  match o with
  | .rowMajor => linearRow shape idx
  | .columnMajor => linearCol shape idx

end Zarr.Spec
