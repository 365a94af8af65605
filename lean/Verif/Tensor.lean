import Mathlib.Algebra.BigOperators.Group.Finset.Basic
import Mathlib.Algebra.BigOperators.Ring.Finset
import Mathlib.Algebra.BigOperators.Intervals
import Mathlib.Algebra.Star.Basic
import Mathlib.Algebra.Star.BigOperators
import Mathlib.Tactic.Ring

/-!
# Model of the external `tensor` library (trusted semantics)

The C++ library `tensor` on which mps rests is not part of the repository.  This file is the
model of the part of its interface that mps uses.  A tensor is a list of dimensions together
with a function from multi-indices to scalars.  Column-major flat storage (first index
fastest) is visible only through `reshape` and linear access `A[n]`.

Semantics recorded here are those stated in the comments at the points of use, e.g.
`/repo/src/mps/mps_prop_matrix.cc:27-31,74-79,96-101`, `/repo/src/mps/mps_dty_matrix.cc:45-55`,
`/repo/src/mpo/mpo_apply.cc`.
-/

namespace MPS

/-- `tensor::Tensor<elt_t>`: dimensions + entries.  Entries outside the dimensions are junk
and never enter a theorem. -/
structure Tensor (R : Type) where
  dims : List Nat
  get : List Nat → R

namespace Tensor

/-- position of a multi-index in column-major storage -/
def flat : List Nat → List Nat → Nat
  | d :: ds, i :: is => i + d * flat ds is
  | _, _ => 0

/-- multi-index of a position in column-major storage -/
def unflat : List Nat → Nat → List Nat
  | [], _ => []
  | d :: ds, n => (n % d) :: unflat ds (n / d)

/-- a multi-index is inside the dimensions -/
def InB (ds is : List Nat) : Prop := List.Forall₂ (· < ·) is ds

/-- index positions may be negative: they count from the end -/
def nrm (r : Nat) (i : Int) : Nat := if i < 0 then (i + r).toNat else i.toNat

/-- swap two entries of a list of indices -/
def swapIdx (l : List Nat) (i j : Nat) : List Nat := (l.set i (l.getD j 0)).set j (l.getD i 0)

variable {R : Type}

/-- `A.dimension(i)` -/
def dim (A : Tensor R) (i : Int) : Nat := A.dims.getD (nrm A.dims.length i) 0

/-- `A.rank()` -/
def rank (A : Tensor R) : Nat := A.dims.length

/-- `A.size()`: number of elements -/
def size (A : Tensor R) : Nat := A.dims.prod

/-- `A.is_empty()` -/
def isEmpty (A : Tensor R) : Bool := A.size == 0

/-- default-constructed tensor `Tensor M;` -/
def empty [Zero R] : Tensor R := ⟨[0], fun _ => 0⟩

/-- linear access `A[n]` -/
def lin (A : Tensor R) (n : Nat) : R := A.get (unflat A.dims n)

/-- `reshape(A, d0, d1, ...)`: same flat data, other dimensions -/
def reshape (A : Tensor R) (ds : List Nat) : Tensor R :=
  ⟨ds, fun idx => A.get (unflat A.dims (flat ds idx))⟩

/-- `permute(A, i, j)`: exchange two indices -/
def permute (A : Tensor R) (i j : Int) : Tensor R :=
  let a := nrm A.dims.length i
  let b := nrm A.dims.length j
  ⟨swapIdx A.dims a b, fun idx => A.get (swapIdx idx a b)⟩

/-- `transpose(A)` of a matrix -/
def transpose (A : Tensor R) : Tensor R := permute A 0 1

/-- `zeros(d0, d1, ...)` -/
def zeros [Zero R] (ds : List Nat) : Tensor R := ⟨ds, fun _ => 0⟩

/-- `eye(d)` -/
def eye [Zero R] [One R] (d : Nat) : Tensor R :=
  ⟨[d, d], fun idx => if idx.getD 0 0 = idx.getD 1 0 then 1 else 0⟩

/-- assignment `A.at(idx) = v` -/
def setAt (A : Tensor R) (idx : List Nat) (v : R) : Tensor R :=
  ⟨A.dims, fun j => if j = idx then v else A.get j⟩

section Ring
variable [CommRing R]

/-- `fold(A, i, B, j)`: contract index `i` of `A` with index `j` of `B`. -/
def fold (A : Tensor R) (i : Int) (B : Tensor R) (j : Int) : Tensor R :=
  let a := nrm A.dims.length i
  let b := nrm B.dims.length j
  let l := A.dims.length - 1
  ⟨A.dims.eraseIdx a ++ B.dims.eraseIdx b,
   fun idx => ∑ k ∈ Finset.range (A.dims.getD a 0),
     A.get ((idx.take l).insertIdx a k) * B.get ((idx.drop l).insertIdx b k)⟩

/-- `foldin(A, i, B, j)`: contract, putting the remaining indices of `A` where index `j` of `B`
was. -/
def foldin (A : Tensor R) (i : Int) (B : Tensor R) (j : Int) : Tensor R :=
  let a := nrm A.dims.length i
  let b := nrm B.dims.length j
  let l := A.dims.length - 1
  ⟨B.dims.take b ++ A.dims.eraseIdx a ++ B.dims.drop (b + 1),
   fun idx => ∑ k ∈ Finset.range (A.dims.getD a 0),
     A.get (((idx.drop b).take l).insertIdx a k)
       * B.get ((idx.take b ++ idx.drop (b + l)).insertIdx b k)⟩

/-- `mmult(A, B)`: matrix product, last index of `A` with first of `B` -/
def mmult (A B : Tensor R) : Tensor R := fold A (-1) B 0

/-- `trace(A, 0, -1)`: contract the first with the last index -/
def trace (A : Tensor R) : Tensor R :=
  ⟨(A.dims.drop 1).dropLast,
   fun idx => ∑ k ∈ Finset.range (A.dims.getD 0 0), A.get (k :: (idx ++ [k]))⟩

/-- `scale(A, i, v)`: multiply by `v[idx_i]` -/
def scale (A : Tensor R) (i : Int) (v : Tensor R) : Tensor R :=
  ⟨A.dims, fun idx => A.get idx * v.get [idx.getD (nrm A.dims.length i) 0]⟩

/-- `kron(A, B)` of matrices: the index of `B` is the fastest -/
def kron (A B : Tensor R) : Tensor R :=
  ⟨[B.dim 0 * A.dim 0, B.dim 1 * A.dim 1],
   fun idx => A.get [idx.getD 0 0 / B.dim 0, idx.getD 1 0 / B.dim 1]
     * B.get [idx.getD 0 0 % B.dim 0, idx.getD 1 0 % B.dim 1]⟩

/-- `kron2(A, B) = kron(B, A)`: the index of `A` is the fastest -/
def kron2 (A B : Tensor R) : Tensor R := kron B A

/-- elementwise `A + B` -/
def add (A B : Tensor R) : Tensor R := ⟨A.dims, fun i => A.get i + B.get i⟩

/-- scalar multiple `c * A` -/
def smul (c : R) (A : Tensor R) : Tensor R := ⟨A.dims, fun i => c * A.get i⟩

end Ring

/-- `conj(A)` -/
def conj [Star R] (A : Tensor R) : Tensor R := ⟨A.dims, fun idx => star (A.get idx)⟩

/-- `foldc(A, i, B, j)`: fold with the conjugate of `A` -/
def foldc [CommRing R] [Star R] (A : Tensor R) (i : Int) (B : Tensor R) (j : Int) : Tensor R :=
  fold (conj A) i B j

/-- `change_dimension(A, i, n)`: truncate or pad with zeros -/
def changeDim [Zero R] (A : Tensor R) (i : Int) (n : Nat) : Tensor R :=
  let a := nrm A.dims.length i
  ⟨A.dims.set a n, fun idx => if idx.getD a 0 < A.dims.getD a 0 then A.get idx else 0⟩

end Tensor
end MPS
