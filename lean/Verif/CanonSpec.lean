import Verif.CanonModel
import Verif.Spec

/-!
# What is assumed of the singular value decomposition, and what an isometry is
-/

namespace MPS
open Tensor
variable {K : Type} [RCLike K]

/-- `r` is an economic singular value decomposition of the `m × n` matrix `A`: `A = U diag(s) V`, with
`l = min(m,n)` singular values, the columns of `U` orthonormal and the rows of `V` orthonormal.  The order of the
singular values is not assumed. -/
structure IsSVD (A : Tensor K) (m n : Nat) (r : SvdRes K) : Prop where
  dimsU : r.U.dims = [m, min m n]
  lenS : r.s.length = min m n
  dimsV : r.V.dims = [min m n, n]
  prod : ∀ i j, i < m → j < n →
    ∑ k ∈ Finset.range (min m n), r.U.get [i, k] * ((r.s.getD k 0 : ℝ) : K) * r.V.get [k, j] = A.get [i, j]
  isoU : ∀ k k', k < min m n → k' < min m n →
    ∑ i ∈ Finset.range m, star (r.U.get [i, k]) * r.U.get [i, k'] = if k = k' then 1 else 0
  isoV : ∀ k k', k < min m n → k' < min m n →
    ∑ j ∈ Finset.range n, r.V.get [k, j] * star (r.V.get [k', j]) = if k = k' then 1 else 0

/-- the function `svd` returns a singular value decomposition of every non-empty matrix -/
def GoodSvd (svd : Tensor K → SvdRes K) : Prop :=
  ∀ A m n, A.dims = [m, n] → 0 < m → 0 < n → IsSVD A m n (svd A)

/-- left isometry: `∑_{a,i} conj(A(a,i,b)) A(a,i,b') = δ_{b,b'}` -/
def LeftIso (A : Tensor K) : Prop :=
  ∀ b b', b < A.dim 2 → b' < A.dim 2 →
    ∑ a ∈ Finset.range (A.dim 0), ∑ i ∈ Finset.range (A.dim 1), star (A.get [a, i, b]) * A.get [a, i, b']
      = if b = b' then 1 else 0

/-- right isometry: `∑_{i,b} A(a,i,b) conj(A(a',i,b)) = δ_{a,a'}` -/
def RightIso (A : Tensor K) : Prop :=
  ∀ a a', a < A.dim 0 → a' < A.dim 0 →
    ∑ i ∈ Finset.range (A.dim 1), ∑ b ∈ Finset.range (A.dim 2), A.get [a, i, b] * star (A.get [a', i, b])
      = if a = a' then 1 else 0

end MPS
