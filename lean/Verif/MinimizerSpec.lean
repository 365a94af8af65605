import Verif.MinimizerModel
import Verif.CanonSpec
import Verif.FormSpec

/-!
# What is assumed of the eigenvalue solver, and what a Hermitian operator is
-/

namespace MPS.Minim
open MPS Tensor
variable {K : Type} [RCLike K]

/-- the matrix elements of the operator form a Hermitian matrix -/
def Hermitian (ds : List Nat) (O : List (Tensor K)) : Prop :=
  ∀ s t, IsCfg ds s → IsCfg ds t → star (opElt O s t) = opElt O t s

/-- `eigs(A, n, SmallestAlgebraic, 1, &P, &converged)`: if `A` multiplies vectors of size `n` with a Hermitian matrix `W` and
the solver reports success, then it has found a normalised eigenvector of `W` and its eigenvalue, and no vector has a smaller
expectation value. -/
def GoodEigs (eigs : Eigs K) : Prop :=
  ∀ (A : Tensor K → Tensor K) (n : Nat) (P : Tensor K) (W : Nat → Nat → K), 0 < n →
    (∀ i j, i < n → j < n → star (W i j) = W j i) →
    (∀ X : Tensor K, X.dims = [n] → (A X).dims = [n] ∧ ∀ i < n, (A X).get [i] = ∑ j ∈ Finset.range n, W i j * X.get [j]) →
    (eigs A n P).ok = true →
    (eigs A n P).P.dims = [n] ∧ ∑ i ∈ Finset.range n, ‖(eigs A n P).P.get [i]‖ ^ 2 = 1 ∧
    (∀ i < n, ∑ j ∈ Finset.range n, W i j * (eigs A n P).P.get [j] = (eigs A n P).E * (eigs A n P).P.get [i]) ∧
    ∀ X : Nat → K, RCLike.re (eigs A n P).E * ∑ i ∈ Finset.range n, ‖X i‖ ^ 2 ≤
      RCLike.re (∑ i ∈ Finset.range n, ∑ j ∈ Finset.range n, star (X i) * W i j * X j)

/-- squared norm of a matrix product state -/
noncomputable def normSq (ds : List Nat) (ψ : List (Tensor K)) : ℝ := sumCfg ds fun s => ‖amp ψ s‖ ^ 2

/-- squared distance of two matrix product states -/
noncomputable def distSq (ds : List Nat) (φ ψ : List (Tensor K)) : ℝ := sumCfg ds fun s => ‖amp φ s - amp ψ s‖ ^ 2

/-- `Re ⟨ψ|O|ψ⟩` -/
noncomputable def energyOf (ds : List Nat) (O ψ : List (Tensor K)) : ℝ := RCLike.re (Form.expect ds ψ O ψ)

end MPS.Minim
