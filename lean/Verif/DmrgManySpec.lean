import Verif.DmrgManyModel
import Verif.DmrgSpec

/-!
# What is assumed of an eigenvalue solver which is asked for several eigenvalues
-/

namespace MPS.Dmrg
open MPS Tensor Minim
variable {K : Type} [RCLike K]

/-- The contract of `eigs(A, SmallestAlgebraic, m, &P)`: if `A` multiplies vectors of size `n` with a Hermitian matrix `W` and the solver reports success, it
has found `m` eigenvalues (they are real) and an orthonormal eigenvector for each, in the columns of the matrix `P`; each
eigenvalue is the lowest possible in the space of the vectors which are orthogonal to the eigenvectors before. -/
def GoodManyEigs (eigs : ManyEigs K) : Prop :=
  ∀ (A : Tensor K → Tensor K) (n m : Nat) (P : Tensor K) (W : Nat → Nat → K), 0 < n → 0 < m →
    (∀ i j, i < n → j < n → star (W i j) = W j i) →
    (∀ X : Tensor K, X.dims = [n] → (A X).dims = [n] ∧ ∀ i < n, (A X).get [i] = ∑ j ∈ Finset.range n, W i j * X.get [j]) →
    (eigs A n m P).ok = true →
    let r := eigs A n m P
    let val : Nat → ℝ := fun p => RCLike.re (r.aux.getD p 0)
    r.aux.length = m ∧ r.P.dims = [n, m] ∧
    (∀ p q, p < m → q < m → ∑ i ∈ Finset.range n, star (r.P.get [i, p]) * r.P.get [i, q] = if p = q then 1 else 0) ∧
    (∀ p, p < m → ∀ i < n, ∑ j ∈ Finset.range n, W i j * r.P.get [j, p] = (val p : K) * r.P.get [i, p]) ∧
    ∀ p, p < m → ∀ X : Nat → K, (∀ q < p, ∑ i ∈ Finset.range n, star (r.P.get [i, q]) * X i = 0) →
      val p * ∑ i ∈ Finset.range n, ‖X i‖ ^ 2 ≤ RCLike.re (∑ i ∈ Finset.range n, ∑ j ∈ Finset.range n, star (X i) * W i j * X j)

/-- energy `Re ⟨ψ|H|ψ⟩` of any state, given by its amplitudes -/
noncomputable def stateEnergy (ds : List Nat) (H : Ham K) (ψ : List Nat → K) : ℝ :=
  RCLike.re (MPS.inner ds ψ (actOp ds (Props.hamElt ds H) ψ))

/-- `e` is a lower bound of the energy of all the states which are orthogonal to the `j` states `χ 0, …, χ (j-1)`.  The largest
such number, for all choices of these states, is the `j`-th lowest eigenvalue of `H`, beginning with 0 (Courant and Fischer). -/
def LowerBound (ds : List Nat) (H : Ham K) (j : Nat) (χ : Nat → List Nat → K) (e : ℝ) : Prop :=
  ∀ ψ : List Nat → K, (∀ q < j, MPS.inner ds (χ q) ψ = 0) → e * sumCfg ds (fun s => ‖ψ s‖ ^ 2) ≤ stateEnergy ds H ψ

end MPS.Dmrg
