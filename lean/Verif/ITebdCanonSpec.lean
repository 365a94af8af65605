import Verif.ITebdCanonModel
import Verif.ITebdSpec
import Verif.CanonSpec

/-!
# What is assumed of the eigenvalue solvers, and what it means that two infinite states are the same
-/

namespace MPS.ITebd
open MPS Tensor
variable {K : Type} [RCLike K]

/-- the function `eigSym` diagonalises every Hermitian matrix: `V = R diag(s) R†` with orthonormal columns of `R` -/
def GoodEigSym (eigSym : Tensor K → SymRes K) : Prop :=
  ∀ (V : Tensor K) (n : Nat), V.dims = [n, n] → (∀ i < n, ∀ j < n, star (V.get [i, j]) = V.get [j, i]) →
    (eigSym V).R.dims = [n, n] ∧ (eigSym V).s.length = n ∧
    (∀ i < n, ∀ j < n, ∑ k ∈ Finset.range n, (eigSym V).R.get [i, k] * (((eigSym V).s.getD k 0 : ℝ) : K) * star ((eigSym V).R.get [j, k]) =
      V.get [i, j]) ∧
    ∀ k < n, ∀ l < n, ∑ i ∈ Finset.range n, star ((eigSym V).R.get [i, k]) * (eigSym V).R.get [i, l] = if k = l then 1 else 0

/-- `w` has `n` elements and is an eigenvector of `f` with the real eigenvalue `η` -/
def Eigvec (f : Tensor K → Tensor K) (n : Nat) (w : Tensor K) (η : ℝ) : Prop :=
  w.dims = [n] ∧ ∀ i < n, (f w).get [i] = (η : K) * w.get [i]

/-- the Hermitian part of a matrix -/
noncomputable def hermPart (w : Nat → Nat → K) (i j : Nat) : K := (w i j + star (w j i)) / 2

/-- the Hermitian part of the matrix `w` is positive (`ε = 1`) or negative (`ε = -1`) definite -/
def DefinitePart (n : Nat) (w : Nat → Nat → K) (ε : ℝ) : Prop :=
  (ε = 1 ∨ ε = -1) ∧ ∀ x : Nat → K, (∃ i < n, x i ≠ 0) →
    0 < ε * RCLike.re (∑ i ∈ Finset.range n, ∑ j ∈ Finset.range n, star (x i) * hermPart w i j * x j)

/-- the vector returned by `eigs`, as a matrix -/
noncomputable def eigMat (L : Lib K) (psi : State K) (D : Nat) (sense : Int) : Nat → Nat → K := fun i j => (cellVec L psi sense).get [i + D * j]

/-- the vector returned by `eigs` (called with `sense = +1` for the left, `sense = -1` for the right surroundings of the cells) is an
eigenvector, with the real eigenvalue `η`, of the function it was given, and its Hermitian part is definite of sign `ε` -/
structure EigOk (L : Lib K) (psi : State K) (D : Nat) (sense : Int) (η ε : ℝ) : Prop where
  eig : Eigvec (cellMap psi sense) (D * D) (cellVec L psi sense) η
  definite : DefinitePart D (eigMat L psi D sense) ε

/-- `G'` is the inverse of the matrix `G` -/
def Inverses (n : Nat) (G G' : Nat → Nat → K) : Prop :=
  (∀ i < n, ∀ j < n, ∑ k ∈ Finset.range n, G i k * G' k j = if i = j then 1 else 0) ∧
  ∀ i < n, ∀ j < n, ∑ k ∈ Finset.range n, G' i k * G k j = if i = j then 1 else 0

/-- the two states are the same infinite chain, seen from windows of whole cells: their wave functions differ by an invertible change
of the basis of the states to the left and to the right of the window, which does not depend on the length of the window -/
def SameChain (psi phi : State K) : Prop :=
  (phi.matrix 0).dim 0 = (psi.matrix 0).dim 0 ∧ (phi.matrix 0).dim 1 = (psi.matrix 0).dim 1 ∧ (phi.matrix 1).dim 1 = (psi.matrix 1).dim 1 ∧
  ∃ G G' H H' : Nat → Nat → K, Inverses ((psi.matrix 0).dim 0) G G' ∧ Inverses ((psi.matrix 0).dim 0) H H' ∧
    ∀ (n : Nat) (s : List Nat), IsCfg (winDims psi 0 (2 * n)) s → ∀ a < (psi.matrix 0).dim 0, ∀ b < (psi.matrix 0).dim 0,
      winAmp phi 0 (2 * n) a b s = ∑ c ∈ Finset.range ((psi.matrix 0).dim 0), ∑ d ∈ Finset.range ((psi.matrix 0).dim 0),
        G a c * winAmp psi 0 (2 * n) c d s * H d b

/-- `∑ ρ_L(c,c') ρ_R(d,d') ⟨ψ_{cd}| O |ψ_{c'd'}⟩`: the expected value, not normalised, in a window whose surroundings are in the states
`ρ_L` and `ρ_R` -/
def boundForm (psi : State K) (n : Nat) (ρL ρR : Nat → Nat → K) (O : List Nat → List Nat → K) : K :=
  ∑ c ∈ Finset.range ((psi.matrix 0).dim 0), ∑ c' ∈ Finset.range ((psi.matrix 0).dim 0),
    ∑ d ∈ Finset.range ((psi.matrix 0).dim 0), ∑ d' ∈ Finset.range ((psi.matrix 0).dim 0), ρL c c' * ρR d d' *
      MPS.inner (winDims psi 0 n) (winAmp psi 0 n c d) (actOp (winDims psi 0 n) O (winAmp psi 0 n c' d'))

end MPS.ITebd
