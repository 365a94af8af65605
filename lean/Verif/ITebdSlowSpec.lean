import Verif.ITebdSpec
import Mathlib.Analysis.SpecificLimits.Basic

/-!
# A ring of sites with the tensors of an infinite state
-/

namespace MPS.ITebd
open MPS Tensor
variable {K : Type} [RCLike K]

/-- the wave function of a ring made of the sites `p, ..., p + n - 1`: `Tr (Γλ)[s_p] (Γλ)[s_{p+1}] ⋯` -/
def ringAmp (psi : State K) (p : Int) (n : Nat) (s : List Nat) : K :=
  ∑ a ∈ Finset.range ((psi.matrix p).dim 0), path (window psi p n) s a a

/-- the squared norm of this wave function -/
def ringNorm (psi : State K) (p : Int) (n : Nat) : K := MPS.inner (winDims psi p n) (ringAmp psi p n) (ringAmp psi p n)

/-- the expected value on the ring of an operator given by its matrix elements -/
def ringValue (psi : State K) (p : Int) (n : Nat) (O : List Nat → List Nat → K) : K :=
  MPS.inner (winDims psi p n) (ringAmp psi p n) (actOp (winDims psi p n) O (ringAmp psi p n)) / ringNorm psi p n

/-- the correlations die out: the transfer matrix of `m` cells starting at site `p`, divided by `η^m`, tends to the product of the
identity on the left and the density matrix `λ²` on the right -/
def DiesOut (psi : State K) (p : Int) (η : K) : Prop :=
  ∀ a < (psi.matrix p).dim 0, ∀ a' < (psi.matrix p).dim 0, ∀ b < (psi.matrix p).dim 0, ∀ b' < (psi.matrix p).dim 0,
    Filter.Tendsto (fun m : Nat => sumCfg (winDims psi p (2 * m)) (fun s =>
      star (path (window psi p (2 * m)) s a b) * path (window psi p (2 * m)) s a' b') / η ^ m) Filter.atTop
      (nhds (if a = a' ∧ b = b' then (psi.leftVector p).get [b] ^ 2 else 0))

/-- the power method: the vector returned is a multiple, not zero, of what the map makes of the initial vector after some number of
steps -/
def GoodPower (power : (Tensor K → Tensor K) → Tensor K → Tensor K) : Prop :=
  ∀ f v, ∃ (k : Nat) (c : K), c ≠ 0 ∧ (power f v).dims = (f^[k] v).dims ∧ ∀ I, InB (f^[k] v).dims I → (power f v).get I = c * (f^[k] v).get I

end MPS.ITebd
