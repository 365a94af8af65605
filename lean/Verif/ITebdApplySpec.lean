import Verif.ITebdCanonSpec

/-!
# Operators on every cell of an infinite state
-/

namespace MPS.ITebd
open MPS Tensor
variable {K : Type} [RCLike K]

/-- matrix elements of `O ⊗ O ⊗ ⋯`, where the operator `O` acts on each pair of consecutive sites `(0,1), (2,3), ...` -/
def cellsOp (O : List Nat → List Nat → K) : List Nat → List Nat → K
  | i :: j :: s, k :: l :: t => O [i, j] [k, l] * cellsOp O s t
  | [], [] => 1
  | _, _ => 0

/-- squared norm of the wave functions `f a b` of a window of two sites, with surroundings in the states `a, b < D` -/
noncomputable def cellNorm (D d e : Nat) (f : Nat → Nat → List Nat → K) : ℝ :=
  ∑ a ∈ Finset.range D, ∑ i ∈ Finset.range d, ∑ j ∈ Finset.range e, ∑ b ∈ Finset.range D, ‖f a b [i, j]‖ ^ 2

/-- the chain with `site` as its first site -/
def State.startingAt (psi : State K) (site : Int) : State K := if site % 2 = 1 then psi.swap else psi

end MPS.ITebd
