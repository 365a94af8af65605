import Verif.DmrgManySpec

/-!
# How large the energy of a state can be
-/

namespace MPS.Dmrg
open MPS Tensor
variable {K : Type} [RCLike K]

/-- the energy of every state of norm one is between `-M` and `M`; the smallest such number is the operator norm of a Hermitian `H` -/
def EnergyBound (ds : List Nat) (H : Ham K) (M : ℝ) : Prop := ∀ ψ : List Nat → K, |stateEnergy ds H ψ| ≤ M * sumCfg ds (fun s => ‖ψ s‖ ^ 2)

end MPS.Dmrg
