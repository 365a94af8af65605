import Verif.ITebdCanonModel
import Verif.ITebdSpec

/-!
# What imaginary time evolution of an infinite state means
-/

namespace MPS.ITebd
open MPS Tensor
variable {K : Type} [RCLike K]

/-- one Suzuki-Trotter step of length `dt`: which fractions of the evolution act on the pairs starting at even (0) and odd (1) sites.
Method 0 is the first order formula, 1 the second order one, all others the fourth order one of Forest and Ruth with
`θ = 0.6756...` -/
noncomputable def trotter (dt : ℝ) (method : Int) : List (ℝ × Int) :=
  let θ : ℝ := 0.67560359597983
  if method = 0 then [(dt, 0), (dt, 1)]
  else if method = 1 then [(dt / 2, 0), (dt, 1), (dt / 2, 0)]
  else [(θ * dt, 0), (2 * θ * dt, 1), ((1 / 2 - θ) * dt, 0), ((1 - 4 * θ) * dt, 1), ((1 / 2 - θ) * dt, 0), (2 * θ * dt, 1), (θ * dt, 0)]

/-- the operators `exp(-t H)` of the list act one after the other -/
noncomputable def trotterStep (L : Lib K) (H : Tensor K) (dt tol : ℝ) (maxDim : Int) (method : Int) (psi : State K) : Option (State K) :=
  (trotter dt method).foldlM (fun psi x => applyOperator L psi (L.expm (smul ((-x.1 : ℝ) : K) H)) x.2 tol maxDim) psi

/-- `psi` are the states along an evolution of `n` steps which starts in `start`: the state is put in canonical form at the beginning and
after every `deltan` steps -/
def Evolves (L : Lib K) (H : Tensor K) (dt tol : ℝ) (maxDim : Int) (method : Int) (deltan : Nat) (n : Nat) (start : State K) (psi : Nat → State K) : Prop :=
  psi 0 = canonForm L start ∧ ∀ j < n, ∃ phi, trotterStep L H dt tol maxDim method (psi j) = some phi ∧
    psi (j + 1) = if deltan ∣ j + 1 then canonForm L phi else phi

/-- Schmidt entropy: the entropy of the normalised squares of the numbers `w` -/
noncomputable def schmidtEntropy (w : List ℝ) : ℝ := -((w.map fun x => x ^ 2 / (w.map fun y => y ^ 2).sum * Real.log (x ^ 2 / (w.map fun y => y ^ 2).sum)).sum)

end MPS.ITebd
