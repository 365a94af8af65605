import Verif.CanonSpec
import Verif.Spec

/-!
# States on which a sweep begins
-/

namespace MPS.Trotter
open MPS Tensor
variable {K : Type} [RCLike K]

/-- `P` is an MPS of an open chain in canonical form with respect to the end where a sweep in the direction `sense` begins:
the first site for `sense ≥ 0` (the states left by `canonical_form(P, -1)`), the last site for `sense < 0` -/
structure ReadyFor (ds : List Nat) (P : List (Tensor K)) (sense : Int) : Prop where
  wf : WF 1 P ds 1
  nonempty : P ≠ []
  right : sense ≥ 0 → ∀ j, 0 < j → j < ds.length → RightIso (site P j)
  left : sense < 0 → ∀ j, j + 1 < ds.length → LeftIso (site P j)

end MPS.Trotter
