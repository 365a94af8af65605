import Verif.TrotterModel

/-!
# Steps of the default strategy in which no layer has to be simplified
-/

namespace MPS.Trotter
open MPS Tensor

/-- the state on which `apply_and_simplify` decides whether `simplify_obc` is called: the layer applied to `P` without maximal
dimension, in canonical form with respect to the first site (/repo/src/evolve/trotter_unitary.cc:185-195) -/
noncomputable def layerState (svd : Tensor ℂ → SvdRes ℂ) (eps dflt : ℝ) (W : Unitary) (P : List (Tensor ℂ)) (tol : ℝ) : List (Tensor ℂ) :=
  (canonicalForm svd eps dflt (apply svd eps dflt W ⟨P, 0, 0⟩ 1 tol 0 false).1.P (-1)).1

/-- none of the calls of `apply_and_simplify` meets a bond larger than its maximal dimension: the layers follow one another
without simplification -/
def NeverSimplified (svd : Tensor ℂ → SvdRes ℂ) (eps dflt : ℝ) (U : List Unitary) : List Call → List (Tensor ℂ) → Prop
  | [], _ => True
  | c :: cs, P => largestBond (layerState svd eps dflt (U.getD c.which ⟨0, 0, []⟩) P c.tol) ≤ c.D ∧
      NeverSimplified svd eps dflt U cs (layerState svd eps dflt (U.getD c.which ⟨0, 0, []⟩) P c.tol)

end MPS.Trotter
