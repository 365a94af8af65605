import Verif.MinimizerSpec
import Verif.CanonSpec
import Verif.FormSpec
import Verif.ObcModel

/-!
# Distances to a vector that need not be a matrix product state
-/

namespace MPS.Obc
open MPS Tensor Form Minim
variable {K : Type} [RCLike K]

/-- squared norm of a wave function -/
noncomputable def normSqOf (ds : List Nat) (q : List Nat → K) : ℝ := sumCfg ds fun s => ‖q s‖ ^ 2

/-- squared distance of a wave function and a matrix product state -/
noncomputable def distTo (ds : List Nat) (q : List Nat → K) (ψ : List (Tensor K)) : ℝ := sumCfg ds fun s => ‖q s - amp ψ s‖ ^ 2

/-- the rule that ends the iteration, in terms of the relative errors before and after a sweep -/
def StopRule (tolerance old new : ℝ) : Prop := old - new < 1 / 10 ^ 5 * |old| ∨ new < tolerance

/-- the relative distance of a state to a non-zero vector -/
noncomputable def relDist (ds : List Nat) (q : List Nat → K) (ψ : List (Tensor K)) : ℝ := Real.sqrt (distTo ds q ψ / normSqOf ds q)

/-- the state is the best one with respect to changes of the tensor at `k`, where the optimum is unique -/
structure Best (ds : List Nat) (q : List Nat → K) (P : List (Tensor K)) (k : Nat) : Prop where
  dist : distTo ds q P = normSqOf ds q - normSq ds P
  overlap : MPS.inner ds q (amp P) = (normSq ds P : K)
  best : ∀ Y : Tensor K, Y.dims = (site P k).dims →
    distTo ds q (P.set k Y) = distTo ds q P + sumCfg Y.dims fun I => ‖(site P k).get I - Y.get I‖ ^ 2

/-- the canonical form that a value of `sense` describes: every tensor but the first one is a right isometry (`sense < 0`), or
every tensor but the last one is a left isometry -/
def Described (N : Nat) (P : List (Tensor K)) (sense : Int) : Prop :=
  if sense < 0 then ∀ j, 0 < j → j < N → RightIso (site P j) else ∀ j, j + 1 < N → LeftIso (site P j)

/-- the one tensor that is not restricted -/
def centreOf (N : Nat) (sense : Int) : Nat := if sense < 0 then 0 else N - 1

/-- what `simplify_obc` promises: started from `P`, for the target `∑ₙ wₙ Qₙ` -/
structure Simplified (ds : List Nat) (w : List K) (Q : List (List (Tensor K))) (P : List (Tensor K)) (sweeps : Nat) (normalize : Bool) (Dmax : Nat)
    (tolerance : ℝ) (out : Out K) : Prop where
  /-- the result is a state of the same size, `out.P0` being the one before normalisation -/
  wf : WF 1 out.P ds 1 ∧ WF 1 out.P0 ds 1
  /-- `sense` describes the canonical form of the result, with `normalize` or without -/
  sense : (out.sense = 1 ∨ out.sense = -1) ∧ Described ds.length out.P out.sense
  /-- the norm reported -/
  norm : out.norm = normSq ds out.P0
  /-- the value returned is the relative distance, zero when the target has been reached -/
  err : out.err = relDist ds (superpose w Q) out.P0
  exact : out.err = 0 ↔ ∀ s, IsCfg ds s → amp out.P0 s = superpose w Q s
  /-- no change of the last tensor brings the state closer -/
  best : Best ds (superpose w Q) out.P0 (centreOf ds.length out.sense)
  /-- never further than the initial guess, up to what has been truncated -/
  closer : distTo ds (superpose w Q) out.P0 ≤ distTo ds (superpose w Q) P + out.lost
  lost : 0 ≤ out.lost
  /-- `normalize` -/
  keep : normalize = false → out.P = out.P0
  unit : normalize = true → (∀ s, IsCfg ds s → amp out.P s = ((1 / Real.sqrt out.norm : ℝ) : K) * amp out.P0 s) ∧
    (out.norm ≠ 0 → normSq ds out.P = 1)
  /-- `Dmax` -/
  bonds : 0 < Dmax → ∀ j, j + 1 < ds.length → (site out.P j).dim 2 ≤ Dmax
  /-- number of sweeps, one error for each of them -/
  count : out.errs.length ≤ sweeps ∧ ∃ es, out.errs = es ++ [out.err]
  /-- sweeps before the last one did not meet the stopping rule, the last one did unless there are no sweeps left -/
  go : ∀ j, j + 1 < out.errs.length → ¬ StopRule tolerance ((1 :: out.errs).getD j 0) (out.errs.getD j 0)
  stop : out.errs.length < sweeps → StopRule tolerance ((1 :: out.errs).getD (out.errs.length - 1) 0) out.err
  /-- the errors do not grow if nothing has been truncated -/
  mono : ∀ j, j + 1 < out.errs.length →
    out.errs.getD (j + 1) 0 ^ 2 ≤ out.errs.getD j 0 ^ 2 + out.lost / normSqOf ds (superpose w Q)

/-- what `simplify_obc` promises whatever the canonical form of the initial guess, and for any target `∑ₙ wₙ Qₙ`: all of `Simplified` that does not
compare with the initial guess (the value returned is not a number when the target vanishes) -/
structure Reached (ds : List Nat) (w : List K) (Q : List (List (Tensor K))) (sweeps : Nat) (normalize : Bool) (Dmax : Nat)
    (tolerance : ℝ) (out : Out K) : Prop where
  wf : WF 1 out.P ds 1 ∧ WF 1 out.P0 ds 1
  sense : (out.sense = 1 ∨ out.sense = -1) ∧ Described ds.length out.P out.sense
  norm : out.norm = normSq ds out.P0
  err : normSqOf ds (superpose w Q) ≠ 0 → out.err = relDist ds (superpose w Q) out.P0
  best : Best ds (superpose w Q) out.P0 (centreOf ds.length out.sense)
  lost : 0 ≤ out.lost
  keep : normalize = false → out.P = out.P0
  unit : normalize = true → (∀ s, IsCfg ds s → amp out.P s = ((1 / Real.sqrt out.norm : ℝ) : K) * amp out.P0 s) ∧
    (out.norm ≠ 0 → normSq ds out.P = 1)
  bonds : 0 < Dmax → ∀ j, j + 1 < ds.length → (site out.P j).dim 2 ≤ Dmax
  count : out.errs.length ≤ sweeps ∧ ∃ es, out.errs = es ++ [out.err]
  go : ∀ j, j + 1 < out.errs.length → ¬ StopRule tolerance ((1 :: out.errs).getD j 0) (out.errs.getD j 0)
  stop : out.errs.length < sweeps → StopRule tolerance ((1 :: out.errs).getD (out.errs.length - 1) 0) out.err

end MPS.Obc
