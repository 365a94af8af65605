import Verif.ObcSpec
import Verif.SimplifyModel

/-!
# What a sweep of `simplify` and the whole function promise
-/

namespace MPS.Simp
open MPS Tensor Form Minim Obc
variable {K : Type} [RCLike K]

/-- what a sweep in direction `s` (`1` or `-1`) does to a state `P`, for the target vector `q`, when it loses the weight `lost` -/
structure SweptBy (ds : List Nat) (q : List Nat → K) (P : List (Tensor K)) (s : Int) (Dok : Nat → Nat → Prop) (lost : ℝ)
    (P' : List (Tensor K)) : Prop where
  wf : WF 1 P' ds 1
  /-- all tensors but the last one of the sweep are isometries -/
  desc : Described ds.length P' s
  /-- the last one is the best one -/
  best : Best ds q P' (centreOf ds.length s)
  bond : ∀ j, j + 1 < ds.length → Dok j ((site P' j).dim 2)
  /-- the state gets closer to the target, if the first state had the canonical form that the direction requires -/
  closer : Described ds.length P (-s) → distTo ds q P' ≤ distTo ds q P + lost
  nonneg : 0 ≤ lost

/-- the same for a sweep that loses nothing -/
structure Swept (ds : List Nat) (q : List Nat → K) (P : List (Tensor K)) (s : Int) (P' : List (Tensor K)) : Prop where
  wf : WF 1 P' ds 1
  desc : Described ds.length P' s
  best : Best ds q P' (centreOf ds.length s)
  /-- bond dimensions do not grow -/
  bond : ∀ j, j + 1 < ds.length → (site P' j).dim 2 ≤ (site P j).dim 2
  closer : Described ds.length P (-s) → distTo ds q P' ≤ distTo ds q P
  /-- a state that overlaps with the target does not get lost -/
  nz : MPS.inner ds (amp P) q ≠ 0 → normSq ds P' ≠ 0

/-- the direction of the last of `n` sweeps, the first one in direction `s` -/
def lastDir (s : Int) (n : Nat) : Int := if n % 2 = 1 then s else -s

/-- what `simplify` leaves behind, started from `P`, for the target vector `q`: `n` is the largest number of sweeps, `es` are the errors
of the sweeps, `old` is the number that the first one is compared with, `Stop old new` is the rule that ends the iteration, `E` gives the
error in terms of the squared distance, and `Dok j d` says whether bond `j` may have dimension `d`; `lost` is the weight lost before. -/
structure Fitted (ds : List Nat) (q : List Nat → K) (P : List (Tensor K)) (s : Int) (n : Nat) (normalize : Bool) (Stop : ℝ → ℝ → Prop)
    (E : ℝ → ℝ) (Dok : Nat → Nat → Prop) (old lost : ℝ) (es : List ℝ) (out : Res K) : Prop where
  wf : WF 1 out.P ds 1 ∧ WF 1 out.P0 ds 1
  /-- number of sweeps; the last error is the one returned -/
  count : 0 < es.length ∧ es.length ≤ n ∧ es.getD (es.length - 1) 0 = out.err
  /-- the result has the canonical form left by the last sweep -/
  desc : Described ds.length out.P (lastDir s es.length) ∧ Described ds.length out.P0 (lastDir s es.length)
  /-- the number returned -/
  err : out.err = E (distTo ds q out.P0)
  /-- the last tensor is the best one, in the sense of least squares -/
  best : Best ds q out.P0 (centreOf ds.length (lastDir s es.length))
  bond : ∀ j, j + 1 < ds.length → Dok j ((site out.P j).dim 2) ∧ Dok j ((site out.P0 j).dim 2)
  /-- never worse than the initial guess, up to what has been truncated, if this one has the canonical form that `s` stands for -/
  closer : Described ds.length P (-s) → distTo ds q out.P0 ≤ distTo ds q P + (out.lost - lost)
  spent : lost ≤ out.lost
  /-- the stopping rule -/
  go : ∀ j, j + 1 < es.length → ¬ Stop ((old :: es).getD j 0) (es.getD j 0)
  stop : es.length < n → Stop ((old :: es).getD (es.length - 1) 0) out.err
  /-- errors do not grow if nothing is lost -/
  mono : out.lost = lost → ∀ j, j + 1 < es.length → es.getD (j + 1) 0 ≤ es.getD j 0
  first : out.lost = lost → Described ds.length P (-s) → es.getD 0 0 ≤ E (distTo ds q P)
  /-- without `normalize`, or if the loop has not been left by the stopping rule, the state is the one of the last sweep -/
  keep : (normalize = false ∨ ¬ Stop ((old :: es).getD (es.length - 1) 0) out.err) → out.P = out.P0
  /-- otherwise it is normalised -/
  unit : normalize = true → Stop ((old :: es).getD (es.length - 1) 0) out.err →
    (∀ c, IsCfg ds c → amp out.P c = ((1 / Real.sqrt (normSq ds out.P0) : ℝ) : K) * amp out.P0 c) ∧ normSq ds out.P = 1
  /-- `sense` is the direction opposite to that of the last sweep ... -/
  sense : (normalize = true ∨ ¬ Stop ((old :: es).getD (es.length - 1) 0) out.err) → out.sense = -lastDir s es.length
  /-- ... except when the loop is left by the stopping rule without `normalize` -/
  sense' : normalize = false → Stop ((old :: es).getD (es.length - 1) 0) out.err → out.sense = lastDir s es.length

end MPS.Simp
