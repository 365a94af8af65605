import Verif.SolveModel
import Verif.ObcSpec

/-!
# Linear equations between matrix product states
-/

namespace MPS.Solve
open MPS Tensor Form Minim Obc
variable {K : Type} [RCLike K]

/-- `solve_with_svd(A, b)` returns a vector, and it solves `A x = b` whenever that has a solution -/
def GoodSolve (lin : Tensor K → Tensor K → Tensor K) : Prop :=
  ∀ (A b : Tensor K) (n : Nat), A.dims = [n, n] → b.dims = [n] → (lin A b).dims = [n] ∧
    ((∃ x : Nat → K, ∀ i < n, ∑ j ∈ Finset.range n, A.get [i, j] * x j = b.get [i]) →
      ∀ i < n, ∑ j ∈ Finset.range n, A.get [i, j] * (lin A b).get [j] = b.get [i])

/-- `cgs(map, b, &x, n, tol)` returns a tensor of the size of the initial guess (nothing is assumed about its elements) -/
def SizedCgs (cgs : Cgs K) : Prop := ∀ A b x n tol, (cgs A b x n tol).dims = x.dims

/-- `A` is `y ↦ M y` on the tensors of dimensions `d`, with a Hermitian matrix `M` that has no negative eigenvalues -/
structure PsdMap (A : Tensor K → Tensor K) (d : List Nat) (M : List Nat → List Nat → K) : Prop where
  map : ∀ y : Tensor K, y.dims = d → (A y).dims = d ∧ ∀ I, IsCfg d I → (A y).get I = sumCfg d fun J => M I J * y.get J
  herm : ∀ I J, IsCfg d I → IsCfg d J → star (M I J) = M J I
  psd : ∀ y : List Nat → K, 0 ≤ RCLike.re (sumCfg d fun I => star (y I) * sumCfg d fun J => M I J * y J)

/-- the function that the method of conjugate gradients makes small, `⟨y|A y⟩ - 2 Re ⟨b|y⟩` -/
noncomputable def quad (A : Tensor K → Tensor K) (b y : Tensor K) : ℝ := RCLike.re (tscprod y (A y)) - 2 * RCLike.re (tscprod b y)

/-- the method of conjugate gradients does not leave the initial guess for something worse -/
def DescentCgs (cgs : Cgs K) : Prop := ∀ A b x n tol d M, PsdMap A d M → b.dims = d → x.dims = d → quad A b (cgs A b x n tol) ≤ quad A b x

/-- the method of conjugate gradients converges -/
def IdealCgs (cgs : Cgs K) : Prop := ∀ A b x n tol d M, PsdMap A d M → b.dims = d → x.dims = d →
  (∃ y : Tensor K, y.dims = d ∧ ∀ I, IsCfg d I → (A y).get I = b.get I) → ∀ I, IsCfg d I → (A (cgs A b x n tol)).get I = b.get I

/-- `‖H P - q‖²` -/
noncomputable def residual (ds : List Nat) (H : List (Tensor K)) (q : List Nat → K) (P : List (Tensor K)) : ℝ :=
  sumCfg ds fun s => ‖actOp ds (opElt H) (amp P) s - q s‖ ^ 2

/-- the rule that ends the iteration, in terms of the errors before and after a sweep; it does not apply to the first sweep -/
def StopRule (tolerance old new : ℝ) : Prop := old ≠ 0 ∧ (old - new < 1 / 10 ^ 5 * |old| ∨ new < tolerance)

/-- what the lines after the loop promise: the state `out.P0` of the last sweep, and the state `out.P` given back -/
structure Shaped (ds : List Nat) (sweeps : Nat) (normalize : Bool) (tolerance : ℝ) (out : Out K) : Prop where
  /-- the result is a state of the same size -/
  wf : WF 1 out.P ds 1 ∧ WF 1 out.P0 ds 1
  /-- `sense` describes the canonical form of the result, with `normalize` or without -/
  sense : (out.sense = 1 ∨ out.sense = -1) ∧ Described ds.length out.P out.sense ∧ Described ds.length out.P0 out.sense
  /-- `normalize` -/
  keep : normalize = false → out.P = out.P0
  unit : normalize = true → (∀ s, IsCfg ds s → amp out.P s = ((1 / Real.sqrt (normSq ds out.P0) : ℝ) : K) * amp out.P0 s) ∧
    (normSq ds out.P0 ≠ 0 → normSq ds out.P = 1)
  /-- number of sweeps, one error for each of them -/
  count : out.errs.length ≤ sweeps ∧ ∃ es, out.errs = es ++ [out.err]
  /-- sweeps before the last one did not meet the stopping rule, the last one did unless there are no sweeps left -/
  go : ∀ j, j + 1 < out.errs.length → ¬ StopRule tolerance ((0 :: out.errs).getD j 0) (out.errs.getD j 0)
  stop : out.errs.length < sweeps → StopRule tolerance ((0 :: out.errs).getD (out.errs.length - 1) 0) out.err
  /-- weights are not negative -/
  lost : 0 ≤ out.lost

/-- what `solve` promises for `H P = q`, started from `P` -/
structure Solved (ds : List Nat) (H : List (Tensor K)) (q : List Nat → K) (P : List (Tensor K)) (out : Out K) : Prop where
  /-- the value returned is the squared distance of `H P` and `q` -/
  err : out.err = residual ds H q out.P0
  exact : out.err = 0 ↔ ∀ s, IsCfg ds s → actOp ds (opElt H) (amp out.P0) s = q s
  /-- no change of the last tensor brings `H P` closer to `q` -/
  best : ∀ Y : Tensor K, Y.dims = (site out.P0 (centreOf ds.length out.sense)).dims →
    residual ds H q out.P0 ≤ residual ds H q (out.P0.set (centreOf ds.length out.sense) Y)
  /-- if nothing has been truncated, never further than the initial guess, and the errors do not grow -/
  closer : out.lost = 0 → residual ds H q out.P0 ≤ residual ds H q P
  mono : out.lost = 0 → ∀ j, j + 1 < out.errs.length → out.errs.getD (j + 1) 0 ≤ out.errs.getD j 0

/-- what the two-site version of `solve` promises for `H P = q`, started from `P` -/
structure Solved2 (cgs : Cgs K) (ds : List Nat) (H : List (Tensor K)) (q : List Nat → K) (P : List (Tensor K)) (Dmax : Nat) (out : Out K) : Prop where
  /-- the value returned is the squared distance of `H e` and `q` for a vector `e` whose squared distance to the state is at most the weight dropped -/
  err : ∃ e : List Nat → K, out.err = sumCfg ds (fun s => ‖actOp ds (opElt H) e s - q s‖ ^ 2) ∧ sumCfg ds (fun s => ‖e s - amp out.P0 s‖ ^ 2) ≤ out.lost
  /-- if nothing has been dropped, it is the squared distance of `H P` and `q` -/
  same : out.lost = 0 → out.err = residual ds H q out.P0
  exact : out.lost = 0 → (out.err = 0 ↔ ∀ s, IsCfg ds s → actOp ds (opElt H) (amp out.P0) s = q s)
  /-- if the method of conjugate gradients converges, no change of the last two tensors, with any dimension of the bond between them, does better -/
  best : IdealCgs cgs → ∀ Z, WF 1 Z ds 1 →
    (∀ j, j ≠ centreOf ds.length out.sense - 1 → j ≠ centreOf ds.length out.sense - 1 + 1 → site Z j = site out.P0 j) → out.err ≤ residual ds H q Z
  /-- if the method of conjugate gradients never makes the guess worse, and nothing has been truncated: never further than the initial guess, and
  the errors do not grow -/
  closer : DescentCgs cgs → out.lost = 0 → residual ds H q out.P0 ≤ residual ds H q P
  mono : DescentCgs cgs → out.lost = 0 → ∀ j, j + 1 < out.errs.length → out.errs.getD (j + 1) 0 ≤ out.errs.getD j 0
  /-- `Dmax` bounds the bonds -/
  bond : 0 < Dmax → ∀ j, j + 1 < ds.length → (site out.P j).dim 2 ≤ Dmax

/-- the two canonical forms that prepare the data, of `Q` and of `H Q`, drop no singular values -/
def Lossless (svd : Tensor K → SvdRes K) (eps dflt : ℝ) (H Q : List (Tensor K)) : Prop :=
  (canonicalForm svd eps dflt Q (-1)).2 = 0 ∧
    ∀ HQ, applyMPO H (canonicalForm svd eps dflt Q (-1)).1 = some HQ → (canonicalForm svd eps dflt HQ (-1)).2 = 0

/-- the initial guess: `P`, or the canonical form of `Q` if `P` is empty -/
noncomputable def guess (svd : Tensor K → SvdRes K) (eps dflt : ℝ) (P Q : List (Tensor K)) : List (Tensor K) :=
  if P.length = 0 then (canonicalForm svd eps dflt Q (-1)).1 else P

end MPS.Solve
