import Verif.ObcModel
import Verif.MPOModel

/-!
# Model of /repo/src/dmrg/inverse.cc: `solve(H, &P, Q, &sense, sweeps, normalize, Dmax, tol)`, which looks for `H P = Q`

The singular value decomposition is a parameter (see `CanonModel`), and so are `linalg::solve_with_svd` (`lin`) and
`linalg::cgs` (`cgs`).  `adj` is the function `adjoint` of the type of the operator (`adjointR` for `RMPO`, which returns its
argument, `adjointC` for `CMPO`).  The flags are parameters: `single` stands for
`FLAGS.get(MPS_SOLVE_ALGORITHM) == MPS_SINGLE_SITE_ALGORITHM`, `tolerance` for `FLAGS.get(MPS_SIMPLIFY_TOLERANCE)`, `solveTol` for
`FLAGS.get(MPS_SOLVE_TOLERANCE)`.  Debug output is left out.  `none` = `abort()`, failed assert, or an effective operator without
any term, which `QuadraticForm` returns as an empty tensor.
-/

namespace MPS.Solve
open MPS Tensor Form Minim
variable {K : Type} [RCLike K]

/-- the variables `P`, `lf`, `qf`, `s`, `Heff`, `vHQ` and `vP` of the program.  `lost` is not part of the program: the total weight
of the singular values dropped by the updates of `P`. -/
structure St (K : Type) where
  P : List (Tensor K)
  lf : LForm K
  qf : QForm K
  s : Sweeper
  Heff : Tensor K
  vHQ : Tensor K
  vP : Tensor K
  lost : ℝ

/-- `flatten(A)` -/
def flatten (A : Tensor K) : Tensor K := reshape A [A.size]

/-- one pass of the loop over the sites of the single-site algorithm, up to the test `--s`, /repo/src/dmrg/inverse.cc:97-109 -/
noncomputable def singleStep (svd : Tensor K → SvdRes K) (eps dflt : ℝ) (lin : Tensor K → Tensor K → Tensor K) (x : St K) : Option (St K) :=
  let k := x.s.k.toNat
  let Heff := x.qf.singleSiteMatrix
  if Heff.isEmpty then none
  else
    let vHQ := conj x.lf.singleSiteVector
    let vP := lin Heff (flatten vHQ)
    let c := setCanonical svd eps dflt x.P k (reshape vP vHQ.dims) x.s.dk true
    let newP := site c.1 k
    some ⟨c.1, x.lf.propagate newP x.s.dk, x.qf.propagate newP newP x.s.dk, x.s, Heff, vHQ, vP, x.lost + c.2⟩

/-- `do { ... } while (--s)`, /repo/src/dmrg/inverse.cc:96-110; `none` also = not finished after `fuel` steps -/
noncomputable def singleSweep (svd : Tensor K → SvdRes K) (eps dflt : ℝ) (lin : Tensor K → Tensor K → Tensor K) : Nat → St K → Option (St K)
  | 0, _ => none
  | fuel + 1, x =>
    (singleStep svd eps dflt lin x).bind fun y =>
      let r := y.s.dec
      if r.1 then singleSweep svd eps dflt lin fuel { y with s := r.2 } else some { y with s := r.2 }

/-- `s.flip(); normHP = real(scprod(vP, mmult(Heff, vP)))`, /repo/src/dmrg/inverse.cc:111-112 -/
noncomputable def singlePass (svd : Tensor K → SvdRes K) (eps dflt : ℝ) (lin : Tensor K → Tensor K → Tensor K) (fuel : Nat) (x : St K) :
    Option (St K × ℝ) :=
  (singleSweep svd eps dflt lin fuel x).map fun y =>
    ({ y with s := y.s.flip }, RCLike.re (tscprod y.vP (mmult y.Heff y.vP)))

/-- `cgs(map, b, &x, maxiter, tol)`, the conjugate gradient solver of the library `tensor` -/
abbrev Cgs (K : Type) := (Tensor K → Tensor K) → Tensor K → Tensor K → Nat → ℝ → Tensor K

/-- one pass of the loop of the two-site algorithm, without `--s`, /repo/src/dmrg/inverse.cc:120-133 -/
noncomputable def twoStep (svd : Tensor K → SvdRes K) (eps dflt : ℝ) (cgs : Cgs K) (Dmax : Nat) (tol : ℝ) (x : St K) : Option (St K) :=
  (x.lf.twoSiteVector x.s.dk).bind fun v =>
    let k := x.s.k.toNat
    let vHQ := conj v
    let vP := if x.s.dk > 0 then fold (site x.P k) (-1) (site x.P (k + 1)) 0 else fold (site x.P (k - 1)) (-1) (site x.P k) 0
    if ((x.qf.applyTwoSite vP x.s.dk).getD Tensor.empty).isEmpty then none
    else
      let vP := cgs (fun y => (x.qf.applyTwoSite y x.s.dk).getD Tensor.empty) vHQ vP (2 * vHQ.size) tol
      (setCanonical2 svd eps dflt x.P vP x.s.k x.s.dk Dmax tol true).map fun c =>
        let newP := site c.1 k
        ⟨c.1, x.lf.propagate newP x.s.dk, x.qf.propagate newP newP x.s.dk, x.s, x.Heff, vHQ, vP, x.lost + (c.2.1 + c.2.2)⟩

/-- `do { ...; --s; } while (!s.is_last())`, /repo/src/dmrg/inverse.cc:114-135 -/
noncomputable def twoSweep (svd : Tensor K → SvdRes K) (eps dflt : ℝ) (cgs : Cgs K) (Dmax : Nat) (tol : ℝ) : Nat → St K → Option (St K)
  | 0, _ => none
  | fuel + 1, x =>
    (twoStep svd eps dflt cgs Dmax tol x).bind fun y =>
      let z : St K := { y with s := y.s.dec.2 }
      if z.s.isLast then some z else twoSweep svd eps dflt cgs Dmax tol fuel z

/-- `s.flip(); normHP = real(scprod(vP, qf.apply_two_site_matrix(vP, s.sense())))`, /repo/src/dmrg/inverse.cc:136-137 -/
noncomputable def twoPass (svd : Tensor K → SvdRes K) (eps dflt : ℝ) (cgs : Cgs K) (Dmax : Nat) (tol : ℝ) (fuel : Nat) (x : St K) :
    Option (St K × ℝ) :=
  (twoSweep svd eps dflt cgs Dmax tol fuel x).bind fun y =>
    let z : St K := { y with s := y.s.flip }
    (z.qf.applyTwoSite z.vP z.s.dk).map fun w => (z, RCLike.re (tscprod z.vP w))

/-- what the function leaves behind; `errs` (the numbers `err` of all the sweeps), `lost` and `P0`, the state before it is
normalised, are not visible to the caller -/
structure Out (K : Type) where
  err : ℝ
  P : List (Tensor K)
  sense : Int
  errs : List ℝ
  lost : ℝ
  P0 : List (Tensor K)

/-- the lines after the loop, /repo/src/dmrg/inverse.cc:153-157 -/
noncomputable def finish (normalize : Bool) (x : St K) (err : ℝ) (errs : List ℝ) : Out K :=
  let k := x.s.k.toNat
  ⟨err, if normalize then x.P.set k (smul ((1 / frob (site x.P k) : ℝ) : K) (site x.P k)) else x.P, -x.s.dk, errs, x.lost, x.P⟩

/-- the loop `while (sweeps--) ...`, /repo/src/dmrg/inverse.cc:91-152, entered with `sweeps + 1` sweeps left; `err` is the error of the
sweep before -/
noncomputable def loop (pass : St K → Option (St K × ℝ)) (normalize : Bool) (tolerance normQ2 : ℝ) :
    Nat → ℝ → St K → List ℝ → Option (Out K)
  | sweeps, olderr, x, errs =>
    (pass x).bind fun r =>
      let err := r.2 + normQ2 - 2 * RCLike.re (tscprod r.1.vHQ r.1.vP)
      if olderr ≠ 0 ∧ (olderr - err < 1 / 10 ^ 5 * |olderr| ∨ err < tolerance) then some (finish normalize r.1 err (errs ++ [err]))
      else match sweeps with
        | 0 => some (finish normalize r.1 err (errs ++ [err]))
        | sweeps + 1 => loop pass normalize tolerance normQ2 sweeps err r.1 (errs ++ [err])

/-- `do_solve(H, ptrP, oQ, sense, sweeps, normalize, Dmax, tol)`, /repo/src/dmrg/inverse.cc:47-159; `sense` is the value `*sense`, `-1` for
a null pointer -/
noncomputable def solve (adj : List (Tensor K) → List (Tensor K)) (svd : Tensor K → SvdRes K) (eps dflt : ℝ)
    (lin : Tensor K → Tensor K → Tensor K) (cgs : Cgs K) (single : Bool) (tolerance solveTol : ℝ) (H P oQ : List (Tensor K)) (sense : Int)
    (sweeps : Nat) (normalize : Bool) (Dmax : Nat) (tol : ℝ) : Option (Out K) :=
  let tol := if tol ≤ 0 then solveTol else tol
  let Q := (canonicalForm svd eps dflt oQ (-1)).1
  let P := if P.length = 0 then Q else P
  if sweeps = 0 then none
  else
    let normQ2 := ‖tscprod (site Q 0) (site Q 0)‖
    if normQ2 < 1 / 10 ^ 16 then none
    else
      (Sweeper.new P.length (-sense)).bind fun s =>
        (applyMPO H Q).bind fun HQ =>
          let lf := LForm.new [1] [(canonicalForm svd eps dflt HQ (-1)).1] P s.k.toNat
          (mmultMPO (adj H) H).bind fun HH =>
            (QForm.new HH P P s.k.toNat).bind fun qf =>
              let pass := if single then singlePass svd eps dflt lin P.length else twoPass svd eps dflt cgs Dmax tol P.length
              loop pass normalize tolerance normQ2 (sweeps - 1) 0 ⟨P, lf, qf, s, Tensor.empty, Tensor.empty, Tensor.empty, 0⟩ []

end MPS.Solve
