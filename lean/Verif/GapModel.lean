import Verif.MinimizerModel

/-!
# Model of /repo/src/dmrg/minimizer.cc with the option `compute_gap`

The functions of `MinimizerModel.lean`, with the additional calls of `linalg::eigs` for two eigenvalues.  The numbers `E[0]`, `E[1]` of these calls
only reach the members `gap` and `constrained_gap` of the object `Minimizer`, which is a copy of the options of the caller
(/repo/src/dmrg/minimizer.cc:80, 99-100), and the debug output; they are left out, and only the flag `converged` is kept.
-/

namespace MPS.Minim
open MPS Tensor Form
variable {K : Type} [RCLike K]

/-- `eigs(A, n, SmallestAlgebraic, 2, &P, &converged)`: a linear function of vectors, their size and the initial vector give the flag
`converged`; `none` when the call fails, or the reading of `E[1]` -/
abbrev Eigs2 (K : Type) := (Tensor K → Tensor K) → Nat → Tensor K → Option Bool

/-- `single_site_step()`, /repo/src/dmrg/minimizer.cc:174-203.  The second call of `eigs` writes `converged` again (:182-187). -/
noncomputable def singleSiteStepG (svd : Tensor K → SvdRes K) (eps dflt : ℝ) (eigs : Eigs K) (eigs2 : Eigs2 K) (gap : Bool) (m : Minz K) :
    Option (Minz K × ℝ) :=
  (projectors m 0).bind fun vs =>
    let P := MPS.site m.psi m.site
    let d := P.dims
    if (m.H.applyOneSite P).isEmpty then none
    else
      let r := eigs (applyQform1 d m.H vs) P.size (reshape P [P.size])
      (if m.site = m.psi.length / 2 ∧ gap = true then eigs2 (applyQform1 d m.H vs) r.P.size r.P else some r.ok).bind fun ok =>
        if ok then
          let c := setCanonical svd eps dflt m.psi m.site (reshape r.P d) m.step false
          some (propagate { m with psi := c.1, converged := true, lost := c.2 }, RCLike.re r.E)
        else some ({ m with converged := false }, RCLike.re r.E)

/-- the loop of `single_site_sweep()` for `step > 0`, /repo/src/dmrg/minimizer.cc:207-211 -/
noncomputable def singleRightG (svd : Tensor K → SvdRes K) (eps dflt : ℝ) (eigs : Eigs K) (eigs2 : Eigs2 K) (gap : Bool) :
    Nat → Nat → Minz K → ℝ → Option (Minz K × ℝ)
  | 0, _, m, E => some (m, E)
  | fuel + 1, k, m, E =>
    if m.converged then (singleSiteStepG svd eps dflt eigs eigs2 gap { m with site := k }).bind fun r =>
      singleRightG svd eps dflt eigs eigs2 gap fuel (k + 1) r.1 r.2
    else some (m, E)

/-- the loop of `single_site_sweep()` for `step <= 0`, /repo/src/dmrg/minimizer.cc:212-218 -/
noncomputable def singleLeftG (svd : Tensor K → SvdRes K) (eps dflt : ℝ) (eigs : Eigs K) (eigs2 : Eigs2 K) (gap : Bool) :
    Nat → Minz K → ℝ → Option (Minz K × ℝ)
  | 0, m, E => some (m, E)
  | k + 1, m, E =>
    if m.converged then (singleSiteStepG svd eps dflt eigs eigs2 gap { m with site := k }).bind fun r =>
      singleLeftG svd eps dflt eigs eigs2 gap k r.1 r.2
    else some (m, E)

/-- `single_site_sweep()`, /repo/src/dmrg/minimizer.cc:205-221 -/
noncomputable def singleSweepG (svd : Tensor K → SvdRes K) (eps dflt : ℝ) (eigs : Eigs K) (eigs2 : Eigs2 K) (gap : Bool) (m : Minz K) :
    Option (Minz K × ℝ) :=
  (if m.step > 0 then singleRightG svd eps dflt eigs eigs2 gap m.psi.length 0 m 0
    else singleLeftG svd eps dflt eigs eigs2 gap m.psi.length m 0).map
    fun r => ({ r.1 with step := if m.step > 0 then -1 else 1 }, r.2)

/-- the eigenvalue problem of `two_site_step()`, /repo/src/dmrg/minimizer.cc:242-301.  The first call for the gap (:245-249) has no
argument `&converged`; the one in the subspace of the constraint (:281-286) writes `converged` again. -/
noncomputable def twoSiteSolveG (eigs : Eigs K) (eigs2 : Eigs2 K) (gap : Bool) (m : Minz K) (vs : List (Tensor K)) (P12 : Tensor K) :
    Option (Option (Tensor K × K × Bool)) :=
  let d := P12.dims
  (if m.site = m.psi.length / 2 ∧ gap = true then eigs2 (applyQform2 m.step d m.H vs) P12.size (reshape P12 [P12.size]) else some true).bind fun _ =>
  match m.N with
  | some (N, v) =>
    (N.twoDiag m.step).bind fun aux =>
      let sub := subspaceOf aux v
      if sub.length = 0 then some none
      else
        let r := eigs (applyQform2Sub m.step d m.H sub vs) sub.length (takeSub sub P12)
        (if m.site = m.psi.length / 2 ∧ gap = true then eigs2 (applyQform2Sub m.step d m.H sub vs) sub.length r.P else some r.ok).bind fun ok =>
          some (some (embedSub d sub r.P, r.E, ok))
  | none =>
    let r := eigs (applyQform2 m.step d m.H vs) P12.size (reshape P12 [P12.size])
    some (some (reshape r.P d, r.E, r.ok))

/-- `two_site_step()`, /repo/src/dmrg/minimizer.cc:223-314 -/
noncomputable def twoSiteStepG (svd : Tensor K → SvdRes K) (eps dflt : ℝ) (eigs : Eigs K) (eigs2 : Eigs2 K) (gap : Bool) (o : Opts) (m : Minz K) :
    Option (Minz K × ℝ) :=
  let P12 := if m.step > 0 then fold (MPS.site m.psi m.site) (-1) (MPS.site m.psi (m.site + 1)) 0
    else fold (MPS.site m.psi (m.site - 1)) (-1) (MPS.site m.psi m.site) 0
  (projectors m m.step).bind fun vs =>
    if ((m.H.applyTwoSite P12 m.step).getD Tensor.empty).isEmpty then none
    else (twoSiteSolveG eigs eigs2 gap m vs P12).bind fun s =>
      match s with
      | none => some ({ m with converged := false }, 0)
      | some (P12, E, ok) =>
        if ok then (setCanonical2 svd eps dflt m.psi P12 m.site m.step o.Dmax o.svdTolerance false).map fun c =>
          (propagate { m with psi := c.1, converged := true, lost := c.2.1 }, RCLike.re E)
        else some (propagate { m with converged := false }, RCLike.re E)

/-- the loop of `two_site_sweep()` for `step > 0`, /repo/src/dmrg/minimizer.cc:318-322 -/
noncomputable def twoRightG (svd : Tensor K → SvdRes K) (eps dflt : ℝ) (eigs : Eigs K) (eigs2 : Eigs2 K) (gap : Bool) (o : Opts) :
    Nat → Nat → Minz K → ℝ → Option (Minz K × ℝ)
  | 0, _, m, E => some (m, E)
  | fuel + 1, k, m, E =>
    if m.converged then (twoSiteStepG svd eps dflt eigs eigs2 gap o { m with site := k }).bind fun r =>
      twoRightG svd eps dflt eigs eigs2 gap o fuel (k + 1) r.1 r.2
    else some (m, E)

/-- the loop of `two_site_sweep()` for `step <= 0`, /repo/src/dmrg/minimizer.cc:323-327 -/
noncomputable def twoLeftG (svd : Tensor K → SvdRes K) (eps dflt : ℝ) (eigs : Eigs K) (eigs2 : Eigs2 K) (gap : Bool) (o : Opts) :
    Nat → Minz K → ℝ → Option (Minz K × ℝ)
  | 0, m, E => some (m, E)
  | k + 1, m, E =>
    if m.converged then (twoSiteStepG svd eps dflt eigs eigs2 gap o { m with site := k + 1 }).bind fun r =>
      twoLeftG svd eps dflt eigs eigs2 gap o k r.1 r.2
    else some (m, E)

/-- `two_site_sweep()`, /repo/src/dmrg/minimizer.cc:316-330 -/
noncomputable def twoSweepG (svd : Tensor K → SvdRes K) (eps dflt : ℝ) (eigs : Eigs K) (eigs2 : Eigs2 K) (gap : Bool) (o : Opts) (m : Minz K) :
    Option (Minz K × ℝ) :=
  if m.psi.length < 2 then none
  else
    (if m.step > 0 then twoRightG svd eps dflt eigs eigs2 gap o (m.psi.length - 1) 0 m 0
      else twoLeftG svd eps dflt eigs eigs2 gap o (m.psi.length - 1) m 0).map
      fun r => ({ r.1 with step := if m.step > 0 then -1 else 1 }, r.2)

/-- `full_sweep(&psi)`, /repo/src/dmrg/minimizer.cc:336-382 -/
noncomputable def fullSweepG (svd : Tensor K → SvdRes K) (eps dflt : ℝ) (eigs : Eigs K) (eigs2 : Eigs2 K) (gap : Bool) (o : Opts) (m : Minz K) :
    Option (Out K) :=
  sweepLoop (if o.Dmax = 0 then singleSweepG svd eps dflt eigs eigs2 gap else twoSweepG svd eps dflt eigs eigs2 gap o) o o.sweeps 0 0 (10 ^ 28) m []

/-- `minimize(H, &psi, opt)` with `opt.compute_gap = gap`, /repo/src/dmrg/minimizer_d.cc:37-41 -/
noncomputable def minimizeG (svd : Tensor K → SvdRes K) (eps dflt : ℝ) (eigs : Eigs K) (eigs2 : Eigs2 K) (gap : Bool) (H ψ : List (Tensor K)) (o : Opts) :
    Option (Out K) :=
  (Minz.new svd eps dflt H ψ).bind fun m => fullSweepG svd eps dflt eigs eigs2 gap o m

/-- `minimize(H, &psi, opt, constraint, value, other)` with `opt.compute_gap = gap`, /repo/src/dmrg/minimizer_d.cc:25-35 -/
noncomputable def minimizeConstrainedG (svd : Tensor K → SvdRes K) (eps dflt : ℝ) (eigs : Eigs K) (eigs2 : Eigs2 K) (gap : Bool)
    (H ψ : List (Tensor K)) (o : Opts) (constraint : List (Tensor K)) (value : K) (other : List (List (Tensor K))) : Option (Out K) :=
  (Minz.new svd eps dflt H ψ).bind fun m =>
    (QForm.new constraint m.psi m.psi 0).bind fun N =>
      fullSweepG svd eps dflt eigs eigs2 gap o
        { m with N := some (N, value), ortho := (other.map fun φ => LForm.new [1] [φ] m.psi 0).reverse }

end MPS.Minim
