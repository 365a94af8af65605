import Verif.FormModel
import Verif.CanonModel

/-!
# Model of /repo/src/dmrg/minimizer.cc: `minimize(H, &psi, opt, ...)`

`linalg::eigs(A, n, SmallestAlgebraic, 1, &P, &converged)` and `linalg::svd` of the library `tensor` are parameters.  Debug
output is left out, and `compute_gap` is assumed to be `false`.  `none` = `abort()` or failed assert.
-/

namespace MPS.Minim
open MPS Tensor Form
variable {K : Type} [RCLike K]

/-- what `eigs` gives back: the number `E[0]`, the vector stored in `P`, the flag `converged`, and the real parts of all the
eigenvalues; the last ones are not read by the minimiser, but by `DMRG` -/
structure EigRes (K : Type) where
  E : K
  P : Tensor K
  ok : Bool
  vals : List ℝ

/-- `eigs`: a linear function of vectors, their size, and the initial vector -/
abbrev Eigs (K : Type) := (Tensor K → Tensor K) → Nat → Tensor K → EigRes K

/-- `MinimizerOptions`, /repo/include/mps/minimizer.h:29-49 -/
structure Opts where
  sweeps : Nat
  tolerance : ℝ
  svdTolerance : ℝ
  allowGrowth : Int
  Dmax : Nat

/-- the object `Minimizer`, /repo/src/dmrg/minimizer.cc:79-109; `N` is the pair `Nqform`, `Nvalue`.  `lost` is not part of
the program: the weight of the singular values dropped by the last update of `psi`. -/
structure Minz (K : Type) where
  psi : List (Tensor K)
  H : QForm K
  N : Option (QForm K × K)
  ortho : List (LForm K)
  site : Nat
  step : Int
  converged : Bool
  lost : ℝ

/-- `scprod(a, b)` of two tensors of the same size -/
def tscprod (a b : Tensor K) : K := ∑ n ∈ Finset.range b.size, star (a.lin n) * b.lin n

/-- `Psi - scprod(v, Psi) * v`, /repo/src/dmrg/minimizer.cc:37 -/
def orthoStep (Ψ v : Tensor K) : Tensor K :=
  ⟨Ψ.dims, fun i => Ψ.get i - tscprod v Ψ * v.lin (flat Ψ.dims i)⟩

/-- `orthogonalize(Psi, ortho)`, /repo/src/dmrg/minimizer.cc:30-41 -/
def orthogonalize (Ψ : Tensor K) (vs : List (Tensor K)) : Tensor K := vs.foldl orthoStep Ψ

/-- `apply_qform1(P, d, qform, ortho)`, /repo/src/dmrg/minimizer.cc:43-50 -/
def applyQform1 (d : List Nat) (H : QForm K) (vs : List (Tensor K)) (P : Tensor K) : Tensor K :=
  reshape (orthogonalize (H.applyOneSite (orthogonalize (reshape P d) vs)) vs) [P.size]

/-- `apply_qform2(P, sense, d, qform, ortho)`, /repo/src/dmrg/minimizer.cc:69-77 -/
def applyQform2 (sense : Int) (d : List Nat) (H : QForm K) (vs : List (Tensor K)) (P : Tensor K) : Tensor K :=
  let v := (H.applyTwoSite (orthogonalize (reshape P d) vs) sense).getD Tensor.empty
  orthogonalize (reshape v [v.size]) vs

/-- `P12.fill_with_zeros(); P12.at(range(subspace)) = P`, /repo/src/dmrg/minimizer.cc:62-63, 292-293 -/
def embedSub (d : List Nat) (sub : List Nat) (P : Tensor K) : Tensor K :=
  ⟨d, fun i => ∑ j ∈ Finset.range sub.length, if sub.getD j 0 = flat d i then P.lin j else 0⟩

/-- `P12(range(subspace))`, /repo/src/dmrg/minimizer.cc:66, 275 -/
def takeSub (sub : List Nat) (P : Tensor K) : Tensor K := ⟨[sub.length], fun i => P.lin (sub.getD (i.getD 0 0) 0)⟩

/-- `apply_qform2_with_subspace`, /repo/src/dmrg/minimizer.cc:52-67 -/
def applyQform2Sub (sense : Int) (d : List Nat) (H : QForm K) (sub : List Nat) (vs : List (Tensor K)) (P : Tensor K) : Tensor K :=
  let v := (H.applyTwoSite (orthogonalize (embedSub d sub P) vs) sense).getD Tensor.empty
  takeSub sub (orthogonalize v vs)

/-- one of the projectors, `other / sqrt(norm2(other))`, /repo/src/dmrg/minimizer.cc:145-147; `none` = failed assert.  (A
vanishing vector makes the program divide by zero; here the quotient is zero.) -/
noncomputable def projector (f : LForm K) (sense : Int) : Option (Tensor K) :=
  (if sense ≠ 0 then f.twoSiteVector sense else some f.singleSiteVector).map fun other =>
    smul ((1 / Real.sqrt (frob other) : ℝ) : K) other

/-- `orthogonal_projectors(site, sense)`, /repo/src/dmrg/minimizer.cc:134-150 -/
noncomputable def projectors (m : Minz K) (sense : Int) : Option (List (Tensor K)) :=
  if m.ortho.all fun f => f.here == m.site then (m.ortho.mapM fun f => projector f sense).map List.reverse else none

/-- `propagate(P, site, step)`, /repo/src/dmrg/minimizer.cc:152-165 -/
def propagate (m : Minz K) : Minz K :=
  let P := MPS.site m.psi m.site
  { m with
    H := m.H.propagate P P m.step
    N := m.N.map fun q => (q.1.propagate P P m.step, q.2)
    ortho := m.ortho.map fun f => f.propagate P m.step }

/-- `single_site_step()`, /repo/src/dmrg/minimizer.cc:174-203.  An empty result of `apply_one_site_matrix` makes the
`reshape` in `apply_qform1` fail. -/
noncomputable def singleSiteStep (svd : Tensor K → SvdRes K) (eps dflt : ℝ) (eigs : Eigs K) (m : Minz K) : Option (Minz K × ℝ) :=
  (projectors m 0).bind fun vs =>
    let P := MPS.site m.psi m.site
    let d := P.dims
    if (m.H.applyOneSite P).isEmpty then none
    else
      let r := eigs (applyQform1 d m.H vs) P.size (reshape P [P.size])
      if r.ok then
        let c := setCanonical svd eps dflt m.psi m.site (reshape r.P d) m.step false
        some (propagate { m with psi := c.1, converged := true, lost := c.2 }, RCLike.re r.E)
      else some ({ m with converged := false }, RCLike.re r.E)

/-- the loop of `single_site_sweep()` for `step > 0`, /repo/src/dmrg/minimizer.cc:207-211 -/
noncomputable def singleRight (svd : Tensor K → SvdRes K) (eps dflt : ℝ) (eigs : Eigs K) :
    Nat → Nat → Minz K → ℝ → Option (Minz K × ℝ)
  | 0, _, m, E => some (m, E)
  | fuel + 1, k, m, E =>
    if m.converged then (singleSiteStep svd eps dflt eigs { m with site := k }).bind fun r =>
      singleRight svd eps dflt eigs fuel (k + 1) r.1 r.2
    else some (m, E)

/-- the loop of `single_site_sweep()` for `step <= 0`, /repo/src/dmrg/minimizer.cc:212-218; the first argument is the value
of `site` before it is decremented -/
noncomputable def singleLeft (svd : Tensor K → SvdRes K) (eps dflt : ℝ) (eigs : Eigs K) : Nat → Minz K → ℝ → Option (Minz K × ℝ)
  | 0, m, E => some (m, E)
  | k + 1, m, E =>
    if m.converged then (singleSiteStep svd eps dflt eigs { m with site := k }).bind fun r =>
      singleLeft svd eps dflt eigs k r.1 r.2
    else some (m, E)

/-- `single_site_sweep()`, /repo/src/dmrg/minimizer.cc:205-221 -/
noncomputable def singleSweep (svd : Tensor K → SvdRes K) (eps dflt : ℝ) (eigs : Eigs K) (m : Minz K) : Option (Minz K × ℝ) :=
  (if m.step > 0 then singleRight svd eps dflt eigs m.psi.length 0 m 0 else singleLeft svd eps dflt eigs m.psi.length m 0).map
    fun r => ({ r.1 with step := if m.step > 0 then -1 else 1 }, r.2)

/-- `Ntol`, /repo/src/dmrg/minimizer.cc:105 -/
noncomputable def Ntol : ℝ := 1 / 10 ^ 6

/-- `which(abs(aux - Nvalue) < Ntol)`, /repo/src/dmrg/minimizer.cc:258-259 -/
noncomputable def subspaceOf (aux : Tensor K) (v : K) : List Nat :=
  open Classical in (List.range aux.size).filter fun n => ‖aux.lin n - v‖ < Ntol

/-- the eigenvalue problem of `two_site_step()` on the pair tensor `P12`, /repo/src/dmrg/minimizer.cc:255-301: the new tensor,
the energy and the flag.  `none` inside: no basis vector satisfies the constraint. -/
noncomputable def twoSiteSolve (eigs : Eigs K) (m : Minz K) (vs : List (Tensor K)) (P12 : Tensor K) :
    Option (Option (Tensor K × K × Bool)) :=
  let d := P12.dims
  match m.N with
  | some (N, v) =>
    (N.twoDiag m.step).map fun aux =>
      let sub := subspaceOf aux v
      if sub.length = 0 then none
      else
        let r := eigs (applyQform2Sub m.step d m.H sub vs) sub.length (takeSub sub P12)
        some (embedSub d sub r.P, r.E, r.ok)
  | none =>
    let r := eigs (applyQform2 m.step d m.H vs) P12.size (reshape P12 [P12.size])
    some (some (reshape r.P d, r.E, r.ok))

/-- `two_site_step()`, /repo/src/dmrg/minimizer.cc:223-314 -/
noncomputable def twoSiteStep (svd : Tensor K → SvdRes K) (eps dflt : ℝ) (eigs : Eigs K) (o : Opts) (m : Minz K) :
    Option (Minz K × ℝ) :=
  let P12 := if m.step > 0 then fold (MPS.site m.psi m.site) (-1) (MPS.site m.psi (m.site + 1)) 0
    else fold (MPS.site m.psi (m.site - 1)) (-1) (MPS.site m.psi m.site) 0
  (projectors m m.step).bind fun vs =>
    if ((m.H.applyTwoSite P12 m.step).getD Tensor.empty).isEmpty then none
    else (twoSiteSolve eigs m vs P12).bind fun s =>
      match s with
      | none => some ({ m with converged := false }, 0)
      | some (P12, E, ok) =>
        if ok then (setCanonical2 svd eps dflt m.psi P12 m.site m.step o.Dmax o.svdTolerance false).map fun c =>
          (propagate { m with psi := c.1, converged := true, lost := c.2.1 }, RCLike.re E)
        else some (propagate { m with converged := false }, RCLike.re E)

/-- the loop of `two_site_sweep()` for `step > 0`, /repo/src/dmrg/minimizer.cc:318-322 -/
noncomputable def twoRight (svd : Tensor K → SvdRes K) (eps dflt : ℝ) (eigs : Eigs K) (o : Opts) :
    Nat → Nat → Minz K → ℝ → Option (Minz K × ℝ)
  | 0, _, m, E => some (m, E)
  | fuel + 1, k, m, E =>
    if m.converged then (twoSiteStep svd eps dflt eigs o { m with site := k }).bind fun r =>
      twoRight svd eps dflt eigs o fuel (k + 1) r.1 r.2
    else some (m, E)

/-- the loop of `two_site_sweep()` for `step <= 0`, /repo/src/dmrg/minimizer.cc:323-327; the first argument is `site` -/
noncomputable def twoLeft (svd : Tensor K → SvdRes K) (eps dflt : ℝ) (eigs : Eigs K) (o : Opts) : Nat → Minz K → ℝ → Option (Minz K × ℝ)
  | 0, m, E => some (m, E)
  | k + 1, m, E =>
    if m.converged then (twoSiteStep svd eps dflt eigs o { m with site := k + 1 }).bind fun r =>
      twoLeft svd eps dflt eigs o k r.1 r.2
    else some (m, E)

/-- `two_site_sweep()`, /repo/src/dmrg/minimizer.cc:316-330.  With less than two sites the program returns a number which was
never set; this is `none`. -/
noncomputable def twoSweep (svd : Tensor K → SvdRes K) (eps dflt : ℝ) (eigs : Eigs K) (o : Opts) (m : Minz K) : Option (Minz K × ℝ) :=
  if m.psi.length < 2 then none
  else
    (if m.step > 0 then twoRight svd eps dflt eigs o (m.psi.length - 1) 0 m 0 else twoLeft svd eps dflt eigs o (m.psi.length - 1) m 0).map
      fun r => ({ r.1 with step := if m.step > 0 then -1 else 1 }, r.2)

/-- what `full_sweep` leaves behind.  `energies` (the numbers `newE` of all the sweeps that were run), `lost` and `converged`
are not visible to the caller. -/
structure Out (K : Type) where
  E : ℝ
  psi : List (Tensor K)
  energies : List ℝ
  lost : ℝ
  converged : Bool

/-- the loop of `full_sweep`, /repo/src/dmrg/minimizer.cc:345-379; the first argument is the number of iterations left,
`es` the energies so far -/
noncomputable def sweepLoop (sweep : Minz K → Option (Minz K × ℝ)) (o : Opts) :
    Nat → Nat → Int → ℝ → Minz K → List ℝ → Option (Out K)
  | 0, _, _, E, m, es => some ⟨E, m.psi, es, m.lost, true⟩
  | fuel + 1, i, failures, E, m, es =>
    (sweep m).bind fun r =>
      open Classical in
      let m := r.1
      let newE := r.2
      let es := es ++ [newE]
      if m.converged = false then some ⟨E, [], es, m.lost, false⟩
      else if i ≠ 0 ∧ |newE - E| < o.tolerance then some ⟨newE, m.psi, es, m.lost, true⟩
      else if i ≠ 0 ∧ newE - E > 1 / 10 ^ 14 * |newE| then
        if failures ≥ o.allowGrowth then some ⟨newE, m.psi, es, m.lost, true⟩
        else sweepLoop sweep o fuel (i + 1) (failures + 1) newE m es
      else sweepLoop sweep o fuel (i + 1) failures newE m es

/-- `full_sweep(&psi)`, /repo/src/dmrg/minimizer.cc:336-382 -/
noncomputable def fullSweep (svd : Tensor K → SvdRes K) (eps dflt : ℝ) (eigs : Eigs K) (o : Opts) (m : Minz K) : Option (Out K) :=
  sweepLoop (if o.Dmax = 0 then singleSweep svd eps dflt eigs else twoSweep svd eps dflt eigs o) o o.sweeps 0 0 (10 ^ 28) m []

open Classical in
/-- constructor of `Minimizer`, /repo/src/dmrg/minimizer.cc:99-109 -/
noncomputable def Minz.new (svd : Tensor K → SvdRes K) (eps dflt : ℝ) (H ψ : List (Tensor K)) : Option (Minz K) :=
  let c := canonicalForm svd eps dflt ψ (-1)
  (QForm.new H c.1 c.1 0).map fun f => ⟨c.1, f, none, [], 0, 1, true, c.2⟩

/-- `minimize(H, &psi, opt)`, /repo/src/dmrg/minimizer_d.cc:37-41 -/
noncomputable def minimize (svd : Tensor K → SvdRes K) (eps dflt : ℝ) (eigs : Eigs K) (H ψ : List (Tensor K)) (o : Opts) :
    Option (Out K) :=
  (Minz.new svd eps dflt H ψ).bind fun m => fullSweep svd eps dflt eigs o m

open Classical in
/-- `minimize(H, &psi, opt, constraint, value, other)`, /repo/src/dmrg/minimizer_d.cc:25-35, with `add_constraint` and
`add_states`, /repo/src/dmrg/minimizer.cc:124-132, 167-172 -/
noncomputable def minimizeConstrained (svd : Tensor K → SvdRes K) (eps dflt : ℝ) (eigs : Eigs K) (H ψ : List (Tensor K)) (o : Opts)
    (constraint : List (Tensor K)) (value : K) (other : List (List (Tensor K))) : Option (Out K) :=
  (Minz.new svd eps dflt H ψ).bind fun m =>
    (QForm.new constraint m.psi m.psi 0).bind fun N =>
      fullSweep svd eps dflt eigs o
        { m with N := some (N, value), ortho := (other.map fun φ => LForm.new [1] [φ] m.psi 0).reverse }

end MPS.Minim
