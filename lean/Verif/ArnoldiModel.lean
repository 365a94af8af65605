import Verif.ObcModel
import Verif.MPOCanonModel
import Mathlib.Data.Complex.Basic

/-!
# Model of /repo/src/evolve/arnoldi.cc: `ArnoldiSolver(H, dt, nvectors).one_step(&psi, Dmax)`

Parameters of the model: the singular value decomposition (see `CanonModel`), `linalg::solve_with_svd` for a matrix of right-hand sides (`lin`),
`linalg::expm`, `linalg::eig`, and the flags: `single`, `tolerance` (see `ObcModel`), `inner` for `MPS_ARNOLDI_SIMPLIFY_INTERNAL_SWEEPS` and `final` for
`MPS_ARNOLDI_SIMPLIFY_FINAL_SWEEPS`.  The member `tolerance_` is zero in both constructors, so that the second half of the test at
/repo/src/evolve/arnoldi.cc:142-143 is never true and left out.  The number `scprod(RTensor(errors), square(abs(coef)))` which is added to the value
returned (line 223) is a scalar product of two vectors of different sizes; what the library makes of it is the parameter `extra`.  Debug output is left
out.  `none` = `abort()` or a failed assert.
-/

namespace MPS.Arnoldi
open MPS Tensor Form Minim Obc

/-- the variables `states`, `N`, `Heff`, `Hcurrent` and `errors`.  `lost` and `exact` are not part of the program: the total weight of the singular
values dropped by the canonical forms, and whether all the vectors of the basis are what they stand for (the error of `simplify_obc` was zero). -/
structure Basis where
  states : List (List (Tensor ℂ))
  N : Tensor ℂ
  Heff : Tensor ℂ
  Hcur : List (Tensor ℂ)
  errors : List ℝ
  lost : ℝ
  exact : Prop
  /-- the basis was closed before it had its full size -/
  closed : Bool

/-- `A(range(0,n-1), range(0,n-1))`, /repo/src/evolve/arnoldi.cc:148-149 -/
def block (n : Nat) (A : Tensor ℂ) : Tensor ℂ := ⟨[n, n], A.get⟩

/-- one pass of the loop over `n`, /repo/src/evolve/arnoldi.cc:163-168, for `ndx` -/
noncomputable def fill1 (states : List (List (Tensor ℂ))) (cur Hcur : List (Tensor ℂ)) (ndx : Nat) (x : Tensor ℂ × Tensor ℂ) (n : Nat) :
    Option (Tensor ℂ × Tensor ℂ) :=
  (scprod (states.getD n []) cur (-1)).bind fun a =>
    (scprod (states.getD n []) Hcur (-1)).map fun h =>
      (setAt (setAt x.1 [n, ndx] a) [ndx, n] (star a), setAt (setAt x.2 [n, ndx] h) [ndx, n] (star h))

/-- the new row and column of `N` and `Heff`, /repo/src/evolve/arnoldi.cc:162-171 -/
noncomputable def fill (states : List (List (Tensor ℂ))) (cur Hcur : List (Tensor ℂ)) (ndx : Nat) (N Heff : Tensor ℂ) : Option (Tensor ℂ × Tensor ℂ) :=
  ((List.range ndx).foldlM (fill1 states cur Hcur ndx) (N, Heff)).bind fun x =>
    (scprod cur Hcur (-1)).map fun h => (setAt x.1 [ndx, ndx] 1, setAt x.2 [ndx, ndx] ((RCLike.re h : ℝ) : ℂ))

/-- `MPS_DEFAULT_TOLERANCE`, /repo/src/tools/flags.cc -/
def defaultTol : ℝ := -4

/-- the loop `for (int ndx = 1; ndx < max_states_; ndx++)`, /repo/src/evolve/arnoldi.cc:93-172, with `todo` passes left -/
noncomputable def grow (svd : Tensor ℂ → SvdRes ℂ) (eps dflt : ℝ) (single : Bool) (tolerance : ℝ) (inner : Nat) (H : List (Tensor ℂ)) (Dmax : Nat) :
    Nat → Nat → Basis → Option Basis
  | 0, _, b => some b
  | todo + 1, ndx, b =>
    let vectors := if ndx > 1 then [b.Hcur, b.states.getD (ndx - 1) [], b.states.getD (ndx - 2) []] else [b.Hcur, b.states.getD (ndx - 1) []]
    let coeffs := if ndx > 1 then [1, -b.Heff.get [ndx - 1, ndx - 1], -b.Heff.get [ndx - 1, ndx - 2]] else [1, -b.Heff.get [ndx - 1, ndx - 1]]
    (simplifyObc svd eps dflt single tolerance b.Hcur coeffs vectors (-1) inner true (2 * Dmax) defaultTol).bind fun o =>
      let cur := if o.sense * (-1) < 0 then canonicalForm svd eps dflt o.P (-1) else (o.P, 0)
      if o.norm < 1 / 10 ^ 15 then some { b with N := block ndx b.N, Heff := block ndx b.Heff, closed := true }
      else
        (applyCanonical svd eps dflt H cur.1 (-1) true).bind fun h =>
          (fill b.states cur.1 h.1 ndx b.N b.Heff).bind fun x =>
            grow svd eps dflt single tolerance inner H Dmax todo (ndx + 1)
              ⟨b.states ++ [cur.1], x.1, x.2, h.1, b.errors ++ [o.err / o.norm], b.lost + cur.2 + h.2, b.exact ∧ o.err = 0, false⟩

/-- the basis, /repo/src/evolve/arnoldi.cc:75-172 -/
noncomputable def basis (svd : Tensor ℂ → SvdRes ℂ) (eps dflt : ℝ) (single : Bool) (tolerance : ℝ) (inner : Nat) (H : List (Tensor ℂ)) (nvectors : Nat)
    (psi : List (Tensor ℂ)) (Dmax : Nat) : Option Basis :=
  let Z : Tensor ℂ := zeros [nvectors, nvectors]
  (applyCanonical svd eps dflt H psi (-1) true).bind fun h =>
    let s := normalForm svd eps dflt psi (-1)
    (scprod psi h.1 (-1)).bind fun e =>
      grow svd eps dflt single tolerance inner H Dmax (nvectors - 1) 1
        ⟨[s.1], setAt Z [0, 0] 1, setAt Z [0, 0] ((RCLike.re e : ℝ) : ℂ), h.1, [], h.2 + s.2, True, false⟩

/-- the position of the smallest of `f 0 .. f (n-1)`: `sort_indices(...)[0]` (the first one, if there are several) -/
noncomputable def argmin (f : Nat → ℝ) (n : Nat) : Nat := (List.range n).foldl (fun b i => if f i < f b then i else b) 0

/-- `ground_state(Heff, N)`, /repo/src/evolve/arnoldi.cc:31-42; `eig A` = the eigenvalues of `A` and the matrix with its eigenvectors as columns -/
noncomputable def groundState (lin : Tensor ℂ → Tensor ℂ → Tensor ℂ) (eig : Tensor ℂ → Tensor ℂ × Tensor ℂ) (Heff N : Tensor ℂ) : Tensor ℂ :=
  let r := eig (lin N Heff)
  let k := argmin (fun i => RCLike.re (r.1.get [i])) (r.1.dim 0)
  ⟨[r.2.dim 0], fun I => r.2.get [I.getD 0 0, k]⟩

/-- the coefficients of the new state in the basis, /repo/src/evolve/arnoldi.cc:179-187 -/
noncomputable def coefficients (lin : Tensor ℂ → Tensor ℂ → Tensor ℂ) (expm : Tensor ℂ → Tensor ℂ) (eig : Tensor ℂ → Tensor ℂ × Tensor ℂ) (dt : ℂ)
    (Heff N : Tensor ℂ) : Tensor ℂ :=
  if ‖dt‖ = 0 then groundState lin eig Heff N
  else mmult (expm (smul (-Complex.I * dt) (lin N Heff))) (setAt (zeros [Heff.dim 0]) [0] 1)

/-- what `one_step` leaves behind: the value returned and the new state; the rest is not visible to the caller -/
structure Out where
  err : ℝ
  psi : List (Tensor ℂ)
  /-- the basis and the coefficients -/
  basis : Basis
  coef : List ℂ
  /-- the result of the last call of `simplify_obc` -/
  last : Obc.Out ℂ

/-- `ArnoldiSolver(H, dt, nvectors)` (/repo/src/evolve/arnoldi.cc:44-62; the first constructor makes the `CMPO` of a Hamiltonian, see `HamClasses`), and
`one_step(&psi, Dmax)`, /repo/src/evolve/arnoldi.cc:64-221.  The lines 210-215 change `current`, which is not used any more, instead of `psi`: no effect. -/
noncomputable def oneStep (svd : Tensor ℂ → SvdRes ℂ) (eps dflt : ℝ) (single : Bool) (tolerance : ℝ) (inner final : Nat)
    (lin : Tensor ℂ → Tensor ℂ → Tensor ℂ) (expm : Tensor ℂ → Tensor ℂ) (eig : Tensor ℂ → Tensor ℂ × Tensor ℂ) (extra : List ℝ → List ℂ → ℝ)
    (H : List (Tensor ℂ)) (dt : ℂ) (nvectors : Int) (psi : List (Tensor ℂ)) (Dmax : Nat) : Option Out :=
  if nvectors ≤ 0 ∨ nvectors ≥ 30 then none
  else
    (basis svd eps dflt single tolerance inner H nvectors.toNat psi Dmax).bind fun b =>
      let c := coefficients lin expm eig dt b.Heff b.N
      let coef := (List.range (c.dim 0)).map fun i => c.get [i]
      (simplifyObc svd eps dflt single tolerance psi coef b.states (-1) final true Dmax defaultTol).map fun o =>
        ⟨o.err + extra b.errors coef, o.P, b, coef, o⟩

end MPS.Arnoldi
