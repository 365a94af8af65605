import Verif.HamModel
import Verif.CanonModel

/-!
# Model of the Trotter solvers: /repo/src/evolve/trotter_unitary.cc, solver_trotter2.cc, solver_trotter3.cc,
solver_trotter4.cc

`expm` (`linalg::expm` of the library `tensor`) and `svd` are parameters; `eps` is `DBL_EPSILON`, `dflt` the flag
`MPS_TRUNCATION_TOLERANCE`.  Debug output and timing are left out.
-/

namespace MPS.Trotter
open MPS Tensor

/-- the object `TrotterSolver::Unitary`, /repo/include/mps/time_evolve.h:85-107 -/
structure Unitary where
  k0 : Int
  kN : Int
  U : List (Tensor ℂ)

/-- `kN` after /repo/src/evolve/trotter_unitary.cc:52-59 -/
def layerEnd (k : Int) (L : Nat) : Int :=
  let kN : Int := L
  let kN := if k % 2 ≠ kN % 2 then kN - 1 else kN
  if kN - k < 2 then k else kN

/-- the generator `Hi` computed in the loop and the step `di`, /repo/src/evolve/trotter_unitary.cc:64-77 -/
noncomputable def generator (H : Ham ℂ) (k0 kN : Int) (i : Nat) : Tensor ℂ × Nat :=
  if (i : Int) < k0 ∨ (i : Int) ≥ kN then (smul (1 / 2) (H.loc i), 1)
  else
    let i1 := eye (H.dim i)
    let i2 := eye (H.dim (i + 1))
    (add (add (H.inter i) (kron2 (smul (1 / 2) (H.loc i)) i2)) (kron2 i1 (smul (1 / 2) (H.loc (i + 1)))), 2)

/-- `dt = to_complex(-abs(imag(dt)), -real(dt))`, /repo/src/evolve/trotter_unitary.cc:61 -/
noncomputable def rotated (dt : ℂ) : ℂ := ⟨-|dt.im|, -dt.re⟩

/-- the loop `for (i = 0; i < H.size(); i += di)`, /repo/src/evolve/trotter_unitary.cc:62-79; `fuel` bounds the number of
iterations -/
noncomputable def unitaryLoop (expm : Tensor ℂ → Tensor ℂ) (H : Ham ℂ) (k0 kN : Int) (dt : ℂ) :
    Nat → Nat → List (Tensor ℂ) → List (Tensor ℂ)
  | 0, _, U => U
  | fuel + 1, i, U =>
    if i < H.size then
      let g := generator H k0 kN i
      unitaryLoop expm H k0 kN dt fuel (i + g.2) (U.set i (expm (smul dt g.1)))
    else U

/-- `Unitary::Unitary(H, k, dt)`, /repo/src/evolve/trotter_unitary.cc:28-84; `none` = `abort()` -/
noncomputable def mkUnitary (expm : Tensor ℂ → Tensor ℂ) (H : Ham ℂ) (k : Int) (dt : ℂ) : Option Unitary :=
  if k > 1 then none
  else
    let kN := layerEnd k H.size
    let dt := rotated dt
    some ⟨k, kN, unitaryLoop expm H k kN dt H.size 0 (List.replicate H.size Tensor.empty)⟩

/-- state of an evolution: the MPS, the error accumulated by the program, and (not computed by the program) the weight
of the singular values which were dropped without being added to that error, as happens in `set_canonical` -/
structure Evo where
  P : List (Tensor ℂ)
  err : ℝ
  hidden : ℝ

/-- `apply_onto_one_site`, /repo/src/evolve/trotter_unitary.cc:86-101 -/
noncomputable def applyOne (svd : Tensor ℂ → SvdRes ℂ) (eps dflt : ℝ) (x : Evo) (U : Tensor ℂ) (k : Nat) (dk : Int)
    (maxA2 : Nat) : Evo :=
  let P1 := site x.P k
  let P1 := if U.isEmpty then P1 else foldin U (-1) P1 1
  if maxA2 ≠ 0 then
    let r := setCanonical svd eps dflt x.P k P1 dk true
    ⟨r.1, x.err, x.hidden + r.2⟩
  else ⟨x.P.set k P1, x.err, x.hidden⟩

/-- `apply_onto_two_sites`, /repo/src/evolve/trotter_unitary.cc:103-177, on the sites `k1 = k` and `k2 = k + 1` -/
noncomputable def applyTwo (svd : Tensor ℂ → SvdRes ℂ) (eps dflt : ℝ) (x : Evo) (U12 : Tensor ℂ) (k : Nat) (dk : Int)
    (tol : ℝ) (maxA2 : Nat) : Evo :=
  let P1 := site x.P k
  let a1 := P1.dim 0
  let i1 := P1.dim 1
  let P2 := site x.P (k + 1)
  let i2 := P2.dim 1
  let a3 := P2.dim 2
  let T := reshape (fold P1 (-1) P2 0) [a1, i1 * i2, a3]
  let T := if U12.isEmpty then T else foldin U12 (-1) T 1
  let res := svd (reshape T [a1 * i1, i2 * a3])
  let P2 := if dk > 0 then scale res.V 0 (vecOf res.s) else res.V
  let P1 := if dk > 0 then res.U else scale res.U (-1) (vecOf res.s)
  let a2 := res.s.length
  let newA2 := whereToTruncate eps dflt res.s tol (if maxA2 ≠ 0 then maxA2 else a2 : Nat)
  let P1 := if newA2 ≠ a2 then changeDim P1 (-1) newA2 else P1
  let P2 := if newA2 ≠ a2 then changeDim P2 0 newA2 else P2
  let err := if newA2 ≠ a2 then cumulated res.s newA2 else 0
  let B1 := reshape P1 [a1, i1, newA2]
  let B2 := reshape P2 [newA2, i2, a3]
  if maxA2 ≠ 0 then
    if dk > 0 then
      let r := setCanonical svd eps dflt (x.P.set k B1) (k + 1) B2 dk true
      ⟨r.1, x.err + err, x.hidden + r.2⟩
    else
      let r := setCanonical svd eps dflt (x.P.set (k + 1) B2) k B1 dk true
      ⟨r.1, x.err + err, x.hidden + r.2⟩
  else ⟨(x.P.set k B1).set (k + 1) B2, x.err + err, x.hidden⟩

/-- a loop `for (k = a; k < b; k += step) body(k)`, /repo/src/evolve/trotter_unitary.cc:217-225; `fuel` bounds the number of iterations -/
def loopUp (b step : Int) (body : Nat → Evo → Evo) : Nat → Int → Evo → Evo
  | 0, _, x => x
  | fuel + 1, k, x => if k < b then loopUp b step body fuel (k + step) (body k.toNat x) else x

/-- a loop `for (k = a; k >= b; k -= step) body(k)`, /repo/src/evolve/trotter_unitary.cc:227-235 -/
def loopDown (b step : Int) (body : Nat → Evo → Evo) : Nat → Int → Evo → Evo
  | 0, _, x => x
  | fuel + 1, k, x => if k ≥ b then loopDown b step body fuel (k - step) (body k.toNat x) else x

/-- `Unitary::apply`, /repo/src/evolve/trotter_unitary.cc:204-247: the new state and the new value of `*sense` -/
noncomputable def apply (svd : Tensor ℂ → SvdRes ℂ) (eps dflt : ℝ) (W : Unitary) (x : Evo) (sense : Int) (tol : ℝ)
    (Dmax : Nat) (normalize : Bool) : Evo × Int :=
  let sense := if sense = 0 then 1 else sense
  let L := x.P.length
  let one := fun k x => applyOne svd eps dflt x (site W.U k) k sense Dmax
  let two := fun k x => applyTwo svd eps dflt x (site W.U k) k sense tol Dmax
  let x :=
    if sense > 0 then
      let x := loopUp W.k0 1 one (L + 1) 0 x
      let x := loopUp W.kN 2 two (L + 1) W.k0 x
      loopUp L 1 one (L + 1) W.kN x
    else
      let x := loopDown W.kN 1 one (L + 1) (L - 1) x
      let x := loopDown W.k0 2 two (L + 1) (W.kN - 2) x
      loopDown 0 1 one (L + 1) (W.k0 - 1) x
  let x := if normalize then
      let r := normalForm svd eps dflt x.P sense
      ⟨r.1, x.err, x.hidden + r.2⟩
    else x
  (x, -sense)

/-- `Unitary::apply_and_simplify`, /repo/src/evolve/trotter_unitary.cc:179-202.  `simplifyObc P sense sweeps normalize
Dmax` stands for `simplify_obc(&P', P, &sense, sweeps, normalize, Dmax)`, new state and value returned. -/
noncomputable def applyAndSimplify (svd : Tensor ℂ → SvdRes ℂ) (eps dflt : ℝ)
    (simplifyObc : List (Tensor ℂ) → Int → Nat → Bool → Nat → List (Tensor ℂ) × ℝ) (W : Unitary) (x : Evo) (tol : ℝ)
    (Dmax : Nat) (normalize : Bool) : Evo × Int :=
  let r := apply svd eps dflt W ⟨x.P, 0, x.hidden⟩ 1 tol 0 false
  let c := canonicalForm svd eps dflt r.1.P (-1)
  if largestBond c.1 > Dmax then
    let z := simplifyObc c.1 (-1) 12 normalize Dmax
    (⟨z.1, x.err + (r.1.err + z.2), r.1.hidden + c.2⟩, r.2)
  else (⟨c.1, x.err + r.1.err, r.1.hidden + c.2⟩, r.2)

/-- `strategy`, /repo/include/mps/time_evolve.h:56-61 -/
inductive Strategy
  | groups | eachLayer | eachUnitary | doNotTruncate
  deriving DecidableEq

/-- one call of `Unitary::apply` (`simplify = false`) or `Unitary::apply_and_simplify` in the body of a `one_step`:
which of the unitaries of the solver, the tolerance, the maximal dimension and the flag `normalize` handed over, and
whether the value returned is part of the value returned by `one_step` -/
structure Call where
  which : Nat
  simplify : Bool
  tol : ℝ
  D : Nat
  normalize : Bool
  counted : Bool

/-- a Trotter solver: the arguments `(k, factor)` of its unitaries (`Unitary(H, k, dt * factor)`) and the calls made by
`one_step` -/
structure Solver where
  layers : List (Int × ℂ)
  calls : Strategy → Bool → Nat → List Call

/-- `MPS_DEFAULT_TOLERANCE`, /repo/src/tools/flags.cc -/
def defaultTol : ℝ := -4

/-- `Trotter2Solver`, /repo/src/evolve/solver_trotter2.cc:32-85; unitaries: 0 = `Ueven`, 1 = `Uodd` -/
noncomputable def trotter2 (eps : ℝ) : Solver where
  layers := [(0, 1), (1, 1)]
  calls strategy normalize Dmax := match strategy with
    | .eachUnitary => [⟨0, false, defaultTol, Dmax, false, true⟩, ⟨1, false, defaultTol, Dmax, normalize, true⟩]
    | .eachLayer => [⟨0, true, eps, Dmax, false, true⟩, ⟨1, true, eps, Dmax, normalize, true⟩]
    | .doNotTruncate => [⟨0, false, eps, 0, false, false⟩, ⟨1, false, eps, 0, false, false⟩]
    | .groups => [⟨0, false, eps, 0, false, false⟩, ⟨1, true, eps, Dmax, normalize, true⟩]

/-- `Trotter3Solver`, /repo/src/evolve/solver_trotter3.cc:30-93; unitaries: 0 = `U1`, 1 = `U2` -/
noncomputable def trotter3 (eps : ℝ) : Solver where
  layers := [(1, 1), (0, 1 / 2)]
  calls strategy normalize Dmax := match strategy with
    | .eachUnitary => [⟨1, false, defaultTol, Dmax, false, true⟩, ⟨0, false, defaultTol, Dmax, false, true⟩,
        ⟨1, false, defaultTol, Dmax, normalize, true⟩]
    | .eachLayer => [⟨1, true, eps, Dmax, false, true⟩, ⟨0, true, eps, Dmax, false, true⟩,
        ⟨1, true, eps, Dmax, normalize, true⟩]
    | .doNotTruncate => [⟨1, false, eps, 0, false, false⟩, ⟨0, false, eps, 0, false, false⟩,
        ⟨1, false, eps, 0, normalize, false⟩]
    | .groups => [⟨1, false, eps, 0, false, false⟩, ⟨0, false, eps, 0, false, false⟩,
        ⟨1, true, eps, Dmax, normalize, true⟩]

/-- `FR_param`, /repo/src/evolve/solver_trotter4.cc:30-31 -/
noncomputable def frParam : Nat → ℂ
  | 0 => 0.67560359597983
  | 1 => 1.35120719195966
  | 2 => -0.17560359597983
  | 3 => -1.70241438391932
  | _ => 0

/-- `ForestRuthSolver`, /repo/src/evolve/solver_trotter4.cc:33-126; unitaries: 0 = `U1`, ..., 3 = `U4`.  The members
`normalize` and `sweeps` are declared again in the derived class (/repo/include/mps/time_evolve.h:148-152), where they are
not initialised: here `normalize` is whatever value the member has. -/
noncomputable def forestRuth : Solver where
  layers := [(0, frParam 0), (1, frParam 1), (0, frParam 2), (1, frParam 3)]
  calls strategy normalize Dmax := match strategy with
    | .eachUnitary => [⟨0, false, defaultTol, Dmax, false, true⟩, ⟨1, false, defaultTol, Dmax, false, true⟩,
        ⟨2, false, defaultTol, Dmax, false, true⟩, ⟨3, false, defaultTol, Dmax, false, true⟩,
        ⟨2, false, defaultTol, Dmax, false, true⟩, ⟨1, false, defaultTol, Dmax, false, true⟩,
        ⟨0, false, defaultTol, Dmax, normalize, true⟩]
    | .doNotTruncate => [⟨0, false, defaultTol, 0, false, true⟩, ⟨1, false, defaultTol, 0, false, true⟩,
        ⟨2, false, defaultTol, 0, false, true⟩, ⟨3, false, defaultTol, 0, false, true⟩,
        ⟨2, false, defaultTol, 0, false, true⟩, ⟨1, false, defaultTol, 0, false, true⟩,
        ⟨0, false, defaultTol, 0, normalize, true⟩]
    | .eachLayer => [⟨0, true, defaultTol, Dmax, false, true⟩, ⟨1, true, defaultTol, Dmax, false, true⟩,
        ⟨2, true, defaultTol, Dmax, false, true⟩, ⟨3, true, defaultTol, Dmax, false, true⟩,
        ⟨2, true, defaultTol, Dmax, false, true⟩, ⟨1, true, defaultTol, 0, false, true⟩,
        ⟨0, true, defaultTol, 0, normalize, true⟩]
    | .groups => [⟨0, false, defaultTol, 0, false, true⟩, ⟨1, true, defaultTol, Dmax, false, true⟩,
        ⟨2, false, defaultTol, 0, false, true⟩, ⟨3, false, defaultTol, 0, false, true⟩,
        ⟨2, true, defaultTol, Dmax, false, true⟩, ⟨1, false, defaultTol, 0, false, true⟩,
        ⟨0, true, defaultTol, Dmax, normalize, true⟩]

/-- one of the calls of a `one_step`; the `err` field of the state is the value to be returned; an error which is not part
of it goes to `hidden` -/
noncomputable def runCall (svd : Tensor ℂ → SvdRes ℂ) (eps dflt : ℝ)
    (simplifyObc : List (Tensor ℂ) → Int → Nat → Bool → Nat → List (Tensor ℂ) × ℝ) (U : List Unitary)
    (x : Evo × Int) (c : Call) : Evo × Int :=
  let W := U.getD c.which ⟨0, 0, []⟩
  let r := if c.simplify then applyAndSimplify svd eps dflt simplifyObc W x.1 c.tol c.D c.normalize
    else apply svd eps dflt W x.1 x.2 c.tol c.D c.normalize
  (⟨r.1.P, if c.counted then r.1.err else x.1.err, r.1.hidden + (if c.counted then 0 else r.1.err - x.1.err)⟩, r.2)

/-- the unitaries of a solver, made by its constructor, /repo/src/evolve/solver_trotter2.cc:32-36, solver_trotter3.cc:30-34, solver_trotter4.cc:33-41 -/
noncomputable def Solver.unitaries (S : Solver) (expm : Tensor ℂ → Tensor ℂ) (H : Ham ℂ) (dt : ℂ) : Option (List Unitary) :=
  S.layers.mapM fun l => mkUnitary expm H l.1 (dt * l.2)

/-- `one_step(&P, Dmax)`, /repo/src/evolve/solver_trotter2.cc:37-85, solver_trotter3.cc:35-93, solver_trotter4.cc:43-126: the new state, its `err` being the value returned, and the new value of the member `sense`
(0 in a new solver); `none` = `abort()` -/
noncomputable def oneStep (svd : Tensor ℂ → SvdRes ℂ) (eps dflt : ℝ)
    (simplifyObc : List (Tensor ℂ) → Int → Nat → Bool → Nat → List (Tensor ℂ) × ℝ) (S : Solver) (U : List Unitary)
    (strategy : Strategy) (normalize : Bool) (sense : Int) (P : List (Tensor ℂ)) (Dmax : Nat) : Option (Evo × Int) :=
  if Dmax = 0 ∧ strategy ≠ .doNotTruncate then none
  else some ((S.calls strategy normalize Dmax).foldl (runCall svd eps dflt simplifyObc U) (⟨P, 0, 0⟩, sense))

end MPS.Trotter
