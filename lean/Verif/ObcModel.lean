import Verif.MinimizerModel

/-!
# Model of /repo/src/dmrg/simplify_obc.cc: `simplify_obc(&P, w, Q, &sense, sweeps, normalize, Dmax, tol, &norm)`

The singular value decomposition is a parameter (see `CanonModel`), and so are the flags: `single` stands for
`FLAGS.get(MPS_SIMPLIFY_ALGORITHM) == MPS_SINGLE_SITE_ALGORITHM`, `tolerance` for `FLAGS.get(MPS_SIMPLIFY_TOLERANCE)`.  Debug
output is left out.  `none` = failed assert.
-/

namespace MPS.Obc
open MPS Tensor Form Minim
variable {K : Type} [RCLike K]

/-- the variables `P`, `lf` and `s` of the program.  `lost` is not part of the program: the total weight of the singular values
dropped by the updates of `P`. -/
structure Sim (K : Type) where
  P : List (Tensor K)
  lf : LForm K
  s : Sweeper
  lost : ℝ

/-- `do { set_canonical(P, s.site(), conj(lf.single_site_vector()), s.sense()); lf.propagate(...) } while (--s)`,
/repo/src/dmrg/simplify_obc.cc:67-70; `none` = not finished after `fuel` steps -/
noncomputable def singleSweep (svd : Tensor K → SvdRes K) (eps dflt : ℝ) : Nat → Sim K → Option (Sim K)
  | 0, _ => none
  | fuel + 1, x =>
    let k := x.s.k.toNat
    let c := setCanonical svd eps dflt x.P k (conj x.lf.singleSiteVector) x.s.dk true
    let r := x.s.dec
    let y : Sim K := ⟨c.1, x.lf.propagate (site c.1 k) x.s.dk, r.2, x.lost + c.2⟩
    if r.1 then singleSweep svd eps dflt fuel y else some y

/-- `do { set_canonical_2_sites(P, conj(lf.two_site_vector(s.sense())), s.site(), s.sense(), Dmax, tol, false);
lf.propagate(...); --s; } while (!s.is_last())`, /repo/src/dmrg/simplify_obc.cc:72-78 -/
noncomputable def twoSweep (svd : Tensor K → SvdRes K) (eps dflt : ℝ) (Dmax : Nat) (tol : ℝ) : Nat → Sim K → Option (Sim K)
  | 0, _ => none
  | fuel + 1, x =>
    (x.lf.twoSiteVector x.s.dk).bind fun v =>
      (setCanonical2 svd eps dflt x.P (conj v) x.s.k x.s.dk Dmax tol false).bind fun c =>
        let y : Sim K := ⟨c.1, x.lf.propagate (site c.1 x.s.k.toNat) x.s.dk, x.s.dec.2, x.lost + c.2.1⟩
        if y.s.isLast then some y else twoSweep svd eps dflt Dmax tol fuel y

/-- what the function leaves behind; `errs` (the numbers `err` of all the sweeps) and `lost` are not visible to the caller, and
`P0` is the state before it is normalised -/
structure Out (K : Type) where
  err : ℝ
  P : List (Tensor K)
  sense : Int
  norm : ℝ
  errs : List ℝ
  lost : ℝ
  P0 : List (Tensor K)

/-- the lines after the loop, /repo/src/dmrg/simplify_obc.cc:91-98 -/
noncomputable def finish (normalize : Bool) (x : Sim K) (err normP2 : ℝ) (errs : List ℝ) : Out K :=
  let k := x.s.k.toNat
  ⟨err, if normalize then x.P.set k (smul ((1 / Real.sqrt normP2 : ℝ) : K) (site x.P k)) else x.P, -x.s.dk, normP2, errs, x.lost, x.P⟩

/-- the loop `while (sweeps--) ...`, /repo/src/dmrg/simplify_obc.cc:65-90, entered with `sweeps + 1` sweeps left -/
noncomputable def loop (sweep : Sim K → Option (Sim K)) (normalize : Bool) (tolerance normQ2 : ℝ) :
    Nat → ℝ → Sim K → List ℝ → Option (Out K)
  | sweeps, olderr, x, errs =>
    (sweep x).bind fun y =>
      let T := site y.P y.s.k.toNat
      let normP2 := ‖tscprod T T‖
      let err := Real.sqrt |1 - normP2 / normQ2|
      let z : Sim K := { y with s := y.s.flip }
      if olderr - err < 1 / 10 ^ 5 * |olderr| ∨ err < tolerance then some (finish normalize z err normP2 (errs ++ [err]))
      else match sweeps with
        | 0 => some (finish normalize z err normP2 (errs ++ [err]))
        | sweeps + 1 => loop sweep normalize tolerance normQ2 sweeps err z (errs ++ [err])

/-- `do_simplify(ptrP, w, Q, sense, sweeps, normalize, Dmax, tol, norm)`, /repo/src/dmrg/simplify_obc.cc:31-99 -/
noncomputable def simplifyObc (svd : Tensor K → SvdRes K) (eps dflt : ℝ) (single : Bool) (tolerance : ℝ) (P : List (Tensor K))
    (w : List K) (Q : List (List (Tensor K))) (sense : Int) (sweeps : Nat) (normalize : Bool) (Dmax : Nat) (tol : ℝ) :
    Option (Out K) :=
  if sweeps = 0 then none
  else
    (Sweeper.new P.length (-sense)).bind fun s =>
      let lf := LForm.new w Q P s.k.toNat
      lf.norm2.bind fun nq =>
        let sweep := if Dmax = 0 ∧ single then singleSweep svd eps dflt P.length else twoSweep svd eps dflt Dmax tol P.length
        loop sweep normalize tolerance (nq ^ 2) (sweeps - 1) 1 ⟨P, lf, s, 0⟩ []

end MPS.Obc
