import Verif.CanonModel

/-!
# Model of /repo/src/mpo/mpo_apply_canonical.cc, mpo_simplify.cc, mpo_fidelity_{d,z}.cc

As in `CanonModel`, the singular value decomposition is a parameter, and the last component of the results is the
weight of the singular values which are dropped (not computed by the program).
-/

namespace MPS
open Tensor
variable {K : Type} [RCLike K]

/-- the tensor `C(b,j,c2*a2)` of `do_apply_rightwards`, /repo/src/mpo/mpo_apply_canonical.cc:35-47; the variable `b` of
the program is always `L.dimension(0)` -/
def rightSite (L O A : Tensor K) : Tensor K :=
  let b := L.dim 0
  let a2 := A.dim 2
  let c1 := O.dim 0
  let dj := O.dim 1
  let di := O.dim 2
  let c2 := O.dim 3
  let C := fold L (-1) A 0
  let C := foldin (reshape (permute O 1 2) [c1 * di, dj, c2]) 0 (reshape C [b, c1 * di, a2]) 1
  reshape C [b, dj, c2 * a2]

/-- loop of `do_apply_rightwards`, /repo/src/mpo/mpo_apply_canonical.cc:34-55, from the site with the pair
`(mpdo[ndx], psi[ndx])` on -/
noncomputable def applyRightLoop (svd : Tensor K → SvdRes K) (eps dflt : ℝ) (trunc : Bool) :
    Tensor K → List (Tensor K × Tensor K) → List (Tensor K) × ℝ
  | _, [] => ([], 0)
  | L, [(O, A)] => ([rightSite L O A], 0)
  | L, (O, A) :: x :: xs =>
    let r := splitT svd eps dflt (rightSite L O A) 1 trunc
    let L := reshape r.V [r.V.dim 0, O.dim 3, A.dim 2]
    let y := applyRightLoop svd eps dflt trunc L (x :: xs)
    (r.U :: y.1, r.lost + y.2)

/-- the tensor `C(a1*c1,j,b)` of `do_apply_leftwards`, /repo/src/mpo/mpo_apply_canonical.cc:68-80; the variable `b` of
the program is always `L.dimension(2)` -/
def leftSite (O A L : Tensor K) : Tensor K :=
  let b := L.dim 2
  let a1 := A.dim 0
  let c1 := O.dim 0
  let dj := O.dim 1
  let di := O.dim 2
  let c2 := O.dim 3
  let C := fold A 2 L 0
  let C := foldin (reshape O [c1, dj, di * c2]) 2 (reshape C [a1, di * c2, b]) 1
  reshape C [a1 * c1, dj, b]

/-- loop of `do_apply_leftwards`, /repo/src/mpo/mpo_apply_canonical.cc:67-88, over all sites but the first: the tensor
`L`, the tensors stored so far, the weight lost -/
noncomputable def applyLeftLoop (svd : Tensor K → SvdRes K) (eps dflt : ℝ) (trunc : Bool) :
    List (Tensor K × Tensor K) → Tensor K × List (Tensor K) × ℝ
  | [] => (⟨[1, 1, 1], fun _ => 1⟩, [], 0)
  | (O, A) :: xs =>
    let y := applyLeftLoop svd eps dflt trunc xs
    let r := splitT svd eps dflt (leftSite O A y.1) (-1) trunc
    (reshape r.V [A.dim 0, O.dim 0, r.V.dim 1], r.U :: y.2.1, y.2.2 + r.lost)

/-- `do_apply_leftwards`, /repo/src/mpo/mpo_apply_canonical.cc:59-89 -/
noncomputable def applyLeftAll (svd : Tensor K → SvdRes K) (eps dflt : ℝ) (trunc : Bool) :
    List (Tensor K × Tensor K) → List (Tensor K) × ℝ
  | [] => ([], 0)
  | (O, A) :: xs =>
    let y := applyLeftLoop svd eps dflt trunc xs
    (leftSite O A y.1 :: y.2.1, y.2.2)

/-- `apply_canonical(mpdo, psi, sense, truncate)`, /repo/src/mpo/mpo_apply_canonical.cc:91-105; `none` = failed assert -/
noncomputable def applyCanonical (svd : Tensor K → SvdRes K) (eps dflt : ℝ) (O ψ : List (Tensor K)) (sense : Int)
    (trunc : Bool) : Option (List (Tensor K) × ℝ) :=
  if O.length = ψ.length then
    some (if sense > 0 then applyRightLoop svd eps dflt trunc ⟨[1, 1, 1], fun _ => 1⟩ (O.zip ψ)
      else applyLeftAll svd eps dflt trunc (O.zip ψ))
  else none

/-- `simplify(mpo, sense)`, /repo/src/mpo/mpo_simplify.cc:25-47, mpo_simplify_d.cc -/
noncomputable def simplifyMPO (svd : Tensor K → SvdRes K) (eps dflt : ℝ) (O : List (Tensor K)) (sense : Int) :
    List (Tensor K) × ℝ :=
  let x := canonicalForm svd eps dflt (mpoToMPS O) sense
  (List.zipWith (fun m1 m2 => reshape m2 [m2.dim 0, m1.dim 1, m1.dim 2, m2.dim 2]) O x.1, x.2)

/-- `fidelity(Ua, Ub)`, /repo/src/mpo/mpo_fidelity_z.cc:24-31, mpo_fidelity_d.cc:24-31 (`none` = failed assert in
`scprod`); the fidelity and the weights lost in the two canonical forms -/
noncomputable def fidelityMPO (svd : Tensor K → SvdRes K) (eps dflt : ℝ) (A B : List (Tensor K)) : Option (ℝ × ℝ × ℝ) :=
  let p1 := canonicalForm svd eps dflt (mpoToMPS A) (-1)
  let p2 := canonicalForm svd eps dflt (mpoToMPS B) (-1)
  let n1 := norm2 p1.1
  let n2 := norm2 p2.1
  (scprod p1.1 p2.1 1).map fun z => (‖z / ((n1 * n2 : ℝ) : K)‖, p1.2, p2.2)

end MPS
