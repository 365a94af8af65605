import Verif.MPSNorm
import Verif.ToolsModel
import Verif.MPOModel

/-!
# Model of the canonical forms: /repo/src/tools/split_tensor.cc, /repo/src/mps/mps_canonical.cc,
mps_canonical2.cc, /repo/src/mpo/mpo_apply_canonical.cc, mpo_simplify.cc, mpo_fidelity_z.cc

The singular value decomposition (`linalg::svd`, `linalg::block_svd` of the library `tensor`, which is not part of the
repository) is a parameter `svd` of all functions.  `eps` is `DBL_EPSILON` and `dflt` the value of the flag
`MPS_TRUNCATION_TOLERANCE` (by default also `DBL_EPSILON`).
-/

namespace MPS
open Tensor
variable {K : Type} [RCLike K]

/-- result of `RTensor s = linalg::svd(A, &U, &V, SVD_ECONOMIC)` -/
structure SvdRes (K : Type) where
  U : Tensor K
  s : List ℝ
  V : Tensor K

/-- a vector of real numbers as a tensor -/
noncomputable def vecOf (s : List ℝ) : Tensor K := ⟨[s.length], fun i => ((s.getD (i.getD 0 0) 0 : ℝ) : K)⟩

/-- result of `V = split(&U, psi, sense, truncate)`.  `lost` is not computed by the program: it is the weight
`∑ s_k²` of the singular values which the program drops. -/
structure SplitRes (K : Type) where
  U : Tensor K
  V : Tensor K
  lost : ℝ

/-- the tolerance handed to `where_to_truncate`, /repo/src/tools/split_tensor.cc:40-42: `MPS_DEFAULT_TOLERANCE = -4`,
`MPS_TRUNCATE_ZEROS = 0` (/repo/src/tools/flags.cc:30-33) -/
def splitTol (truncate : Bool) : ℝ := if truncate then -4 else 0

/-- `do_split`, branch `sense > 0`, /repo/src/tools/split_tensor.cc:33-53 and :74-75 -/
noncomputable def splitRight (svd : Tensor K → SvdRes K) (eps dflt : ℝ) (ψ : Tensor K) (truncate : Bool) : SplitRes K :=
  let d := ψ.dims
  let r := ψ.rank
  let b := d.getD (r - 1) 0
  let ai := ψ.size / b
  let res := svd (reshape ψ [ai, b])
  let l := res.s.length
  let newL := whereToTruncate eps dflt res.s (splitTol truncate) (min ai b : Nat)
  let U := if newL ≠ l then changeDim res.U 1 newL else res.U
  let V := if newL ≠ l then changeDim res.V 0 newL else res.V
  let s := if newL ≠ l then res.s.take newL else res.s
  ⟨reshape U (d.set (r - 1) newL), scale V 0 (vecOf s), cumulated res.s newL⟩

/-- `do_split`, branch `sense <= 0`, /repo/src/tools/split_tensor.cc:54-75 -/
noncomputable def splitLeft (svd : Tensor K → SvdRes K) (eps dflt : ℝ) (ψ : Tensor K) (truncate : Bool) : SplitRes K :=
  let d := ψ.dims
  let a := d.getD 0 0
  let ib := ψ.size / a
  let res := svd (reshape ψ [a, ib])
  let l := res.s.length
  let newL := whereToTruncate eps dflt res.s (splitTol truncate) (min a ib : Nat)
  let U := if newL ≠ l then changeDim res.V 0 newL else res.V
  let V := if newL ≠ l then changeDim res.U 1 newL else res.U
  let s := if newL ≠ l then res.s.take newL else res.s
  ⟨reshape U (d.set 0 newL), scale V (-1) (vecOf s), cumulated res.s newL⟩

/-- `split(&U, psi, sense, truncate)`, /repo/src/tools/split_tensor.cc:27-77, split_tensor_d.cc -/
noncomputable def splitT (svd : Tensor K → SvdRes K) (eps dflt : ℝ) (ψ : Tensor K) (sense : Int) (truncate : Bool) :
    SplitRes K :=
  if sense > 0 then splitRight svd eps dflt ψ truncate else splitLeft svd eps dflt ψ truncate

/-- `set_canonical(psi, ndx, t, sense, truncate)`, /repo/src/mps/mps_canonical.cc:26-46: the new state and the weight
lost -/
noncomputable def setCanonical (svd : Tensor K → SvdRes K) (eps dflt : ℝ) (ψ : List (Tensor K)) (ndx : Nat)
    (t : Tensor K) (sense : Int) (truncate : Bool) : List (Tensor K) × ℝ :=
  if sense > 0 then
    if ndx + 1 = ψ.length then (ψ.set ndx t, 0)
    else
      let r := splitT svd eps dflt t 1 truncate
      ((ψ.set ndx r.U).set (ndx + 1) (fold r.V (-1) (site ψ (ndx + 1)) 0), r.lost)
  else
    if ndx = 0 then (ψ.set ndx t, 0)
    else
      let r := splitT svd eps dflt t (-1) truncate
      ((ψ.set ndx r.U).set (ndx - 1) (fold (site ψ (ndx - 1)) (-1) r.V 0), r.lost)

/-- loop `for (i = psi.last(); i > site; i--) set_canonical(psi, i, psi[i], -1)`, /repo/src/mps/mps_canonical.cc:52-53 -/
noncomputable def canonLoopLeft (svd : Tensor K → SvdRes K) (eps dflt : ℝ) (k : Nat) :
    Nat → List (Tensor K) × ℝ → List (Tensor K) × ℝ
  | 0, x => x
  | i + 1, x =>
    if i + 1 > k then
      let r := setCanonical svd eps dflt x.1 (i + 1) (site x.1 (i + 1)) (-1) true
      canonLoopLeft svd eps dflt k i (r.1, x.2 + r.2)
    else x

/-- loop `for (i = 0; i < site; i++) set_canonical(psi, i, psi[i], +1)`, /repo/src/mps/mps_canonical.cc:54-55;
`i` counts upwards, `n` steps remain -/
noncomputable def canonLoopRight (svd : Tensor K → SvdRes K) (eps dflt : ℝ) :
    Nat → Nat → List (Tensor K) × ℝ → List (Tensor K) × ℝ
  | 0, _, x => x
  | n + 1, i, x =>
    let r := setCanonical svd eps dflt x.1 i (site x.1 i) 1 true
    canonLoopRight svd eps dflt n (i + 1) (r.1, x.2 + r.2)

/-- `norm2(A)` of a tensor (library `tensor`): square root of the sum of the squared moduli of its elements -/
noncomputable def frob (A : Tensor K) : ℝ := Real.sqrt (∑ n ∈ Finset.range A.size, ‖A.lin n‖ ^ 2)

/-- `either_form_inner`, /repo/src/mps/mps_canonical.cc:48-58; the new state and the weight lost -/
noncomputable def eitherForm (svd : Tensor K → SvdRes K) (eps dflt : ℝ) (ψ : List (Tensor K)) (k : Nat)
    (normalize : Bool) : List (Tensor K) × ℝ :=
  let x := canonLoopLeft svd eps dflt k (ψ.length - 1) (ψ, 0)
  let x := canonLoopRight svd eps dflt k 0 x
  if normalize then
    (x.1.set k (smul ((1 / frob (site x.1 k) : ℝ) : K) (site x.1 k)), x.2)
  else x

/-- `canonical_form_at`, /repo/src/mps/mps_canonical_d.cc:42-45 -/
noncomputable def canonicalFormAt (svd : Tensor K → SvdRes K) (eps dflt : ℝ) (ψ : List (Tensor K)) (k : Nat) :
    List (Tensor K) × ℝ := eitherForm svd eps dflt ψ k false

/-- `normal_form_at`, /repo/src/mps/mps_canonical_d.cc:47-50 -/
noncomputable def normalFormAt (svd : Tensor K → SvdRes K) (eps dflt : ℝ) (ψ : List (Tensor K)) (k : Nat) :
    List (Tensor K) × ℝ := eitherForm svd eps dflt ψ k true

/-- `canonical_form`, /repo/src/mps/mps_canonical_d.cc:32-35 -/
noncomputable def canonicalForm (svd : Tensor K → SvdRes K) (eps dflt : ℝ) (ψ : List (Tensor K)) (sense : Int) :
    List (Tensor K) × ℝ := canonicalFormAt svd eps dflt ψ (if sense < 0 then 0 else ψ.length - 1)

/-- `normal_form`, /repo/src/mps/mps_canonical_d.cc:37-40 -/
noncomputable def normalForm (svd : Tensor K → SvdRes K) (eps dflt : ℝ) (ψ : List (Tensor K)) (sense : Int) :
    List (Tensor K) × ℝ := normalFormAt svd eps dflt ψ (if sense < 0 then 0 else ψ.length - 1)

/-- `set_canonical_2_sites`, /repo/src/mps/mps_canonical2.cc:29-74; `none` = the index of a site is out of range (the
`abort()` on NaN has no counterpart in exact arithmetic); the new state, and the weights lost in the two-site
splitting and in the final `set_canonical` -/
noncomputable def setCanonical2 (svd : Tensor K → SvdRes K) (eps dflt : ℝ) (P : List (Tensor K)) (Pij : Tensor K)
    (k : Int) (sense : Int) (Dmax : Int) (tol : ℝ) (both : Bool) : Option (List (Tensor K) × ℝ × ℝ) :=
  let a1 := Pij.dims.getD 0 0
  let i1 := Pij.dims.getD 1 0
  let j1 := Pij.dims.getD 2 0
  let c1 := Pij.dims.getD 3 0
  let res := svd (reshape Pij [a1 * i1, j1 * c1])
  let b1 := whereToTruncate eps dflt res.s tol Dmax
  let Pi := if b1 ≠ res.s.length then changeDim res.U (-1) b1 else res.U
  let Pj := if b1 ≠ res.s.length then changeDim res.V 0 b1 else res.V
  let s := if b1 ≠ res.s.length then res.s.take b1 else res.s
  let lost := cumulated res.s b1
  let Pi := reshape Pi [a1, i1, b1]
  let Pj := reshape Pj [b1, j1, c1]
  if sense > 0 then
    if 0 ≤ k ∧ k + 1 < P.length then
      let k := k.toNat
      let P := P.set k Pi
      let Pj := scale Pj 0 (vecOf s)
      if both then
        let r := setCanonical svd eps dflt P (k + 1) Pj sense true
        some (r.1, lost, r.2)
      else some (P.set (k + 1) Pj, lost, 0)
    else none
  else
    if 1 ≤ k ∧ k < P.length then
      let k := k.toNat
      let P := P.set k Pj
      let Pi := scale Pi (-1) (vecOf s)
      if both then
        let r := setCanonical svd eps dflt P (k - 1) Pi sense true
        some (r.1, lost, r.2)
      else some (P.set (k - 1) Pi, lost, 0)
    else none

end MPS
