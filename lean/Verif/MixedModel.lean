import Verif.MPSModel
import Mathlib.Data.Complex.Basic

/-!
# Real states with complex operators

`/repo/src/mps/cmps_from_rmps.cc`, `mps_expected1_dz.cc`, `mps_expected2_dz.cc` and the templates they instantiate with
`MPS = RMPS`, `Tensor = CTensor`.
-/

namespace MPS.Mixed
open Tensor

/-- `CTensor(const RTensor &)`: the same dimensions, every element converted to a complex number (the tensor library) -/
noncomputable def castT (A : Tensor ℝ) : Tensor ℂ := ⟨A.dims, fun I => ((A.get I : ℝ) : ℂ)⟩

/-- `CMPS::CMPS(const RMPS &other)`: `*a = CTensor(*b)` site by site, /repo/src/mps/cmps_from_rmps.cc:27-37 -/
noncomputable def castMPS (a : List (Tensor ℝ)) : List (Tensor ℂ) :=
  (List.range a.length).map fun k => castT (site a k)

/-- `expected(const RMPS &a, const CTensor &op, index k)`, /repo/src/mps/mps_expected1_dz.cc:27-30, which is
`single_site_expected<RMPS,CTensor>`, /repo/src/mps/mps_expected1.cc:29-45: `Tensor Pk = a[k]` converts the real tensor -/
noncomputable def expected1 (a : List (Tensor ℝ)) (op : Tensor ℂ) (k1 : Int) : Option ℂ := do
  let k1 ← normalIndex a.length k1
  let l := (List.range a.length).map fun k =>
    let Pk := castT (site a k)
    (Pk, Pk, if k = k1 then some op else none)
  pure ((propClose1 (propAllRight Tensor.empty l)).lin 0)

/-- `expected(const RMPS &a, const CTensor &op)`, /repo/src/mps/mps_expected1_dz.cc:32-39 -/
noncomputable def expectedSum (a : List (Tensor ℝ)) (op : Tensor ℂ) : Option ℂ :=
  (List.range a.length).foldlM (fun out (i : Nat) => (expected1 a op (i : Int)).map (fun v => out + v)) 0

/-- `expected(const RMPS &a, const CTensor &op1, index k1, const CTensor &op2, index k2)`,
/repo/src/mps/mps_expected2_dz.cc:29-33, which is `two_sites_expected<RMPS,CTensor>`,
/repo/src/mps/mps_expected2.cc:29-53; the comparison of the indices precedes their normalisation -/
noncomputable def expected2 (a : List (Tensor ℝ)) (op1 : Tensor ℂ) (k1 : Int) (op2 : Tensor ℂ) (k2 : Int) : Option ℂ :=
  if k1 = k2 then expected1 a (mmult op1 op2) k1
  else do
    let k1 ← normalIndex a.length k1
    let k2 ← normalIndex a.length k2
    let l := (List.range a.length).map fun k =>
      let Pk := castT (site a k)
      (Pk, Pk, if k = k1 then some op1 else if k = k2 then some op2 else none)
    pure ((propClose1 (propAllRight Tensor.empty l)).lin 0)

end MPS.Mixed
