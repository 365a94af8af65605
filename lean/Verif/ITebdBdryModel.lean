import Verif.ITebdSlowModel

/-!
# Model of the expected values with a left boundary vector

`MPS_ITEBD_EXPECTED_METHOD == MPS_ITEBD_BDRY_EXPECTED`: /repo/src/iTEBD/bdry_expected.hpp.  The parameter `power` is
`linalg::eig_power(f, size, &v)` of the library `tensor`, called with the vector `v` from which the iteration starts and giving its new
value.  The trace printed on `std::cout` is not modelled.
-/

namespace MPS.ITebd
open MPS Tensor
variable {K : Type} [RCLike K]

/-- `p1`, /repo/src/iTEBD/bdry_expected.hpp:29-33 -/
def p1 (A v : Tensor K) : Tensor K := propMatrix v 1 A A none

/-- `left_boundary(A)`, /repo/src/iTEBD/bdry_expected.hpp:35-43 -/
noncomputable def leftBdry1 (power : (Tensor K → Tensor K) → Tensor K → Tensor K) (A : Tensor K) : Tensor K :=
  let v := propMatrix Tensor.empty 1 A A none
  power (p1 A) (unitNorm v)

/-- `p2`, /repo/src/iTEBD/bdry_expected.hpp:45-49 -/
def p2 (A B v : Tensor K) : Tensor K := propMatrix (propMatrix v 1 A A none) 1 B B none

/-- `left_boundary(A, B)`, /repo/src/iTEBD/bdry_expected.hpp:51-59 -/
noncomputable def leftBdry2 (power : (Tensor K → Tensor K) → Tensor K → Tensor K) (A B : Tensor K) : Tensor K :=
  let v := propMatrix (propMatrix Tensor.empty 1 A A none) 1 B B none
  power (p2 A B) (unitNorm v)

/-- the body of the loop of `bdry_string_order` on `(R0, R1)`, /repo/src/iTEBD/bdry_expected.hpp:76-95.  The address of `Op` is given to
`prop_matrix`, which folds it whether it is empty or not (/repo/src/mps/mps_prop_matrix.cc:72-74): with an empty operator `fold` finds two
indices of different dimensions and aborts, `none`. -/
noncomputable def bdryStep (AlA BlB : Tensor K) (Op1 : Tensor K) (i : Int) (Opmid Op2 : Tensor K) (j : Int) (R : Tensor K × Tensor K)
    (k : Int) : Option (Tensor K × Tensor K) :=
  let AorB := if k % 2 = 1 then BlB else AlA
  let Op := slowOp Op1 i Opmid Op2 j k
  if Op.isEmpty then none
  else
    let R1 := propMatrix R.2 1 AorB AorB (some Op)
    let R0 := propMatrix R.1 1 AorB AorB none
    let n := frob R0
    some (smul ((1 / n : ℝ) : K) R0, smul ((1 / n : ℝ) : K) R1)

/-- `bdry_string_order` for `i <= j`, /repo/src/iTEBD/bdry_expected.hpp:66-102; `none` = abort -/
noncomputable def bdryBody (power : (Tensor K → Tensor K) → Tensor K → Tensor K) (Op1 : Tensor K) (i : Int) (Opmid Op2 : Tensor K) (j : Int)
    (A lA B lB : Tensor K) : Option K := do
  let AlA := scale A (-1) lA
  let BlB := scale B (-1) lB
  let R0 := leftBdry2 power AlA BlB
  let first := if i % 2 = 1 then i - 1 else i
  let last := if j % 2 = 1 then j else j + 1
  let R ← (List.range (last + 1 - first).toNat).foldlM (fun R (n : Nat) => bdryStep AlA BlB Op1 i Opmid Op2 j R (first + n)) (R0, R0)
  pure ((propClose1 R.2).lin 0 / (propClose1 R.1).lin 0)

/-- `bdry_string_order`, /repo/src/iTEBD/bdry_expected.hpp:61-103 -/
noncomputable def bdryOrder (power : (Tensor K → Tensor K) → Tensor K → Tensor K) (Op1 : Tensor K) (i : Int) (Opmid Op2 : Tensor K) (j : Int)
    (A lA B lB : Tensor K) : Option K :=
  if i > j then bdryBody power Op2 j Opmid Op1 i A lA B lB else bdryBody power Op1 i Opmid Op2 j A lA B lB

/-- `string_order(psi, Opi, i, Opmiddle, Opj, j)` with the boundary method, /repo/src/iTEBD/itebd_string_order_d.cc:38-41 -/
noncomputable def bdryStringOrder (power : (Tensor K → Tensor K) → Tensor K → Tensor K) (psi : State K) (Opi : Tensor K) (i : Int)
    (Opmid Opj : Tensor K) (j : Int) : Option K :=
  bdryOrder power Opi i Opmid Opj j (psi.matrix 0) (psi.rightVector 0) (psi.matrix 1) (psi.rightVector 1)

/-- `expected(psi, Op, site)` with the boundary method, /repo/src/iTEBD/itebd_expected1_d.cc:25-32 -/
noncomputable def bdryExpected1 (power : (Tensor K → Tensor K) → Tensor K → Tensor K) (psi : State K) (Op : Tensor K) (site : Int) : Option K :=
  if site % 2 = 1 then bdryStringOrder power psi Tensor.empty 0 Tensor.empty Op 1
  else bdryStringOrder power psi Op 0 Tensor.empty Tensor.empty 1

/-- `expected(psi, Op1, i, Op2, j)` with the boundary method, /repo/src/iTEBD/itebd_expected2_d.cc:31-36 -/
noncomputable def bdryExpected2 (power : (Tensor K → Tensor K) → Tensor K → Tensor K) (psi : State K) (Op1 : Tensor K) (i : Int)
    (Op2 : Tensor K) (j : Int) : Option K := bdryStringOrder power psi Op1 i Tensor.empty Op2 j

/-- `bdry_expected(Op1, A, lA)`, /repo/src/iTEBD/bdry_expected.hpp:105-113 -/
noncomputable def bdryCell (power : (Tensor K → Tensor K) → Tensor K → Tensor K) (Op1 A lA : Tensor K) : K :=
  let AlA := scale A (-1) lA
  let R0 := leftBdry1 power AlA
  let R1 := propMatrix R0 1 AlA AlA (some Op1)
  let R0 := propMatrix R0 1 AlA AlA none
  (propClose1 R1).lin 0 / (propClose1 R0).lin 0

/-- `bdry_expected12(Op12, A, lA, B, lB)`, /repo/src/iTEBD/bdry_expected.hpp:115-119 -/
noncomputable def bdryPair (power : (Tensor K → Tensor K) → Tensor K → Tensor K) (Op12 A lA B lB : Tensor K) : K :=
  bdryCell power Op12 (ensure3 (fold (scale A (-1) lA) (-1) B 0)) lB

/-- `bdry_expected12(psi, Op12, site)`, /repo/src/iTEBD/bdry_expected.hpp:121-130, itebd_expected12_d.cc:33-34; `none` = abort with an
empty operator -/
noncomputable def bdryExpected12 (power : (Tensor K → Tensor K) → Tensor K → Tensor K) (psi : State K) (Op12 : Tensor K) (site : Int) : Option K :=
  if Op12.isEmpty then none
  else if site % 2 = 1 then some (bdryPair power Op12 (psi.matrix 1) (psi.rightVector 1) (psi.matrix 0) (psi.rightVector 0))
  else some (bdryPair power Op12 (psi.matrix 0) (psi.rightVector 0) (psi.matrix 1) (psi.rightVector 1))

/-- `energy(psi, Op12)` with the boundary method, /repo/src/iTEBD/itebd_energy_d.cc:24-27 -/
noncomputable def bdryEnergy (power : (Tensor K → Tensor K) → Tensor K → Tensor K) (psi : State K) (Op12 : Tensor K) : Option K := do
  let a ← bdryExpected12 power psi Op12 0
  let b ← bdryExpected12 power psi Op12 1
  pure (a + b)

end MPS.ITebd
