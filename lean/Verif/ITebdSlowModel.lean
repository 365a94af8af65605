import Verif.ITebdModel

/-!
# Model of the expected values with powers of the transfer matrix

`MPS_ITEBD_EXPECTED_METHOD == MPS_ITEBD_SLOW_EXPECTED`: /repo/src/iTEBD/slow_expected.hpp, /repo/src/tools/build_E_matrix.hpp.
-/

namespace MPS.ITebd
open MPS Tensor
variable {K : Type} [RCLike K]

/-- `do_build_E_matrix(A1, A2)`, /repo/src/tools/build_E_matrix.hpp:27-38; `R.get_dimensions(&a,&b,&a,&b)` leaves in `a`, `b` the
last two dimensions -/
def eMatrix (A1 A2 : Tensor K) : Tensor K :=
  let R := fold A1 1 (conj A2) 1
  let a := R.dim 2
  let b := R.dim 3
  reshape (permute R 1 2) [a * a, b * b]

/-- `R /= norm2(R)` -/
noncomputable def unitNorm (R : Tensor K) : Tensor K := smul ((1 / frob R : ℝ) : K) R

/-- `infinite_power(R)`, /repo/src/iTEBD/slow_expected.hpp:27-35: ten squarings, each followed by a normalisation -/
noncomputable def infinitePower (R : Tensor K) : Tensor K :=
  (List.range 10).foldl (fun R _ => unitNorm (mmult R R)) R

/-- the operator chosen in the loop of `slow_string_order`, /repo/src/iTEBD/slow_expected.hpp:60-71 -/
def slowOp (Op1 : Tensor K) (i : Int) (Opmid Op2 : Tensor K) (j k : Int) : Tensor K :=
  if k < i ∨ k > j then Tensor.empty
  else if k = i then (if i = j then mmult Op1 Op2 else Op1)
  else if k = j then Op2
  else Opmid

/-- the body of the loop of `slow_string_order` on `(R0, R1)`, /repo/src/iTEBD/slow_expected.hpp:57-80 -/
noncomputable def slowStep (AlA BlB EA EB : Tensor K) (Op1 : Tensor K) (i : Int) (Opmid Op2 : Tensor K) (j : Int) (R : Tensor K × Tensor K)
    (k : Int) : Tensor K × Tensor K :=
  let AorB := if k % 2 = 1 then BlB else AlA
  let E := if k % 2 = 1 then EB else EA
  let Op := slowOp Op1 i Opmid Op2 j k
  let R1 := if Op.isEmpty then mmult R.2 E else mmult R.2 (eMatrix (foldin Op (-1) AorB 1) AorB)
  let R0 := mmult R.1 E
  let n := frob R0
  (smul ((1 / n : ℝ) : K) R0, smul ((1 / n : ℝ) : K) R1)

/-- `slow_string_order` for `i <= j`, /repo/src/iTEBD/slow_expected.hpp:43-84 -/
noncomputable def slowBody (Op1 : Tensor K) (i : Int) (Opmid Op2 : Tensor K) (j : Int) (A lA B lB : Tensor K) : K :=
  let AlA := scale A (-1) lA
  let BlB := scale B (-1) lB
  let EA := eMatrix AlA AlA
  let EB := eMatrix BlB BlB
  let R0 := infinitePower (mmult EA EB)
  let first := if i % 2 = 1 then i - 1 else i
  let last := if j % 2 = 1 then j else j + 1
  let R := (List.range (last + 1 - first).toNat).foldl (fun R (n : Nat) => slowStep AlA BlB EA EB Op1 i Opmid Op2 j R (first + n)) (R0, R0)
  tr R.2 / tr R.1

/-- `slow_string_order`, /repo/src/iTEBD/slow_expected.hpp:37-85 -/
noncomputable def slowOrder (Op1 : Tensor K) (i : Int) (Opmid Op2 : Tensor K) (j : Int) (A lA B lB : Tensor K) : K :=
  if i > j then slowBody Op2 j Opmid Op1 i A lA B lB else slowBody Op1 i Opmid Op2 j A lA B lB

/-- `string_order(psi, Opi, i, Opmiddle, Opj, j)` with the slow method, /repo/src/iTEBD/itebd_string_order_d.cc:34-37 -/
noncomputable def slowStringOrder (psi : State K) (Opi : Tensor K) (i : Int) (Opmid Opj : Tensor K) (j : Int) : K :=
  slowOrder Opi i Opmid Opj j (psi.matrix 0) (psi.rightVector 0) (psi.matrix 1) (psi.rightVector 1)

/-- `expected(psi, Op, site)` with the slow method, /repo/src/iTEBD/itebd_expected1_d.cc:25-32 -/
noncomputable def slowExpected1 (psi : State K) (Op : Tensor K) (site : Int) : K :=
  if site % 2 = 1 then slowStringOrder psi Tensor.empty 0 Tensor.empty Op 1 else slowStringOrder psi Op 0 Tensor.empty Tensor.empty 1

/-- `expected(psi, Op1, i, Op2, j)` with the slow method, /repo/src/iTEBD/itebd_expected2_d.cc:31-36 -/
noncomputable def slowExpected2 (psi : State K) (Op1 : Tensor K) (i : Int) (Op2 : Tensor K) (j : Int) : K :=
  slowStringOrder psi Op1 i Tensor.empty Op2 j

/-- `ensure_3_indices`, /repo/src/iTEBD/slow_expected.hpp:87-94 -/
def ensure3 (A : Tensor K) : Tensor K :=
  let l := A.size
  let a := A.dim 0
  let b := A.dim ((A.rank : Int) - 1)
  reshape A [a, l / (a * b), b]

/-- `slow_expected(Op1, A, lA)`, /repo/src/iTEBD/slow_expected.hpp:96-106 -/
noncomputable def slowCell (Op1 A lA : Tensor K) : K :=
  let A := scale A (-1) lA
  let R0 := eMatrix A A
  let R := infinitePower R0
  let R2 := eMatrix (foldin Op1 (-1) A 1) A
  let N := tr (mmult R0 R)
  let E := tr (mmult R2 R)
  E / N

/-- `slow_expected12(Op12, A, lA, B, lB)`, /repo/src/iTEBD/slow_expected.hpp:108-112 -/
noncomputable def slowPair (Op12 A lA B lB : Tensor K) : K := slowCell Op12 (ensure3 (fold (scale A (-1) lA) (-1) B 0)) lB

/-- `slow_expected12(psi, Op12, site)`, /repo/src/iTEBD/slow_expected.hpp:114-123, itebd_expected12_d.cc:31-32 -/
noncomputable def slowExpected12 (psi : State K) (Op12 : Tensor K) (site : Int) : K :=
  if site % 2 = 1 then slowPair Op12 (psi.matrix 1) (psi.rightVector 1) (psi.matrix 0) (psi.rightVector 0)
  else slowPair Op12 (psi.matrix 0) (psi.rightVector 0) (psi.matrix 1) (psi.rightVector 1)

/-- `energy(psi, Op12)` with the slow method, /repo/src/iTEBD/itebd_energy_d.cc:24-27 -/
noncomputable def slowEnergy (psi : State K) (Op12 : Tensor K) : K := slowExpected12 psi Op12 0 + slowExpected12 psi Op12 1

end MPS.ITebd
