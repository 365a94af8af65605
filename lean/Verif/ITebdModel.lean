import Verif.MPSModel
import Verif.CanonModel
import Mathlib.Analysis.SpecialFunctions.Pow.Real

/-!
# Model of /repo/src/iTEBD and /repo/include/mps/itebd.h: infinite states with two tensors

Expected values use the default method, `MPS_ITEBD_EXPECTED_METHOD == MPS_ITEBD_CANONICAL_EXPECTED` (/repo/src/tools/flags.cc:64-67).
Sites are C++ `int`s, here unbounded integers; `site & 1` is the parity.
-/

namespace MPS.ITebd
open MPS Tensor
variable {K : Type} [RCLike K]

/-- the data members, /repo/include/mps/itebd.h:134-137 -/
structure State (K : Type) where
  A : Tensor K
  B : Tensor K
  lA : Tensor K
  lB : Tensor K
  AlA : Tensor K
  BlB : Tensor K
  canonical : Bool

/-- the constructor from `Γ` and `λ` tensors without its asserts, /repo/src/iTEBD/itebd.hpp:69-76 -/
def State.ofParts (A lA B lB : Tensor K) (canonical : Bool) : State K :=
  ⟨A, B, lA, lB, scale A (-1) lA, scale B (-1) lB, canonical⟩

/-- the constructor from `Γ` and `λ` tensors, /repo/src/iTEBD/itebd.hpp:67-80; `none` = failed assert -/
def State.new (A lA B lB : Tensor K) (canonical : Bool) : Option (State K) :=
  if A.rank = 3 ∧ A.dim 0 = lB.dim 0 ∧ A.dim 2 = lA.dim 0 ∧ B.dim 0 = lA.dim 0 ∧ B.dim 2 = lB.dim 0 then
    some (State.ofParts A lA B lB canonical)
  else none

/-- `igen << 1, gen(1.0)`: the vector with the one element 1 -/
def oneVec : Tensor K := ⟨[1], fun _ => 1⟩

/-- `reshape(normalize(A), igen << 1 << A.dimension(0) << 1)`, /repo/src/iTEBD/itebd.hpp:27-31,46 -/
noncomputable def prodTensor (A : Tensor K) : Tensor K := reshape (smul ((1 / frob A : ℝ) : K) A) [1, A.dim 0, 1]

/-- product state with two wave functions, /repo/src/iTEBD/itebd.hpp:55-65; `none` = failed assert -/
noncomputable def State.product (A B : Tensor K) : Option (State K) :=
  if A.rank = 1 ∧ B.rank = 1 then
    some ⟨prodTensor A, prodTensor B, oneVec, oneVec, prodTensor A, prodTensor B, true⟩
  else none

/-- product state, /repo/src/iTEBD/itebd.hpp:44-53; `none` = failed assert -/
noncomputable def State.product1 (A : Tensor K) : Option (State K) :=
  if A.rank = 1 then some ⟨prodTensor A, prodTensor A, oneVec, oneVec, prodTensor A, prodTensor A, true⟩ else none

/-- `matrix(site)`, /repo/include/mps/itebd.h:88-90 -/
def State.matrix (psi : State K) (site : Int) : Tensor K := if site % 2 = 1 then psi.B else psi.A

/-- `combined_matrix(site)`, /repo/include/mps/itebd.h:93-95 -/
def State.combined (psi : State K) (site : Int) : Tensor K := if site % 2 = 1 then psi.BlB else psi.AlA

/-- `left_vector(site)`, /repo/include/mps/itebd.h:98-100 -/
def State.leftVector (psi : State K) (site : Int) : Tensor K := if site % 2 = 1 then psi.lA else psi.lB

/-- `right_vector(site)`, /repo/include/mps/itebd.h:103-105 -/
def State.rightVector (psi : State K) (site : Int) : Tensor K := if site % 2 = 1 then psi.lB else psi.lA

/-- `diag(v)` of a vector (library `tensor`) -/
def diagOf (v : Tensor K) : Tensor K := ⟨[v.dim 0, v.dim 0], fun i => if i.getD 0 0 = i.getD 1 0 then v.get [i.getD 0 0] else 0⟩

/-- elementwise product of vectors `v * w` -/
def vmul (v w : Tensor K) : Tensor K := ⟨v.dims, fun i => v.get i * w.get i⟩

/-- `left_boundary(site) = diag(left_vector(site) * left_vector(site))`, /repo/include/mps/itebd.h:122-124 -/
def State.leftBoundary (psi : State K) (site : Int) : Tensor K := diagOf (vmul (psi.leftVector site) (psi.leftVector site))

/-- `do_propagate_right(v, A, op)`, /repo/src/tools/propagate_mps.hpp:24-45; an empty operator is no operator -/
def propagateRight (v A op : Tensor K) : Tensor K :=
  let w := fold v (-1) A 0
  let u := if op.isEmpty then w else foldin op (-1) w 1
  foldc (reshape A [u.dim 0 * u.dim 1, u.dim 2]) 0 (reshape u [u.dim 0 * u.dim 1, u.dim 2]) 0

/-- `trace(v)` of a matrix: a number -/
def tr (v : Tensor K) : K := ∑ k ∈ Finset.range (v.dim 0), v.get [k, k]

/-- the operator chosen in the loop body of `do_string_order`, /repo/src/iTEBD/canonical_expected.hpp:74-81 -/
def opAt (Oi Om Oj : Tensor K) (i j : Int) (site : Int) : Tensor K :=
  if site = i then Oi else if site = j then Oj else if site > i ∧ site < j then Om else Tensor.empty

/-- the loop `for (int site = 0; (site <= j) || !(site & 1); ++site)`, /repo/src/iTEBD/canonical_expected.hpp:73-84; it ends after
`j + 2` steps at most, which is what `fuel` is for -/
def orderLoop (psi : State K) (Oi Om Oj : Tensor K) (i j : Int) : Nat → Int → Tensor K × Tensor K → Tensor K × Tensor K
  | 0, _, v => v
  | fuel + 1, site, v =>
    if site ≤ j ∨ site % 2 = 0 then
      orderLoop psi Oi Om Oj i j fuel (site + 1)
        (propagateRight v.1 (psi.combined site) (opAt Oi Om Oj i j site), propagateRight v.2 (psi.combined site) Tensor.empty)
    else v

/-- `do_string_order` for `i < j` and a state in canonical form, /repo/src/iTEBD/canonical_expected.hpp:66-86 -/
def orderBody (psi : State K) (Oi : Tensor K) (i : Int) (Om Oj : Tensor K) (j : Int) : K :=
  let d := j - i
  let i := i % 2
  let j := d + i
  let v := psi.leftBoundary 0
  let r := orderLoop psi Oi Om Oj i j (j.toNat + 3) 0 (v, v)
  tr r.1 / tr r.2

/-- `do_string_order` for `i ≠ j`, /repo/src/iTEBD/canonical_expected.hpp:61-66; `canon` is `canonical_form()` -/
def orderNe (canon : State K → State K) (psi : State K) (Oi : Tensor K) (i : Int) (Om Oj : Tensor K) (j : Int) : K :=
  let phi := if psi.canonical then psi else canon psi
  if i > j then orderBody phi Oj j Om Oi i else orderBody phi Oi i Om Oj j

/-- `expected(psi, Op, site)`, /repo/src/iTEBD/itebd_expected1_d.cc:25-32 -/
def expected1 (canon : State K → State K) (psi : State K) (Op : Tensor K) (site : Int) : K :=
  if site % 2 = 1 then orderNe canon psi Tensor.empty 0 Tensor.empty Op 1
  else orderNe canon psi Op 0 Tensor.empty Tensor.empty 1

/-- `string_order(psi, Opi, i, Opmiddle, Opj, j)`, /repo/src/iTEBD/itebd_string_order_d.cc:27-33 and canonical_expected.hpp:54-88 -/
def stringOrder (canon : State K → State K) (psi : State K) (Oi : Tensor K) (i : Int) (Om Oj : Tensor K) (j : Int) : K :=
  if i = j then expected1 canon psi (mmult Oi Oj) i else orderNe canon psi Oi i Om Oj j

/-- `expected(psi, Op1, i, Op2, j)`, /repo/src/iTEBD/itebd_expected2_d.cc:31-36 -/
def expected2 (canon : State K → State K) (psi : State K) (O1 : Tensor K) (i : Int) (O2 : Tensor K) (j : Int) : K :=
  stringOrder canon psi O1 i Tensor.empty O2 j

/-- the variables of the loop of `do_string_order_many` -/
structure Many (K : Type) where
  v1 : Tensor K
  v2 : Tensor K
  nextv2 : Tensor K
  output : List K

/-- the loop body of `do_string_order_many`, /repo/src/iTEBD/canonical_expected.hpp:103-126 -/
def manyStep (psi : State K) (Oi Om Oj : Tensor K) (x : Many K) (site : Nat) : Many K :=
  let aux := psi.combined site
  let v := propagateRight x.v1 aux (if site ≠ 0 then Oj else mmult Oi Oj)
  let v2 := if x.nextv2.size ≠ 0 then x.nextv2 else propagateRight x.v2 aux Tensor.empty
  let v1 := if site ≠ 0 then propagateRight x.v1 aux Om else propagateRight x.v1 aux Oi
  if site % 2 = 0 then
    let aux' := psi.combined (site + 1)
    let next := propagateRight v2 aux' Tensor.empty
    ⟨v1, v2, next, x.output ++ [tr (propagateRight v aux' Tensor.empty) / tr next]⟩
  else ⟨v1, v2, Tensor.empty, x.output ++ [tr v / tr v2]⟩

/-- `string_order(psi, Opi, Opmiddle, Opj, N)`: the elements of the vector returned,
/repo/src/iTEBD/canonical_expected.hpp:90-130, itebd_string_order_many_d.cc -/
def stringOrderMany (canon : State K → State K) (psi : State K) (Oi Om Oj : Tensor K) (N : Nat) : List K :=
  let phi := if psi.canonical then psi else canon psi
  let v := phi.leftBoundary 0
  ((List.range N).foldl (manyStep phi Oi Om Oj) ⟨v, v, Tensor.empty, []⟩).output

/-- `do_expected12` of a state in canonical form, /repo/src/iTEBD/canonical_expected.hpp:31-51 -/
def expected12Body (psi : State K) (Op12 : Tensor K) (site : Int) : K :=
  let a := psi.AlA.dim 0
  let i := psi.AlA.dim 1
  let b := psi.BlB.dim 0
  let j := psi.BlB.dim 1
  let v := psi.leftBoundary 0
  if site % 2 = 1 then
    let w := propagateRight v psi.AlA Tensor.empty
    let M := reshape (fold psi.BlB (-1) psi.AlA 0) [b, j * i, b]
    tr (propagateRight (propagateRight w M Op12) psi.BlB Tensor.empty) /
      tr (propagateRight (propagateRight w M Tensor.empty) psi.BlB Tensor.empty)
  else
    let M := reshape (fold psi.AlA (-1) psi.BlB 0) [a, i * j, a]
    tr (propagateRight v M Op12) / tr (propagateRight v M Tensor.empty)

/-- `expected12(psi, Op12, site)`, /repo/src/iTEBD/canonical_expected.hpp:25-52, itebd_expected12_d.cc -/
def expected12 (canon : State K → State K) (psi : State K) (Op12 : Tensor K) (site : Int) : K :=
  expected12Body (if psi.canonical then psi else canon psi) Op12 site

/-- `energy(psi, Op12)`, /repo/src/iTEBD/itebd_energy_d.cc:24-27 -/
def energy (canon : State K → State K) (psi : State K) (Op12 : Tensor K) : K :=
  expected12 canon psi Op12 0 + expected12 canon psi Op12 1

/-- `infinite_ghz_state()`, /repo/src/iTEBD/itebd_ghz_state.cc:24-31 -/
noncomputable def ghzInf : Option (State ℝ) :=
  let A : Tensor ℝ := setAt (setAt (zeros [2, 2, 2]) [1, 1, 1] 1) [0, 0, 0] 1
  let lA : Tensor ℝ := ⟨[2], fun _ => 1⟩
  State.new A lA A lA false

/-- `infinite_cluster_state()`, /repo/src/iTEBD/itebd_cluster_state.cc:24-33 -/
noncomputable def clusterInf : Option (State ℝ) :=
  let v : ℝ := 1 / Real.sqrt 2
  let A : Tensor ℝ := setAt (setAt (setAt (setAt (zeros [2, 2, 2]) [0, 1, 0] v) [0, 0, 1] v) [0, 0, 0] v) [1, 1, 1] (-v)
  let lA : Tensor ℝ := ⟨[2], fun _ => 1⟩
  State.new A lA A lA false

/-- `infinite_aklt_state()`, /repo/src/iTEBD/itebd_aklt_state.cc:24-39 -/
noncomputable def akltInf : Option (State ℝ) :=
  let A : Tensor ℝ := setAt (setAt (setAt (setAt (zeros [2, 3, 2]) [0, 0, 1] (Real.sqrt (2 / 3))) [0, 1, 0] (-Real.sqrt (1 / 3)))
    [1, 1, 1] (Real.sqrt (1 / 3))) [1, 2, 0] (-Real.sqrt (2 / 3))
  let lA : Tensor ℝ := ⟨[2], fun _ => 1⟩
  State.new A lA A lA false

end MPS.ITebd
