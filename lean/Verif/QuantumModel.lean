import Verif.LatticeModel
import Mathlib.Analysis.Real.Sqrt
import Mathlib.Analysis.SpecialFunctions.Exp
import Mathlib.Algebra.Order.Floor.Semiring
import Mathlib.Data.Complex.Basic
import Mathlib.Analysis.Complex.Basic

/-!
# Model of /repo/src/quantum/fock.cc and spin.cc

Floating point is replaced by exact real and complex numbers.
-/

namespace MPS.Quantum
open MPS MPS.Lat

/-- `iota(a, b)` of the tensor library: `a, a+1, ..., b` (empty when `b < a`; here `b` is given as the number of
elements) -/
def iota (a n : Nat) : List Nat := List.range' a n

/-- `linspace(a, b, n)` of the tensor library: `n` equally spaced numbers from `a` to `b` (just `a` for `n = 1`) -/
noncomputable def linspace (a b : ℝ) (n : Nat) : List ℝ :=
  (List.range n).map fun i : Nat => if n = 1 then a else a + (i : ℝ) * ((b - a) / ((n : ℝ) - 1))

/-- `number_operator(nmax)`, /repo/src/quantum/fock.cc:31-37 -/
noncomputable def numberOperator (nmax : Nat) : Sparse ℝ :=
  let ndx := iota 0 (nmax + 1)
  Sparse.ofTriplets ndx ndx (linspace 0 nmax (nmax + 1)) (nmax + 1) (nmax + 1)

/-- `destruction_operator(nmax)`, /repo/src/quantum/fock.cc:42-49 -/
noncomputable def destructionOperator (nmax : Nat) : Sparse ℝ :=
  Sparse.ofTriplets (iota 0 nmax) (iota 1 nmax) ((linspace 1 nmax nmax).map Real.sqrt) (nmax + 1) (nmax + 1)

/-- `creation_operator(nmax)`, /repo/src/quantum/fock.cc:54-61 -/
noncomputable def creationOperator (nmax : Nat) : Sparse ℝ :=
  Sparse.ofTriplets (iota 1 nmax) (iota 0 nmax) ((linspace 1 nmax nmax).map Real.sqrt) (nmax + 1) (nmax + 1)

/-- the loop of the real `coherent_state`, /repo/src/quantum/fock.cc:70-73: `fuel` iterations left, at index `i` -/
noncomputable def coherentLoopR (alpha : ℝ) : Nat → Nat → ℝ → List ℝ
  | 0, _, _ => []
  | fuel + 1, i, c => c :: coherentLoopR alpha fuel (i + 1) (c * alpha / Real.sqrt ((i + 1 : Nat) : ℝ))

/-- `coherent_state(double, nmax)`, /repo/src/quantum/fock.cc:66-75 -/
noncomputable def coherentStateR (alpha : ℝ) (nmax : Nat) : List ℝ :=
  coherentLoopR alpha (nmax + 1) 0 (Real.exp (-alpha * alpha / 2))

/-- the loop of the complex `coherent_state`, /repo/src/quantum/fock.cc:85-88 -/
noncomputable def coherentLoopC (alpha : ℂ) : Nat → Nat → ℂ → List ℂ
  | 0, _, _ => []
  | fuel + 1, i, c => c :: coherentLoopC alpha fuel (i + 1) (c * alpha / ((Real.sqrt ((i + 1 : Nat) : ℝ) : ℝ) : ℂ))

/-- `coherent_state(cdouble, nmax)`, /repo/src/quantum/fock.cc:80-90 -/
noncomputable def coherentStateC (alpha : ℂ) (nmax : Nat) : List ℂ :=
  let a2 := ‖alpha‖
  coherentLoopC alpha (nmax + 1) 0 ((Real.exp (-a2 * a2 / 2) : ℝ) : ℂ)

/-- `diag(v)`, `diag(v, +1)`, `diag(v, -1)` of the tensor library: `v` on the main diagonal, the one above, the one
below, of a matrix of size `d` -/
def diag0 {R : Type} [Zero R] (d : Nat) (v : Nat → R) : Tensor R :=
  ⟨[d, d], fun x => if x.getD 0 0 = x.getD 1 0 then v (x.getD 0 0) else 0⟩
@[inherit_doc diag0]
def diagUp {R : Type} [Zero R] (d : Nat) (v : Nat → R) : Tensor R :=
  ⟨[d, d], fun x => if x.getD 1 0 = x.getD 0 0 + 1 then v (x.getD 0 0) else 0⟩
@[inherit_doc diag0]
def diagDown {R : Type} [Zero R] (d : Nat) (v : Nat → R) : Tensor R :=
  ⟨[d, d], fun x => if x.getD 0 0 = x.getD 1 0 + 1 then v (x.getD 1 0) else 0⟩

/-- `to_complex` -/
noncomputable def toComplex (A : Tensor ℝ) : Tensor ℂ := ⟨A.dims, fun x => ((A.get x : ℝ) : ℂ)⟩

/-- `spin_operators(s, &sx, &sy, &sz)`, /repo/src/quantum/spin.cc:41-63; `none` = abort() -/
noncomputable def spinOperators (s : ℝ) : Option (Tensor ℂ × Tensor ℂ × Tensor ℂ) :=
  if s < 0.5 ∨ s > 3.0 then none
  else
    let d := ⌊2 * s + 1⌋₊
    let aux1 := fun i : Nat => s - i
    let aux2 := fun i : Nat => Real.sqrt (s * (s + 1) - ((s - i) - 1) * (s - i))
    let sp := diagUp d aux2
    let sm := diagDown d aux2
    some (toComplex (Tensor.smul 0.5 (Tensor.add sp sm)),
      Tensor.smul (Complex.I * 0.5) (toComplex (Tensor.add sm (Tensor.smul (-1) sp))),
      toComplex (diag0 d aux1))

/-- a 2×2 tensor from its elements in storage order, `Tensor(igen << 2 << 2, gen << ...)` -/
def ofStorage {R : Type} [Zero R] (v : List R) : Tensor R := ⟨[2, 2], fun x => v.getD (Tensor.flat [2, 2] x) 0⟩

/-- `Pauli_id`, `Pauli_x`, `Pauli_z`, `Pauli_y`, /repo/src/quantum/spin.cc:30-35 (as complex tensors) -/
def pauliId : Tensor ℂ := ofStorage [1, 0, 0, 1]
@[inherit_doc pauliId]
def pauliX : Tensor ℂ := ofStorage [0, 1, 1, 0]
@[inherit_doc pauliId]
def pauliZ : Tensor ℂ := ofStorage [1, 0, 0, -1]
@[inherit_doc pauliId]
noncomputable def pauliY : Tensor ℂ := ofStorage [0, Complex.I, -Complex.I, 0]

end MPS.Quantum
