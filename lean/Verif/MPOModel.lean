import Verif.MPSModel

/-!
# Model of /repo/src/mpo: matrix product operators

An MPO object (`RMPO`, `CMPO`) is the list of its tensors `A(a,i,j,b)`.  `none` = `abort()` or failed assert.
-/

namespace MPS
open Tensor
variable {R : Type} [CommRing R]

/-- `P.at(range(a),range(),range(),range(b)) = M` for a `d×d` matrix `M` (also written `reshape(M,1,d,d,1)`) -/
def setSlice (P : Tensor R) (a b : Nat) (M : Tensor R) : Tensor R :=
  ⟨P.dims, fun idx => if idx.getD 0 0 = a ∧ idx.getD 3 0 = b then M.get [idx.getD 1 0, idx.getD 2 0] else P.get idx⟩

/-- `P(range(a),range(),range(),range(b))` seen as a `d×d` matrix -/
def getSlice (P : Tensor R) (a b : Nat) : Tensor R :=
  ⟨[P.dim 1, P.dim 2], fun idx => P.get [a, idx.getD 0 0, idx.getD 1 0, b]⟩

/-- loop body of `RMPO::clear`, /repo/src/mpo/rmpo.cc:55-74 (cmpo.cc:54-73) -/
def clearSite (size i d : Nat) : Tensor R :=
  if i = 0 then setSlice (zeros [1, d, d, 2]) 0 0 (eye d)
  else if i + 1 < size then setSlice (setSlice (zeros [2, d, d, 2]) 1 1 (eye d)) 0 0 (eye d)
  else setSlice (zeros [2, d, d, 1]) 1 0 (eye d)

/-- constructor `RMPO(Indices)` = `clear`, /repo/src/mpo/rmpo.cc:41-76 -/
def newMPO (ds : List Nat) : Option (List (Tensor R)) :=
  if ds.length < 2 then none else some (ds.mapIdx fun i d => clearSite ds.length i d)

/-- constructor `RMPO(length, physical_dimension)`, /repo/src/mpo/rmpo.cc:29-39 -/
def newMPO1 (length d : Nat) : Option (List (Tensor R)) :=
  if length < 2 then none else newMPO (List.replicate length d)

/-- the tensor stored by `do_add_local_term`, /repo/src/mpo/mpo_add_term.cc:55-71 -/
def addLocalSite (P h : Tensor R) : Tensor R :=
  if P.dim 0 = 1 then setSlice P 0 1 (add (getSlice P 0 1) h)
  else if P.dim 3 = 1 then setSlice P 0 0 (add (getSlice P 0 0) h)
  else setSlice P 0 1 (add (getSlice P 0 1) h)

/-- `add_local_term(mpo, Hloc, i)`, /repo/src/mpo/mpo_add_term.cc:38-72 -/
def addLocalTerm (O : List (Tensor R)) (h : Tensor R) (i : Int) : Option (List (Tensor R)) :=
  if i < 0 ∨ i ≥ O.length then none
  else if h.dim 1 ≠ h.dim 0 then none
  else
    let P := site O i.toNat
    if P.dim 1 ≠ h.dim 0 then none
    else some (O.set i.toNat (addLocalSite P h))

/-- `add_interaction(mpo, Hi, i, Hj)`, /repo/src/mpo/mpo_add_term.cc:74-119 -/
def addInteraction (O : List (Tensor R)) (Hi : Tensor R) (i : Int) (Hj : Tensor R) :
    Option (List (Tensor R)) :=
  if i < 0 then none
  else if i + 1 ≥ O.length then none
  else if Hi.dim 0 ≠ Hi.dim 1 then none
  else if Hj.dim 0 ≠ Hj.dim 1 then none
  else
    let n := i.toNat
    let di := Hi.dim 0
    let dj := Hj.dim 0
    let Pi := site O n
    let Pj := site O (n + 1)
    let b := Pi.dim 3 + 1
    let Pi := changeDim Pi 3 b
    let Pj := changeDim Pj 0 b
    if Pi.dim 1 ≠ di then none
    else if Pj.dim 1 ≠ dj then none
    else
      let Pi := setSlice Pi 0 (b - 1) Hi
      let Pj := if n + 2 = O.length then setSlice Pj (b - 1) 0 Hj else setSlice Pj (b - 1) 1 Hj
      some ((O.set n Pi).set (n + 1) Pj)

section Dec
variable [DecidableEq R]

/-- `norm2(A) == 0` and `sum(abs(A)) == 0`: all entries vanish (exact arithmetic) -/
def isZeroT (A : Tensor R) : Bool := (List.range A.size).all fun n => decide (A.lin n = 0)

/-- `while (start < end && p(start)) ++start;` with `fuel = end - start`, /repo/src/mpo/mpo_add_product_term.cc:55-57 -/
def startLoop (p : Nat → Bool) : Nat → Nat → Nat
  | 0, s => s
  | f + 1, s => if p s then startLoop p f (s + 1) else s

/-- `while (end && p(end-1)) --end;`, /repo/src/mpo/mpo_add_product_term.cc:58-61 -/
def endLoop (p : Nat → Bool) : Nat → Nat
  | 0 => 0
  | n + 1 => if p n then endLoop p n else n + 1

/-- loop body of the long-range `do_add_interaction`, /repo/src/mpo/mpo_add_long_range_term.cc:62-86,122 -/
def longRangeSite (Hj : Tensor R) (i : Nat) (sign : Option (Tensor R)) (start stop lastClosing j : Nat)
    (P : Tensor R) : Tensor R :=
  let dl := P.dim 0
  let dr := P.dim 3
  let P1 :=
    if j + 1 < stop then
      let P := changeDim P 3 (dr + 1)
      if j ≤ i then setSlice P 0 dr Hj else P
    else P
  let closing := if j + 1 < stop then 1 else lastClosing
  if start < j then
    let P2 := changeDim P1 0 (dl + 1)
    let P3 := if i ≤ j then setSlice P2 dl closing Hj else P2
    if i ≠ j ∧ j + 1 < stop then
      setSlice P3 dl dr (match sign with | some s => s | none => eye (Hj.dim 0))
    else P3
  else P1

/-- long-range `add_interaction(mpo, H, i, sign)`, /repo/src/mpo/mpo_add_long_range_term.cc:38-124.  The list `H` must
have one operator per site (`H[j]` is not range checked). -/
def addLongRange (O H : List (Tensor R)) (i : Int) (sign : Option (Tensor R)) :
    Option (List (Tensor R)) :=
  if i < 0 ∨ i ≥ O.length then none
  else if isZeroT (site H i.toNat) then some O
  else
    let z := fun j => isZeroT (site H j)
    let start := startLoop z O.length 0
    let stop := endLoop z O.length
    let lastClosing := if stop < O.length then 1 else 0
    some (O.mapIdx fun j P =>
      if start ≤ j ∧ j < stop then longRangeSite (site H j) i.toNat sign start stop lastClosing j P else P)

/-- `add_interaction(mpo, H, i)` for every origin: body of `do_add_hopping_matrix`,
/repo/src/mpo/mpo_add_hopping_matrix.cc:39-49 -/
def hoppingOps (L : Nat) (J ad a : Tensor R) (j : Nat) : List (Tensor R) :=
  (List.range L).map fun i => if i = j then ad else smul (J.get [j, i]) a

/-- `do_add_hopping_matrix` = `add_jordan_wigner_matrix`, /repo/src/mpo/mpo_add_hopping_matrix.cc:24-50,
mpo_add_hopping_matrix_d.cc:30-35 -/
def addJordanWigner (O : List (Tensor R)) (J ad a sign : Tensor R) : Option (List (Tensor R)) :=
  if J.rank = 2 ∧ J.dim 0 = J.dim 1 ∧ J.dim 0 = O.length then
    (List.range O.length).foldlM
      (fun (O : List (Tensor R)) (j : Nat) => addLongRange O (hoppingOps O.length J ad a j) (j : Int) (some sign)) O
  else none

/-- `add_hopping_matrix`, /repo/src/mpo/mpo_add_hopping_matrix_d.cc:24-28 -/
def addHopping (O : List (Tensor R)) (J ad a : Tensor R) : Option (List (Tensor R)) :=
  addJordanWigner O J ad a (eye (a.dim 0))

/-- `is_identity`, /repo/src/mpo/mpo_add_product_term.cc:38-45 -/
def isIdentityT (A : Tensor R) : Bool :=
  A.rank == 2 && A.dim 1 == A.dim 0 &&
    (List.range A.size).all fun n => decide (A.lin n = (eye (A.dim 0)).lin n)

/-- loop body of `add_product_term`, /repo/src/mpo/mpo_add_product_term.cc:62-84 -/
def productSite (Hj : Tensor R) (start stop closing j : Nat) (P : Tensor R) : Tensor R :=
  let P1 := if start < j then changeDim P 0 (P.dim 0 + 1) else P
  let dl := if start < j then P.dim 0 else 0
  let P2 := if j + 1 < stop then changeDim P1 3 (P.dim 3 + 1) else P1
  let dr := if j + 1 < stop then P.dim 3 else closing
  if dl = 0 ∧ dr = closing then setSlice P2 dl dr (add Hj (getSlice P2 dl dr))
  else setSlice P2 dl dr Hj

/-- `add_product_term(mpo, H)`, /repo/src/mpo/mpo_add_product_term.cc:47-85 -/
def addProductTerm (O H : List (Tensor R)) : List (Tensor R) :=
  let p := fun j => isIdentityT (site H j)
  let start := startLoop p O.length 0
  let stop := endLoop p O.length
  let closing := if stop < O.length then 1 else 0
  O.mapIdx fun j P => if start ≤ j ∧ j < stop then productSite (site H j) start stop closing j P else P

end Dec

/-- loop body of `local_Hamiltonian_mpo`, /repo/src/mpo/mpo_local_Hamiltonian.cc:43-57.  `aux(range(0),…)` keeps the
first row, `aux(…,range(1))` the second column. -/
def localHamSite (size i : Nat) (h : Tensor R) : Tensor R :=
  let d := h.dim 0
  let aux := setSlice (zeros [2, d, d, 2]) 0 1 h
  let aux := setSlice aux 1 1 (eye d)
  let aux := setSlice aux 0 0 (eye d)
  let aux := if i = 0 then (⟨[1, d, d, 2], fun idx => aux.get (idx.set 0 0)⟩ : Tensor R) else aux
  if i + 1 = size then ⟨[aux.dim 0, d, d, 1], fun idx => aux.get (idx.set 3 1)⟩ else aux

/-- `local_Hamiltonian_mpo(Hloc)`, /repo/src/mpo/mpo_local_Hamiltonian.cc:37-60 (the constructor call aborts for fewer
than two sites) -/
def localHamiltonianMPO (H : List (Tensor R)) : Option (List (Tensor R)) :=
  if H.length < 2 then none else some (H.mapIdx fun i h => localHamSite H.length i h)

/-- loop body of `apply`, /repo/src/mpo/mpo_apply.cc:35-44 -/
def applySite (O A : Tensor R) : Tensor R :=
  let B := foldin O 2 A 1
  let a1 := B.dim 0
  let c1 := B.dim 1
  let j := B.dim 2
  let c2 := B.dim 3
  let a2 := B.dim 4
  reshape (permute B 0 1) [c1 * a1, j, a2 * c2]

/-- `apply(mpo, psi)`, /repo/src/mpo/mpo_apply.cc:24-47 -/
def applyMPO (O ψ : List (Tensor R)) : Option (List (Tensor R)) :=
  if O.length = ψ.length then some (List.zipWith applySite O ψ) else none

/-- loop body of `mmult`, /repo/src/mpo/mpo_mmult.cc:33-44 -/
def mmultSite (tA tB : Tensor R) : Tensor R :=
  let tC := foldin tB 1 tA 2
  let a1 := tC.dim 0
  let i := tC.dim 1
  let c1 := tC.dim 2
  let k := tC.dim 3
  let c2 := tC.dim 4
  let a2 := tC.dim 5
  reshape (permute (permute tC 1 2) 4 5) [a1 * c1, i, k, a2 * c2]

/-- `mmult(A, B)` of MPOs, /repo/src/mpo/mpo_mmult.cc:24-47 -/
def mmultMPO (A B : List (Tensor R)) : Option (List (Tensor R)) :=
  if A.length = B.length then some (List.zipWith mmultSite A B) else none

/-- loop of `mpo_to_matrix`, /repo/src/mpo/mpo_to_matrix.cc:34-45 -/
def toMatrixLoop : Tensor R → Nat → List (Tensor R) → Tensor R × Nat
  | B, D, [] => (B, D)
  | B, D, A :: As =>
    let d := A.dim 1
    let b := A.dim 3
    let B := fold B 2 A 0
    toMatrixLoop (reshape (permute B 1 2) [D * d, D * d, b]) (D * d) As

/-- `mpo_to_matrix(A)`, /repo/src/mpo/mpo_to_matrix.cc:26-47 (`ones(1,1,1)` restricts it to open boundary conditions) -/
def mpoToMatrix (O : List (Tensor R)) : Tensor R :=
  let r := toMatrixLoop (⟨[1, 1, 1], fun _ => 1⟩ : Tensor R) 1 O
  reshape r.1 [r.2, r.2]

/-- `mpo_to_mps(mpo)`, /repo/src/mpo/mpo_to_mps_d.cc:24-35 -/
def mpoToMPS (O : List (Tensor R)) : List (Tensor R) :=
  O.map fun m => reshape m [m.dim 0, m.dim 1 * m.dim 2, m.dim 3]

/-- `adjoint(CMPO)`, /repo/src/mpo/mpo_adjoint_z.cc:24-31 -/
def adjointC [StarRing R] (O : List (Tensor R)) : List (Tensor R) := O.map fun m => conj (permute m 1 2)

/-- `adjoint(RMPO)`, /repo/src/mpo/mpo_adjoint_d.cc:24-28: returns its argument -/
def adjointR (O : List (Tensor R)) : List (Tensor R) := O

/-- `expected(bra, op, ket)`, /repo/src/mpo/mpo_expected_d.cc:24-27 (default sense of `scprod`, mps.h) -/
def expectedMPO [StarRing R] (bra O ket : List (Tensor R)) : Option R :=
  (applyMPO O ket).bind fun χ => scprod bra χ 1

/-- `expected(psi, op)`, /repo/src/mpo/mpo_expected_d.cc:29-32 -/
def expectedMPO1 [StarRing R] (ψ O : List (Tensor R)) : Option R := expectedMPO ψ O ψ

end MPS
