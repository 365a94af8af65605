import Verif.Tensor

/-!
# Model of /repo/src/quantum/lattice.cc, lattice_apply.cc, lattice_bipartition.cc

A word (`Lattice::word` = `tensor::index`, a 64-bit integer) is a natural number; all words that occur are below `2^35`
because of the limit of 34 sites, so that no overflow is possible, except for the `int right_mask` of `bipartition`,
which is modelled with its 32-bit wrap-around.  `none` = `abort()` (or non-termination, where there is a fuel).
`x & ~y` is modelled by `andNot`.  Sites and fillings are natural numbers.
-/

namespace MPS.Lat
open MPS

/-- table `byte`, /repo/src/quantum/lattice.cc:25-38 -/
def byteTable : List Nat := [
    0, 1, 1, 2, 1, 2, 2, 3, 1, 2, 2, 3, 2, 3, 3, 4, 1, 2, 2, 3, 2, 3,
    3, 4, 2, 3, 3, 4, 3, 4, 4, 5, 1, 2, 2, 3, 2, 3, 3, 4, 2, 3, 3, 4,
    3, 4, 4, 5, 2, 3, 3, 4, 3, 4, 4, 5, 3, 4, 4, 5, 4, 5, 5, 6, 1, 2,
    2, 3, 2, 3, 3, 4, 2, 3, 3, 4, 3, 4, 4, 5, 2, 3, 3, 4, 3, 4, 4, 5,
    3, 4, 4, 5, 4, 5, 5, 6, 2, 3, 3, 4, 3, 4, 4, 5, 3, 4, 4, 5, 4, 5,
    5, 6, 3, 4, 4, 5, 4, 5, 5, 6, 4, 5, 5, 6, 5, 6, 6, 7, 1, 2, 2, 3,
    2, 3, 3, 4, 2, 3, 3, 4, 3, 4, 4, 5, 2, 3, 3, 4, 3, 4, 4, 5, 3, 4,
    4, 5, 4, 5, 5, 6, 2, 3, 3, 4, 3, 4, 4, 5, 3, 4, 4, 5, 4, 5, 5, 6,
    3, 4, 4, 5, 4, 5, 5, 6, 4, 5, 5, 6, 5, 6, 6, 7, 2, 3, 3, 4, 3, 4,
    4, 5, 3, 4, 4, 5, 4, 5, 5, 6, 3, 4, 4, 5, 4, 5, 5, 6, 4, 5, 5, 6,
    5, 6, 6, 7, 3, 4, 4, 5, 4, 5, 5, 6, 4, 5, 5, 6, 5, 6, 6, 7, 4, 5,
    5, 6, 5, 6, 6, 7, 5, 6, 6, 7, 6, 7, 7, 8]

/-- `Lattice::count_bits`, 64-bit branch, /repo/src/quantum/lattice.cc:40-55 -/
def countBits (w : Nat) : Nat :=
  byteTable.getD (w &&& 0xff) 0 + byteTable.getD ((w >>> 8) &&& 0xff) 0
    + byteTable.getD ((w >>> 16) &&& 0xff) 0 + byteTable.getD ((w >>> 24) &&& 0xff) 0
    + byteTable.getD ((w >>> 32) &&& 0xff) 0

/-- `Lattice::states_with_n_particles`, 64-bit branch, /repo/src/quantum/lattice.cc:57-91: the first loop sizes the
array, the second one fills it in the same order. -/
def statesWithN (sites filling : Nat) : Option (List Nat) :=
  if sites > 34 then none
  else if filling > sites then none
  else some ((List.range (1 <<< sites)).filter fun c => countBits c == filling)

/-- `Lattice::states_in_particle_range`, /repo/src/quantum/lattice_bipartition.cc:26-56 -/
def statesInRange (sites nmin nmax : Nat) : Option (List Nat) :=
  if sites > 34 then none
  else some ((List.range (1 <<< sites)).filter fun c => decide (countBits c ≥ nmin) && decide (countBits c ≤ nmax))

/-- the object `Lattice`, /repo/include/mps/lattice.h:105-108 -/
structure Lattice where
  sites : Nat
  particles : Nat
  configurations : List Nat
deriving DecidableEq

/-- constructor `Lattice(sites, N)`, /repo/src/quantum/lattice.cc:93-98 -/
def new (sites N : Nat) : Option Lattice :=
  (statesWithN sites N).map fun c => ⟨sites, N, c⟩

/-- `Lattice::dimension`, /repo/src/quantum/lattice.cc:276-280 -/
def Lattice.dimension (L : Lattice) : Nat := L.configurations.length

/-- `particle_kind_t`, /repo/include/mps/lattice.h:40-45 -/
inductive Kind
  | hardCoreBosons
  | fermions
deriving DecidableEq

/-- `x & ~y` on two's complement words -/
def andNot (x y : Nat) : Nat := x ^^^ (x &&& y)

section Ring
variable {R : Type} [CommRing R]

/-- loop body of `hopping_inner`, branch `HARD_CORE_BOSONS`, /repo/src/quantum/lattice.cc:119-130:
new value of `*v` and of `*it` -/
def bosonStep (mask11 mask01 mask10 other : Nat) : R × Nat :=
  let aux := other &&& mask11
  if aux = mask01 then (1, other ^^^ mask11)
  else if aux = mask10 then (0, other ^^^ mask11)
  else (0, other)

/-- loop body of `hopping_inner`, branch for fermions, /repo/src/quantum/lattice.cc:144-158 -/
def fermionStep (mask11 mask01 mask10 signMask signValue other : Nat) : R × Nat :=
  let aux := other &&& mask11
  if aux = mask01 then
    (if countBits (other &&& signMask) &&& 1 = signValue then -1 else 1, other ^^^ mask11)
  else if aux = mask10 then (0, other ^^^ mask11)
  else (0, other)

/-- `Lattice::hopping_inner`, /repo/src/quantum/lattice.cc:100-161: the pairs `(values[k], ndx[k])` -/
def hoppingInner (L : Lattice) (dst frm : Nat) (kind : Kind) : List (R × Nat) :=
  let fromMask := 1 <<< frm
  let toMask := 1 <<< dst
  let mask11 := fromMask ||| toMask
  match kind with
  | .hardCoreBosons => L.configurations.map (bosonStep mask11 fromMask toMask)
  | .fermions =>
    if frm < dst then
      L.configurations.map
        (fermionStep mask11 fromMask toMask (andNot (toMask - 1) (fromMask - 1)) 0)
    else
      L.configurations.map
        (fermionStep mask11 fromMask toMask (andNot (fromMask - 1) (toMask - 1)) 1)

/-- `sort_indices(v)` of the tensor library: the positions of the elements of `v` in ascending order of value -/
def sortIndices (v : List Nat) : List Nat :=
  (List.range v.length).mergeSort fun i j => decide (v.getD i 0 ≤ v.getD j 0)

/-- `tensor::Sparse`: number of rows, of columns, and entries -/
structure Sparse (R : Type) where
  rows : Nat
  cols : Nat
  entry : Nat → Nat → R

/-- constructor `Sparse(rows, cols, values, nrows, ncols)` of the tensor library: the matrix with `values[k]` added at
`(rows[k], cols[k])` -/
def Sparse.ofTriplets (rows cols : List Nat) (values : List R) (nr nc : Nat) : Sparse R :=
  ⟨nr, nc, fun r c => ∑ k ∈ Finset.range values.length,
    if rows.getD k 0 = r ∧ cols.getD k 0 = c then values.getD k 0 else 0⟩

/-- default constructed `Sparse` -/
def Sparse.emptyS : Sparse R := ⟨0, 0, fun _ _ => 0⟩

/-- sum of sparse matrices -/
def Sparse.add (A B : Sparse R) : Sparse R := ⟨A.rows, A.cols, fun r c => A.entry r c + B.entry r c⟩

/-- scalar multiple of a sparse matrix -/
def Sparse.smul (x : R) (A : Sparse R) : Sparse R := ⟨A.rows, A.cols, fun r c => x * A.entry r c⟩

/-- `Lattice::interaction_inner`, /repo/src/quantum/lattice.cc:195-213 -/
def interactionInner (L : Lattice) (s1 s2 : Nat) : List R :=
  let target := (1 <<< s1) ||| (1 <<< s2)
  L.configurations.map fun w => if w &&& target = target then 1 else 0

/-- `Lattice::interaction_operator`, /repo/src/quantum/lattice.cc:186-193 -/
def interactionOperator (L : Lattice) (s1 s2 : Nat) : Sparse R :=
  let n := List.range L.configurations.length
  Sparse.ofTriplets n n (interactionInner L s1 s2) L.configurations.length L.configurations.length

/-- `Lattice::number_operator`, /repo/src/quantum/lattice.cc:180-184 -/
def numberOperator (L : Lattice) (s : Nat) : Sparse R := interactionOperator L s s

/-- `Lattice::hopping_operator`, /repo/src/quantum/lattice.cc:163-178 -/
def hoppingOperator (L : Lattice) (dst frm : Nat) (kind : Kind) : Sparse R :=
  if dst = frm then numberOperator L frm
  else
    let vn := hoppingInner (R := R) L dst frm kind
    let rows := sortIndices (vn.map Prod.snd)
    let cols := List.range rows.length
    Sparse.ofTriplets rows cols (vn.map Prod.fst) rows.length rows.length

/-- `maybe_add`, /repo/src/quantum/lattice.cc:215-222 -/
def maybeAdd (H Op : Sparse R) : Sparse R := if H.rows ≠ 0 then H.add Op else Op

variable [DecidableEq R]

/-- body of the double loop of `Lattice::Hamiltonian`, /repo/src/quantum/lattice.cc:231-238 (and 251-258) -/
def hamStep (L : Lattice) (J U : Tensor R) (mu : R) (kind : Kind) (H : Sparse R) (ij : Nat × Nat) : Sparse R :=
  let Jij := J.get [ij.1, ij.2] - (if ij.1 = ij.2 then 1 else 0) * mu
  let H := if Jij ≠ 0 then maybeAdd H ((hoppingOperator L ij.1 ij.2 kind).smul Jij) else H
  let Uij := U.get [ij.1, ij.2]
  if Uij ≠ 0 then maybeAdd H ((interactionOperator L ij.1 ij.2).smul Uij) else H

/-- the pairs `(i,j)`, `i < r`, `j < c`, in the order of the double loop -/
def pairs (r c : Nat) : List (Nat × Nat) :=
  (List.range r).flatMap fun i => (List.range c).map fun j => (i, j)

/-- `Lattice::Hamiltonian`, /repo/src/quantum/lattice.cc:224-262 -/
def hamiltonian (L : Lattice) (J U : Tensor R) (mu : R) (kind : Kind) : Sparse R :=
  (pairs (J.dim 0) (J.dim 1)).foldl (hamStep L J U mu kind) Sparse.emptyS

/-- body of the double loop of `apply_lattice`, /repo/src/quantum/lattice_apply.cc:37-44; a vector is a function of
the position -/
def applyStep (L : Lattice) (J U : Tensor R) (kind : Kind) (psi : Nat → R) (out : Nat → R) (ij : Nat × Nat) : Nat → R :=
  let out := if J.get [ij.1, ij.2] ≠ 0 then
      let vn := hoppingInner (R := R) L ij.1 ij.2 kind
      let p := sortIndices (vn.map Prod.snd)
      fun r => out r + J.get [ij.1, ij.2] * (vn.map Prod.fst).getD r 0 * psi (p.getD r 0)
    else out
  if ij.2 ≥ ij.1 ∧ U.get [ij.1, ij.2] ≠ 0 then
    fun r => out r + (U.get [ij.1, ij.2] + U.get [ij.2, ij.1])
      * (interactionInner (R := R) L ij.1 ij.2).getD r 0 * psi r
  else out

/-- `apply_lattice`, /repo/src/quantum/lattice_apply.cc:26-49: the matrix-vector product -/
def applyLattice (L : Lattice) (J U : Tensor R) (kind : Kind) (psi : Nat → R) : Nat → R :=
  (pairs (J.dim 0) (J.dim 0)).foldl (applyStep L J U kind psi) (fun _ => 0)

end Ring

/-- the `while (i != j)` loop of `find_configuration`, /repo/src/quantum/lattice_bipartition.cc:67-76;
`none` = not finished after `fuel` iterations -/
def findLoop (w : Nat) (conf : List Nat) : Nat → Nat → Nat → Option Nat
  | 0, i, j => if i ≠ j then none else some i
  | fuel + 1, i, j =>
    if i ≠ j then
      let k := (i + j) / 2
      let neww := conf.getD k 0
      if neww > w then findLoop w conf fuel i k
      else if neww = w then some k
      else findLoop w conf fuel k j
    else some i

/-- `find_configuration`, /repo/src/quantum/lattice_bipartition.cc:57-78 -/
def findConfiguration (fuel w : Nat) (conf : List Nat) : Option Nat :=
  let j := conf.length - 1
  if w = conf.getD 0 0 then some 0
  else if w = conf.getD j 0 then some j
  else findLoop w conf fuel 0 j

/-- `word & (int)((1 << sites_right) - 1)`, /repo/src/quantum/lattice_bipartition.cc:107,111: the mask is stored in an
`int`; `2^s - 1` with `s ≥ 32` becomes `-1`, which keeps all the bits of the word -/
def rightBits (w sitesRight : Nat) : Nat :=
  if sitesRight ≤ 31 then w &&& ((1 <<< sitesRight) - 1) else w

/-- `Lattice::bipartition`, /repo/src/quantum/lattice_bipartition.cc:80-123 -/
def bipartition (fuel : Nat) (L : Lattice) (sitesLeft : Nat) : Option (List Nat × List Nat × List Nat) := do
  if sitesLeft = 0 ∨ L.sites ≤ sitesLeft then none
  else
    let sitesRight := L.sites - sitesLeft
    let leftMin := L.particles - sitesRight
    let rightMin := L.particles - sitesLeft
    let leftMax := min sitesLeft L.particles
    let rightMax := min sitesRight L.particles
    let left ← statesInRange sitesLeft leftMin leftMax
    let right ← statesInRange sitesRight rightMin rightMax
    let ndx ← L.configurations.mapM fun w => do
      let il ← findConfiguration fuel (w >>> sitesRight) left
      let ir ← findConfiguration fuel (rightBits w sitesRight) right
      pure (ir + il * right.length)
    pure (left, right, ndx)

end MPS.Lat
