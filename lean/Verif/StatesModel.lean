import Verif.MPSModel
import Mathlib.Analysis.Real.Sqrt

/-!
# Model of /repo/src/mps: constructors, reference states, reduced density matrix
-/

namespace MPS
open Tensor
variable {R : Type} [CommRing R]

/-- shape of the tensor at site `i` in `presize_mps`, /repo/src/mps/mps_presize.h:31-38 -/
def presizeDims (l : Nat) (d D : Nat) (periodic : Bool) (i : Nat) : List Nat :=
  [if periodic || decide (0 < i) then D else 1, d,
   if periodic || decide ((i : Int) < (l : Int) - 1) then D else 1]

/-- `presize_mps`, /repo/src/mps/mps_presize.h:24-40; `none` = failed assert (`bond_dimension > 0`,
`physical_dimensions[i] > 0`) -/
def presizeMPS (pd : List Nat) (D : Nat) (periodic : Bool) : Option (List (Tensor R)) :=
  if 0 < D ∧ ∀ d ∈ pd, 0 < d then
    some (pd.mapIdx fun i d => zeros (presizeDims pd.length d D periodic i))
  else none

/-- constructor `RMPS(length, physical_dimension, bond_dimension, periodic)`, /repo/src/mps/rmps.cc:55-64
(cmps.cc: same).  With `physical_dimension == 0` the tensors stay default constructed (empty). -/
def newMPS (length pd D : Nat) (periodic : Bool) : Option (List (Tensor R)) :=
  if pd = 0 then some (List.replicate length Tensor.empty)
  else presizeMPS (List.replicate length pd) D periodic

/-- constructor `RMPS(Indices, bond_dimension, periodic)`, /repo/src/mps/rmps.cc:66-71 -/
def newMPSdims (pd : List Nat) (D : Nat) (periodic : Bool) : Option (List (Tensor R)) :=
  presizeMPS pd D periodic

/-- `randomize`, /repo/src/mps/rmps_random.cc:25-29: replaces the content of every tensor, keeping its shape.  The
random numbers are a parameter. -/
def randomize (rnd : Nat → List Nat → R) (ψ : List (Tensor R)) : List (Tensor R) :=
  ψ.mapIdx fun i A => ⟨A.dims, rnd i⟩

/-- `RMPS::random(length, d, D, periodic)`, /repo/src/mps/rmps_random.cc:31-37 -/
def randomMPS (rnd : Nat → List Nat → R) (length pd D : Nat) (periodic : Bool) :
    Option (List (Tensor R)) := (newMPS length pd D periodic).map (randomize rnd)

/-- `RMPS::random(Indices, D, periodic)`, /repo/src/mps/rmps_random.cc:39-45.  The constructor call is
`RMPS output(physical_dimensions.size(), bond_dimension, periodic)`: it resolves to the constructor
(length, physical_dimension, bond_dimension, periodic = false), /repo/include/mps/rmps.h, i.e. the bond dimension
is taken as physical dimension and the flag as bond dimension. -/
def randomMPSdims (rnd : Nat → List Nat → R) (pd : List Nat) (D : Nat) (periodic : Bool) :
    Option (List (Tensor R)) :=
  (newMPS pd.length D (if periodic then 1 else 0) false).map (randomize rnd)

/-- `RMPS::is_periodic`, /repo/src/mps/rmps.cc:28-37 -/
def isPeriodic (ψ : List (Tensor R)) : Bool :=
  if ψ.length = 0 then false
  else
    let d0 := (site ψ 0).dim 0
    let dl := (site ψ (ψ.length - 1)).dim 2
    d0 == dl && decide (d0 > 1)

/-- `product_state(length, v)`, /repo/src/mps/rmps_product_state.cc:27-37, cmps_product_state.cc; `none` = failed
assert -/
def productState (length : Nat) (v : Tensor R) : Option (List (Tensor R)) :=
  if v.rank = 1 ∧ v.size ≠ 0 ∧ 0 < length then
    some (List.replicate length (reshape v [1, v.size, 1]))
  else none

/-- `fill_with_zeros()` -/
def fillZeros (A : Tensor R) : Tensor R := ⟨A.dims, fun _ => 0⟩

/-- the branch `length == 1` of `ghz_state`, /repo/src/mps/rmps_ghz_state.cc:30-39 -/
def ghzOne (v : R) (periodic : Bool) (A : Tensor R) : Tensor R :=
  let aux := fillZeros A
  if periodic then setAt (setAt aux [0, 1, 0] v) [1, 1, 1] v
  else setAt (setAt aux [0, 0, 0] v) [0, 1, 0] v

/-- the loop body of `ghz_state`, /repo/src/mps/rmps_ghz_state.cc:42-55 -/
def ghzSite (v : R) (periodic : Bool) (length i : Nat) (A : Tensor R) : Tensor R :=
  let aux := fillZeros A
  let p := if periodic then 1 else 0
  if i = 0 then setAt (setAt aux [0, 0, 0] v) [p, 1, 1] v
  else if i = length - 1 then setAt (setAt aux [0, 0, 0] v) [1, 1, p] v
  else setAt (setAt aux [0, 0, 0] 1) [1, 1, 1] 1

/-- `ghz_state(length, periodic)`, /repo/src/mps/rmps_ghz_state.cc:27-59, with the two numbers `v = 1/sqrt(2)` (branch
`length == 1`) and `w = 1/sqrt(sqrt(2))` as parameters -/
def ghzWith (v w : R) (length : Nat) (periodic : Bool) : Option (List (Tensor R)) :=
  (newMPS length 2 2 periodic).map fun out =>
    if length = 1 then out.set 0 (ghzOne v periodic (site out 0))
    else out.mapIdx (ghzSite w periodic length)

/-- `ghz_state`, exact arithmetic in place of `double` -/
noncomputable def ghzState (length : Nat) (periodic : Bool) : Option (List (Tensor ℝ)) :=
  ghzWith (1 / Real.sqrt 2) (1 / Real.sqrt (Real.sqrt 2)) length periodic

/-- tensor written at site `i` by `cluster_state` (`length ≥ 3`), /repo/src/mps/rmps_cluster_state.cc:36-53 -/
def clusterSite (v : R) (length i : Nat) (A : Tensor R) : Tensor R :=
  if i = 0 then setAt (setAt (fillZeros A) [0, 1, 1] v) [0, 0, 0] v
  else if i = length - 1 then
    setAt (setAt (setAt (setAt A [0, 0, 0] v) [0, 1, 0] v) [1, 0, 0] v) [1, 1, 0] (-v)
  else
    setAt (setAt (setAt (setAt (fillZeros A) [0, 0, 0] v) [1, 0, 0] v) [0, 1, 1] v) [1, 1, 1] (-v)

/-- `cluster_state(length)`, /repo/src/mps/rmps_cluster_state.cc:27-56 -/
noncomputable def clusterState (length : Nat) : Option (List (Tensor ℝ)) :=
  if length < 3 then ghzState length false
  else (newMPS length 2 2 false).map fun out => out.mapIdx (clusterSite (1 / Real.sqrt 2) length)

section Star
variable [StarRing R]

/-- the contraction in `do_density_matrix`, /repo/src/mps/mps_dty_matrix.cc:38-56 -/
def densityContract (ML MR A : Tensor R) : Tensor R :=
  let a1 := MR.dim 2
  let b1 := MR.dim 3
  let a2 := ML.dim 2
  let b2 := ML.dim 3
  let a3 := MR.dim 0
  let b3 := MR.dim 1
  let d := A.dim 1
  let E := foldin (reshape MR [a3, b3, a1 * b1]) (-1) (reshape ML [a1 * b1, a2, b2]) 0
  let E := permute E 0 3
  let A := reshape (permute A 0 1) [d, a2 * a3]
  let E := foldc A (-1) (reshape E [b2 * b3, a2 * a3]) 0
  let E := fold E (-1) A (-1)
  transpose E

/-- `do_density_matrix`, /repo/src/mps/mps_dty_matrix.cc:24-57.  `none`: failed `assert(site < psi.size())`, or
`get_dimensions` with four arguments on a tensor that does not have rank 4, which is what happens at the first and
last sites, where `ML` or `MR` is still default constructed. -/
def densityMatrix (ψ : List (Tensor R)) (k : Nat) : Option (Tensor R) :=
  if k < ψ.length then
    let ML := propAllRight Tensor.empty ((ψ.take k).map fun A => (A, A, none))
    let MR := propAllLeft Tensor.empty ((ψ.drop (k + 1)).map fun A => (A, A, none))
    if ML.rank = 4 ∧ MR.rank = 4 then some (densityContract ML MR (site ψ k)) else none
  else none

end Star
end MPS
