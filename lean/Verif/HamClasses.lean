import Verif.HamModel
import Verif.MPOModel
import Verif.CanonModel

/-!
# The classes of Hamiltonians and what is built from them

`ConstantHamiltonian` and `TIHamiltonian` (/repo/src/hamiltonian), `expected(psi, H)`, the constructors `CMPO(H)` and
`RMPO(H)`, `decompose_operator`, `split_interaction`, and `sparse_1d_hamiltonian` / `sparse_hamiltonian`.
A sparse matrix is modelled by the matrix of its entries; `none` = `abort()` or failed assert (asserts are modelled as
enabled).
-/

namespace MPS
open Tensor

section Const
variable {R : Type} [CommRing R]

/-- the object `ConstantHamiltonian`, /repo/include/mps/hamiltonian.h:93-120 -/
structure ConstHam (R : Type) where
  H12 : List (Tensor R)
  left : List (List (Tensor R))
  right : List (List (Tensor R))
  H1 : List (Tensor R)
  dims : List Nat
  periodic : Bool

namespace ConstHam

/-- constructor, /repo/src/hamiltonian/hamiltonian_constant.cc:30-35.  (`dimensions_` is not initialised by the program;
here it starts with zeros.) -/
def new (N : Nat) (periodic : Bool) : ConstHam R :=
  ⟨List.replicate N Tensor.empty, List.replicate N [], List.replicate N [], List.replicate N Tensor.empty,
    List.replicate N 0, periodic⟩

/-- `size()`, /repo/src/hamiltonian/hamiltonian_constant.cc:43-47 -/
def size (h : ConstHam R) : Nat := h.H12.length

/-- `dimension(k)`, /repo/src/hamiltonian/hamiltonian_constant.cc:98-102 -/
def dimension (h : ConstHam R) (k : Nat) : Nat := h.dims.getD k 0

/-- `interaction(k)`, /repo/src/hamiltonian/hamiltonian_constant.cc:61-72 -/
def interaction (h : ConstHam R) (k : Nat) : Tensor R :=
  let H := h.H12.getD k Tensor.empty
  if H.isEmpty then zeros [h.dimension k * h.dimension (k + 1), h.dimension k * h.dimension (k + 1)] else H

/-- `interaction_left(k, ndx)`, /repo/src/hamiltonian/hamiltonian_constant.cc:74-78 -/
def interactionLeft (h : ConstHam R) (k ndx : Nat) : Tensor R := (h.left.getD k []).getD ndx Tensor.empty

/-- `interaction_right(k, ndx)`, /repo/src/hamiltonian/hamiltonian_constant.cc:80-84 -/
def interactionRight (h : ConstHam R) (k ndx : Nat) : Tensor R := (h.right.getD k []).getD ndx Tensor.empty

/-- `interaction_depth(k)`, /repo/src/hamiltonian/hamiltonian_constant.cc:86-90 -/
def interactionDepth (h : ConstHam R) (k : Nat) : Nat := (h.left.getD k []).length

/-- `local_term(k)`, /repo/src/hamiltonian/hamiltonian_constant.cc:92-96 -/
def localTerm (h : ConstHam R) (k : Nat) : Tensor R := h.H1.getD k Tensor.empty

/-- `set_local_term(k, H1)`, /repo/src/hamiltonian/hamiltonian_constant.cc:104-111.  The assert lets `k = size()` pass, but
`H1_.at(k)` then fails. -/
def setLocalTerm (h : ConstHam R) (k : Int) (H1 : Tensor R) : Option (ConstHam R) :=
  if k < 0 ∨ k > h.H1.length then none
  else if k.toNat < h.H1.length then
    some { h with H1 := h.H1.set k.toNat H1, dims := h.dims.set k.toNat (H1.dim 0) }
  else none

/-- the loop of `compute_interaction(k)`, /repo/src/hamiltonian/hamiltonian_constant.cc:139-146 -/
def interactionSum (l r : List (Tensor R)) : Tensor R :=
  (List.range l.length).foldl (fun H i =>
    let op := kron2 (l.getD i Tensor.empty) (r.getD i Tensor.empty)
    if i = 0 then op else add H op) Tensor.empty

/-- `compute_interaction(k)`, /repo/src/hamiltonian/hamiltonian_constant.cc:135-153 -/
def computeInteraction (h : ConstHam R) (k : Nat) : Tensor R :=
  let H := interactionSum (h.left.getD k []) (h.right.getD k [])
  if H.isEmpty then zeros [h.dimension k * h.dimension (k + 1), h.dimension k * h.dimension (k + 1)] else H

/-- `add_interaction(k, H1, H2)`, /repo/src/hamiltonian/hamiltonian_constant.cc:123-133 -/
def addInteraction (h : ConstHam R) (k : Int) (H1 H2 : Tensor R) : Option (ConstHam R) :=
  if k < 0 ∨ k + 1 ≥ h.H12.length then none
  else
    let n := k.toNat
    let h := { h with left := h.left.set n (h.left.getD n [] ++ [H1]), right := h.right.set n (h.right.getD n [] ++ [H2]) }
    let h := { h with H12 := h.H12.set n (h.computeInteraction n) }
    some { h with dims := (h.dims.set n (H1.dim 0)).set (n + 1) (H2.dim 0) }

/-- `set_interaction(k, H1, H2)`, /repo/src/hamiltonian/hamiltonian_constant.cc:113-121.  (Its own assert, `k <= size()`, is
weaker than that of `add_interaction`, which it calls.) -/
def setInteraction (h : ConstHam R) (k : Int) (H1 H2 : Tensor R) : Option (ConstHam R) :=
  if k < 0 ∨ k > h.H12.length then none
  else ({ h with left := h.left.set k.toNat [], right := h.right.set k.toNat [] } : ConstHam R).addInteraction k H1 H2

/-- the object seen through the interface `Hamiltonian` -/
def toHam (h : ConstHam R) : Ham R :=
  { size := h.size, dim := h.dimension, loc := h.localTerm, inter := h.interaction, depth := h.interactionDepth,
    left := h.interactionLeft, right := h.interactionRight, periodic := h.periodic }

end ConstHam

/-! ### CMPO(H), RMPO(H) -/

/-- `H.dimensions()`, /repo/src/hamiltonian/hamiltonian.cc:35-44 -/
def Ham.dimensions (H : Ham R) : List Nat := (List.range H.size).map H.dim

/-- the inner loop `for (j < interaction_depth(i))` of `CMPO::CMPO(H,t)`, /repo/src/mpo/cmpo_from_hamiltonian.cc:34-39 -/
def mpoBond (H : Ham R) (i : Nat) (O : List (Tensor R)) : Option (List (Tensor R)) :=
  (List.range (H.depth i)).foldlM (fun O j =>
    let Hi := H.left i j
    let Hj := H.right i j
    if Hi.isEmpty then some O else addInteraction O Hi i Hj) O

/-- constructor `CMPO(H, t)`, /repo/src/mpo/cmpo_from_hamiltonian.cc:26-41 -/
def cmpoFromHam (H : Ham R) : Option (List (Tensor R)) := do
  let O ← newMPO H.dimensions
  let O ← (List.range O.length).foldlM (fun O (i : Nat) => addLocalTerm O (H.loc i) i) O
  (List.range (O.length - 1)).foldlM (fun O i => mpoBond H i O) O

/-! ### expected(psi, H, t) -/

variable [StarRing R]

/-- the loop over the terms of one bond, /repo/src/hamiltonian/hamiltonian_expected.cc:41-45 -/
def energyBond (P : List (Tensor R)) (H : Ham R) (k k2 : Nat) (E : R) : Option R :=
  (List.range (H.depth k)).foldlM (fun E i => (expected2 P (H.left k i) k (H.right k i) k2).map (E + ·)) E

/-- the contribution of the local term, /repo/src/hamiltonian/hamiltonian_expected.cc:31-34 -/
def energyLocal (P : List (Tensor R)) (H : Ham R) (k : Nat) (E : R) : Option R :=
  if (H.loc k).isEmpty then some E else (expected1 P (H.loc k) k).map (E + ·)

/-- the main loop of `do_expected`, /repo/src/hamiltonian/hamiltonian_expected.cc:30-47; the first argument is the number of
iterations left, `N - k` -/
def energyLoop (P : List (Tensor R)) (H : Ham R) : Nat → Nat → Nat → R → Option R
  | 0, _, _, E => some E
  | fuel + 1, k, k2, E => do
    let E ← energyLocal P H k E
    if k2 = H.size ∧ (k = 0 ∨ ¬ H.periodic) then some E
    else do
      let k2 := if k2 = H.size then 0 else k2
      let E ← energyBond P H k k2 E
      energyLoop P H fuel (k + 1) (k2 + 1) E

/-- `expected(psi, H, t)` before the real part is taken, /repo/src/hamiltonian/hamiltonian_expected.cc:25-56 -/
def energy (P : List (Tensor R)) (H : Ham R) : Option R := energyLoop P H H.size 0 1 0

end Const

/-! ### RMPO(H) -/

/-- `safe_real(R)`, /repo/src/mpo/rmpo_from_hamiltonian.cc:25-32 -/
noncomputable def safeReal (A : Tensor ℂ) : Option (Tensor ℝ) :=
  open Classical in
  if ∀ idx, InB A.dims idx → (A.get idx).im = 0 then some ⟨A.dims, fun i => (A.get i).re⟩ else none

/-- the inner loop of `RMPO::RMPO(H,t)`, /repo/src/mpo/rmpo_from_hamiltonian.cc:42-47 -/
noncomputable def rmpoBond (H : Ham ℂ) (i : Nat) (O : List (Tensor ℝ)) : Option (List (Tensor ℝ)) :=
  (List.range (H.depth i)).foldlM (fun O j => do
    let Hi ← safeReal (H.left i j)
    let Hj ← safeReal (H.right i j)
    if Hi.isEmpty then some O else addInteraction O Hi i Hj) O

/-- constructor `RMPO(H, t)`, /repo/src/mpo/rmpo_from_hamiltonian.cc:34-49.  Unlike in `CMPO(H, t)`, the second loop runs
over all `i < size()`. -/
noncomputable def rmpoFromHam (H : Ham ℂ) : Option (List (Tensor ℝ)) := do
  let O ← newMPO (R := ℝ) H.dimensions
  let O ← (List.range O.length).foldlM (fun O (i : Nat) => (safeReal (H.loc i)).bind fun h => addLocalTerm O h i) O
  (List.range O.length).foldlM (fun O i => rmpoBond H i O) O

/-! ### decompose_operator, split_interaction, TIHamiltonian -/

section Svd
variable {K : Type} [RCLike K]

/-- result of `limited_svd` -/
structure LimSvd (K : Type) where
  U : Tensor K
  s : List ℝ
  V : Tensor K

/-- `norm2(s)` of a vector -/
noncomputable def vecNorm (s : List ℝ) : ℝ := Real.sqrt (s.map fun x => x ^ 2).sum

/-- `limited_svd(A, &U, &V, tolerance, max_dim = 0)`, /repo/src/tools/limited_svd_d.cc:25-35 (limited_svd_z.cc) -/
noncomputable def limitedSvd (svd : Tensor K → SvdRes K) (eps dflt : ℝ) (A : Tensor K) (tol : ℝ) : LimSvd K :=
  let r := svd A
  let c := whereToTruncate eps dflt r.s tol 0
  let s := r.s.take c
  ⟨changeDim r.U 1 c, s.map fun x => x / vecNorm s, changeDim r.V 0 c⟩

/-- the rearrangement `reshape(permute(reshape(U0, d1,d2,d1,d2), 1,2), d1*d1,d2*d2)`,
/repo/src/quantum/decompose_operator.cc:53, /repo/src/hamiltonian/split_interaction.cc:43 -/
def rearrange (U0 : Tensor K) (d1 d2 : Nat) : Tensor K :=
  reshape (permute (reshape U0 [d1, d2, d1, d2]) 1 2) [d1 * d1, d2 * d2]

/-- `decompose_operator(U0, &O1, &O2)`, /repo/src/quantum/decompose_operator.cc:36-65; the tolerance is
`MPS_DEFAULT_TOLERANCE = -4` -/
noncomputable def decomposeOperator (svd : Tensor K → SvdRes K) (eps dflt : ℝ) (U0 : Tensor K) :
    Option (Tensor K × Tensor K) :=
  let d1 := Nat.sqrt (U0.dim 0)
  let d2 := d1
  if U0.dim 0 ≠ U0.dim 1 then none
  else
    let r := limitedSvd svd eps dflt (rearrange U0 d1 d2) (-4)
    let s := r.s.map Real.sqrt
    let O1 := scale r.U (-1) (vecOf s)
    let O2 := scale r.V 0 (vecOf s)
    some (reshape O1 [d1, d1, s.length], reshape (transpose O2) [d2, d2, s.length])

/-- `O(range(), range(), range(i))` squeezed: the `i`-th operator of a stack -/
def sliceLast (O : Tensor K) (i : Nat) : Tensor K := ⟨[O.dim 0, O.dim 1], fun x => O.get [x.getD 0 0, x.getD 1 0, i]⟩

/-- `split_interaction(H12, &v1, &v2)`, /repo/src/hamiltonian/split_interaction.cc:30-55 -/
noncomputable def splitInteraction (svd : Tensor K → SvdRes K) (eps dflt : ℝ) (H12 : Tensor K) :
    List (Tensor K) × List (Tensor K) :=
  let d1 := Nat.sqrt (H12.dim 0)
  let d2 := d1
  let r := limitedSvd svd eps dflt (rearrange H12 d1 d2) (1 / 10 ^ 13)
  ((List.range r.s.length).map fun i =>
      smul ((Real.sqrt (r.s.getD i 0) : ℝ) : K) (reshape ⟨[d1 * d1], fun x => r.U.get [x.getD 0 0, i]⟩ [d1, d1]),
   (List.range r.s.length).map fun i =>
      conj (smul ((Real.sqrt (r.s.getD i 0) : ℝ) : K) (reshape ⟨[d2 * d2], fun x => r.V.get [i, x.getD 0 0]⟩ [d2, d2])))

/-- constructor `TIHamiltonian(N, H12, H1, periodic)` and the methods of the object,
/repo/src/hamiltonian/hamiltonian_ti.cc:32-105; `dimension(k)` is inherited, /repo/src/hamiltonian/hamiltonian.cc:29-33.
`norm2(H12)` is zero iff all entries vanish; `round(sqrt(rows))` and `(index)sqrt(rows)` agree on the squares to which
they are meant to be applied, and are both modelled by `Nat.sqrt`. -/
noncomputable def tiHam (svd : Tensor K → SvdRes K) (eps dflt : ℝ) (N : Nat) (H12 H1 : Tensor K) (periodic : Bool) :
    Option (Ham K) :=
  open Classical in
  if H1.isEmpty ∧ H12.isEmpty then none
  else
    let H1' := if H1.isEmpty then zeros [Nat.sqrt (H12.dim 0), Nat.sqrt (H12.dim 0)] else H1
    let d := H1'.dim 0
    let H12' := if H12.isEmpty then zeros [d * d, d * d] else H12
    let v := if H12.isEmpty ∨ ∀ idx, InB H12.dims idx → H12.get idx = 0 then ([], []) else splitInteraction svd eps dflt H12
    some { size := N, dim := fun _ => H1'.dim 1, loc := fun _ => H1', inter := fun _ => H12', depth := fun _ => v.1.length,
           left := fun _ n => v.1.getD n Tensor.empty, right := fun _ n => v.2.getD n Tensor.empty, periodic := periodic }

/-! ### sparse_1d_hamiltonian -/

/-- the guess of the local dimension at one site, /repo/src/quantum/sparse_1d_hamiltonian_many.cc:37-46 -/
def guessDim (H12 H1 : Tensor K) : Option Nat :=
  if ¬ H1.isEmpty then some (H1.dim 0)
  else if ¬ H12.isEmpty then some (Nat.sqrt (H12.dim 0))
  else none

/-- `Dleft[k]`, /repo/src/quantum/sparse_1d_hamiltonian_many.cc:54-57 -/
def dLeft (d : List Nat) : Nat → Nat
  | 0 => 1
  | k + 1 => dLeft d k * d.getD k 0

/-- `Dright[N-1-i]`, /repo/src/quantum/sparse_1d_hamiltonian_many.cc:62-65 -/
def dRightRev (d : List Nat) : Nat → Nat
  | 0 => 1
  | i + 1 => dRightRev d i * d.getD (d.length - 1 - i) 0

/-- `Dright[k]` -/
def dRight (d : List Nat) (k : Nat) : Nat := dRightRev d (d.length - 1 - k)

/-- the terms of the periodic bond, /repo/src/quantum/sparse_1d_hamiltonian_many.cc:72-81 -/
noncomputable def periodicBond (svd : Tensor K → SvdRes K) (eps dflt : ℝ) (H : Tensor K) (m : Nat) (out : Tensor K) :
    Option (Tensor K) :=
  (decomposeOperator svd eps dflt H).map fun O =>
    (List.range (O.1.dim (-1))).foldl (fun out i =>
      add out (kron (sliceLast O.2 i) (kron (eye m) (sliceLast O.1 i)))) out

/-- `do_sparse_1d_hamiltonian(H12, H1, periodic)`, /repo/src/quantum/sparse_1d_hamiltonian_many.cc:24-89.  Both vectors are
read up to `N = max(H12.size(), H1.size())`, so that different lengths are an out-of-range access (here `none`), as is
`N = 0`. -/
noncomputable def sparse1dMany (svd : Tensor K → SvdRes K) (eps dflt : ℝ) (H12 H1 : List (Tensor K)) (periodic : Bool) :
    Option (Tensor K) :=
  let N := max H12.length H1.length
  if H12.length ≠ N ∨ H1.length ≠ N ∨ N = 0 then none
  else do
    let d ← (List.range N).mapM fun k => guessDim (site H12 k) (site H1 k)
    let D := d.prod
    let out := zeros [D, D]
    let out := (List.range (N - 1)).foldl (fun out k0 =>
      let k := k0 + 1
      if (site H12 (k - 1)).isEmpty then out
      else add out (kron (eye (dRight d k)) (kron (site H12 (k - 1)) (eye (dLeft d (k - 1)))))) out
    (if periodic ∧ N > 1 then
        periodicBond svd eps dflt (site H12 (N - 1)) (dLeft d (N - 1) / d.getD 0 0) out
      else some out).map fun out => ((List.range N).foldl (fun out k =>
      if (site H1 k).isEmpty then out
      else add out (kron (eye (dRight d k)) (kron (site H1 k) (eye (dLeft d k))))) out)

/-- `sparse_hamiltonian(H, t)`, /repo/src/hamiltonian/sparse_hamiltonian.cc:25-39 -/
noncomputable def sparseHamiltonian (svd : Tensor K → SvdRes K) (eps dflt : ℝ) (H : Ham K) : Option (Tensor K) :=
  sparse1dMany svd eps dflt
    ((List.range H.size).map fun k => if (k + 1 < H.size ∨ H.periodic) ∧ H.depth k ≠ 0 then H.inter k else Tensor.empty)
    ((List.range H.size).map H.loc) H.periodic

/-- `do_pair_Hamiltonian(H12, H1, N, periodic)`, /repo/src/quantum/sparse_1d_hamiltonian.cc:30-69.  `length()` of a sparse
matrix is the number of stored elements; a matrix without any contributes nothing, so that the test is modelled by
`is_empty`.  The integer powers of `d` are exact here (the program computes them with `pow` in double precision). -/
noncomputable def sparse1dUniform (svd : Tensor K → SvdRes K) (eps dflt : ℝ) (H12 H1 : Tensor K) (N : Nat) (periodic : Bool) :
    Option (Tensor K) :=
  if H12.isEmpty ∧ H1.isEmpty then none
  else
    let d := max (H1.dim 0) (Nat.sqrt (H12.dim 0))
    let out := zeros [d ^ N, d ^ N]
    (if H12.isEmpty then some out else
        let out := (List.range (N - 1)).foldl (fun out k0 =>
          let k := k0 + 1
          add out (kron (eye (d ^ (k - 1))) (kron H12 (eye (d ^ (N - k - 1)))))) out
        if periodic ∧ N > 1 then periodicBond svd eps dflt H12 (d ^ (N - 2)) out else some out).map fun out => (if H1.isEmpty then out else
      (List.range N).foldl (fun out k => add out (kron (eye (d ^ k)) (kron H1 (eye (d ^ (N - k - 1)))))) out)

end Svd
end MPS
