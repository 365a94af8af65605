import Verif.HamModel
import Verif.MinimizerModel

/-!
# Model of /repo/src/dmrg/dmrg.cc: class `DMRG<MPS>`

`DMRG<CMPS>` works with the answers of the Hamiltonian; `DMRG<RMPS>` with the real parts of all local terms and factors of
the interactions (`to_tensor`, dmrg.cc:529-540), that is, with the Hamiltonian `reHam H` of `Props/HamProps2.lean`.

`linalg::svd`, `linalg::eigs` and `linalg::Arpack` of the library `tensor` are parameters; the eigenvalue solver returns the vector of the
lowest eigenvalue and the list of eigenvalues.  `neigenvalues` and the extraction of that vector are in `DmrgManyModel.lean`.  There are
no conserved quantities (`Q_values` is empty, see `DmrgQModel.lean`); debug output is left out.  `none` = `abort()` or failed assert.  The members
`Hl_` and `Hr_` are one vector: `Hr_` is a reference to `Hl_` (dmrg.h:66-67, dmrg.cc:62).
-/

namespace MPS.Dmrg
open MPS Tensor Minim
variable {K : Type} [RCLike K]

/-- what changes during `minimize`: the state, the vector `Hl_` = `Hr_`, `Proj_`, and the member `eigenvalues`.  `lost` and `total` are not part of the
program: the weights of the singular values dropped by the last update of the state and by all of them. -/
structure St (K : Type) where
  P : List (Tensor K)
  A : List (Tensor K)
  proj : List (List (Tensor K))
  vals : List ℝ
  lost : ℝ
  total : ℝ

/-- `adjoint(A)` of a matrix -/
def adjoint (A : Tensor K) : Tensor K := transpose (conj A)

/-- `ensure_Hermitian(A)`, /repo/src/dmrg/dmrg.cc:106-111 -/
noncomputable def ensureHermitian (A : Tensor K) : Tensor K := smul (1 / 2) (add A (adjoint A))

/-- entry `m` of `compute_interactions_right(P, k)`, /repo/src/dmrg/dmrg.cc:595-614 -/
def interactionRight (H : Ham K) (P : List (Tensor K)) (k m : Nat) : Tensor K :=
  let Pk := site P (k + 1)
  let ds := [Pk.dim 0, Pk.dim 1 * Pk.dim 2]
  foldc (reshape Pk ds) (-1) (reshape (foldin (H.right k m) (-1) Pk 1) ds) (-1)

/-- entry `m` of `compute_interactions_left(P, k)`, /repo/src/dmrg/dmrg.cc:616-635 -/
def interactionLeft (H : Ham K) (P : List (Tensor K)) (k m : Nat) : Tensor K :=
  let Pk := site P (k - 1)
  let ds := [Pk.dim 0 * Pk.dim 1, Pk.dim 2]
  foldc (reshape Pk ds) 0 (reshape (foldin (H.left (k - 1) m) (-1) Pk 1) ds) 0

/-- `block_site_interaction_right(P, k)`, /repo/src/dmrg/dmrg.cc:637-652 -/
noncomputable def blockRight (H : Ham K) (P A : List (Tensor K)) (k : Nat) : Tensor K :=
  let i1 := (site P k).dim 1
  let a2 := (site P k).dim 2
  ensureHermitian
    (if k + 1 < H.size then
      (List.range (H.depth k)).foldl (fun Heff m => add Heff (kron2 (H.left k m) (interactionRight H P k m)))
        (kron2 (eye i1) (site A (k + 1)))
    else zeros [i1 * a2, i1 * a2])

/-- `block_site_interaction_left(P, k)`, /repo/src/dmrg/dmrg.cc:654-669 -/
def blockLeft (H : Ham K) (P A : List (Tensor K)) (k : Nat) : Tensor K :=
  let a1 := (site P k).dim 0
  let i1 := (site P k).dim 1
  if k > 0 then
    (List.range (H.depth (k - 1))).foldl (fun Heff m => add Heff (kron2 (interactionLeft H P k m) (H.right (k - 1) m)))
      (kron2 (site A (k - 1)) (eye i1))
  else zeros [a1 * i1, a1 * i1]

/-- the new entry of `Hr_` in `update_matrices_right(P, k)`, /repo/src/dmrg/dmrg.cc:738-760 -/
noncomputable def rightMatrix (H : Ham K) (P A : List (Tensor K)) (k : Nat) : Tensor K :=
  let Pk := site P k
  let i1 := Pk.dim 1
  let b1 := Pk.dim 2
  let Pm := reshape Pk [Pk.dim 0, i1 * b1]
  let Hblock := ensureHermitian (add (blockRight H P A k) (kron2 (H.loc k) (eye b1)))
  fold (foldc Pm (-1) (reshape Hblock [i1 * b1, i1 * b1]) 0) (-1) Pm (-1)

/-- the new entry of `Hl_` in `update_matrices_left(P, k)`, /repo/src/dmrg/dmrg.cc:774-796 -/
noncomputable def leftMatrix (H : Ham K) (P A : List (Tensor K)) (k : Nat) : Tensor K :=
  let Pk := site P k
  let b1 := Pk.dim 0
  let i1 := Pk.dim 1
  let Pm := reshape Pk [b1 * i1, Pk.dim 2]
  let Hblock := ensureHermitian (add (blockLeft H P A k) (kron2 (eye b1) (H.loc k)))
  foldc Pm 0 (mmult (reshape Hblock [b1 * i1, b1 * i1]) Pm) 0

/-- `update_matrices_right(P, k)`, /repo/src/dmrg/dmrg.cc:738-772; `P0` are the states given to `orthogonal_to` -/
noncomputable def updateRight (H : Ham K) (P0 : List (List (Tensor K))) (d : St K) (k : Nat) : St K :=
  { d with
    A := d.A.set k (rightMatrix H d.P d.A k)
    proj := (P0.zip d.proj).map fun q =>
      q.2.set k (propMatrix (if k + 1 < H.size then site q.2 (k + 1) else Tensor.empty) (-1) (site q.1 k) (site d.P k) none) }

/-- `update_matrices_left(P, k)`, /repo/src/dmrg/dmrg.cc:774-808 -/
noncomputable def updateLeft (H : Ham K) (P0 : List (List (Tensor K))) (d : St K) (k : Nat) : St K :=
  { d with
    A := d.A.set k (leftMatrix H d.P d.A k)
    proj := (P0.zip d.proj).map fun q =>
      q.2.set k (propMatrix (if k = 0 then Tensor.empty else site q.2 (k - 1)) 1 (site q.1 k) (site d.P k) none) }

/-- `init_matrices(P, 0, ...)`, /repo/src/dmrg/dmrg.cc:572-593: the loop `for (i = size(); i-- > 0;)`; the number is `i` before
it is decremented -/
noncomputable def initMatrices (H : Ham K) (P0 : List (List (Tensor K))) : Nat → St K → St K
  | 0, d => d
  | i + 1, d => initMatrices H P0 i (updateRight H P0 d i)

/-- `Opli` and `Opir` of `minimize_single_site(P, k, dk)`, /repo/src/dmrg/dmrg.cc:129-136 -/
noncomputable def opLeft (H : Ham K) (P A : List (Tensor K)) (k : Nat) (dk : Int) : Tensor K :=
  if dk > 0 then add (blockLeft H P A k) (kron2 (eye ((site P k).dim 0)) (H.loc k)) else blockLeft H P A k

/-- see `opLeft` -/
noncomputable def opRight (H : Ham K) (P A : List (Tensor K)) (k : Nat) (dk : Int) : Tensor K :=
  if dk > 0 then blockRight H P A k else add (blockRight H P A k) (kron2 (H.loc k) (eye ((site P k).dim 2)))

/-- the matrix `Heff`, /repo/src/dmrg/dmrg.cc:147, multiplied with a vector -/
noncomputable def denseMul (Opli Opir : Tensor K) (a1 b1 : Nat) (x : Tensor K) : Tensor K :=
  mmult (add (kron2 Opli (eye b1)) (kron2 (eye a1) Opir)) x

/-- the function of vectors given to `Arpack`, /repo/src/dmrg/dmrg.cc:153-158 -/
noncomputable def arpackMul (Opli Opir : Tensor K) (a1 i1 b1 : Nat) (x : Tensor K) : Tensor K :=
  reshape (add (reshape (fold (reshape Opli [a1 * i1, a1 * i1]) (-1) (reshape x [a1 * i1, b1]) 0) [a1 * (i1 * b1)])
    (reshape (fold (reshape x [a1, i1 * b1]) (-1) (reshape Opir [i1 * b1, i1 * b1]) (-1)) [a1 * (i1 * b1)])) [a1 * (i1 * b1)]

/-- `minimize_single_site(P, k, dk)`, /repo/src/dmrg/dmrg.cc:113-178: the new state and the eigenvalue.  The sum of the matrices
of different sizes `a1*i1` by `b1` and `a1` by `i1*b1` in lines 155-156 is a sum of vectors here.  `none`: the diagonalisation has failed
(`abort()`, line 162; the dense `eigs` of line 148 is treated alike), or the local term is empty, so that it cannot be added. -/
noncomputable def singleSite (svd : Tensor K → SvdRes K) (eps dflt : ℝ) (eigs : Eigs K) (H : Ham K) (P0 : List (List (Tensor K)))
    (d : St K) (k : Nat) (dk : Int) : Option (St K × ℝ) :=
  let Pk := site d.P k
  let a1 := Pk.dim 0
  let i1 := Pk.dim 1
  let b1 := Pk.dim 2
  let Opli := opLeft H d.P d.A k dk
  let Opir := opRight H d.P d.A k dk
  let r := if a1 * i1 * b1 ≤ 10 then eigs (denseMul Opli Opir a1 b1) Pk.size (reshape Pk [Pk.size])
    else eigs (arpackMul Opli Opir a1 i1 b1) Pk.size (reshape Pk [Pk.size])
  if (H.loc k).isEmpty then none
  else if r.ok then
    let c := setCanonical svd eps dflt d.P k (reshape r.P [a1, i1, b1]) dk true
    let d := { d with P := c.1, vals := r.vals, lost := c.2, total := d.total + c.2 }
    some (if dk > 0 then updateLeft H P0 d k else updateRight H P0 d k, RCLike.re r.E)
  else none

/-- the eigenvalue problem of `minimize_two_sites`, /repo/src/dmrg/dmrg.cc:275-394, up to `reconstruct_state`, is an arbitrary
function of the state of the object and of `k`: the vector, the eigenvalue, and whether the solver has succeeded -/
abbrev Solve (K : Type) := St K → Nat → Tensor K × ℝ × Bool

/-- `minimize_two_sites(P, k, dk, Dmax)`, /repo/src/dmrg/dmrg.cc:271-412; inner `none` = `error` is set.  The call of line 399 is
`set_canonical_2_sites(P, Pi, k, svd_tolerance, Dmax, false)`; the parameters of that function are `(P, Pij, site, sense, Dmax, tol,
canonicalize_both = true)` (/repo/include/mps/mps.h:186-196), so that `svd_tolerance`, converted to `int`, is the sense, and
`false`, converted to `double`, the tolerance.  The function reads the four dimensions of its second argument and fails if it has not
got four (/repo/src/mps/mps_canonical2.cc:38).  `svdTol` is the value of `svd_tolerance`, converted to an integer by truncation. -/
noncomputable def twoSites (svd : Tensor K → SvdRes K) (eps dflt : ℝ) (solve : Solve K) (svdTol : ℝ) (H : Ham K)
    (P0 : List (List (Tensor K))) (d : St K) (k : Nat) (dk : Int) (Dmax : Nat) : Option (Option (St K × ℝ)) :=
  let r := solve d k
  if r.2.2 then
    if r.1.rank ≠ 4 then none
    else (setCanonical2 svd eps dflt d.P r.1 k (if 0 ≤ svdTol then ⌊svdTol⌋ else ⌈svdTol⌉) Dmax 0 true).map fun c =>
      let d := { d with P := c.1, lost := c.2.1 + c.2.2, total := d.total + (c.2.1 + c.2.2) }
      some (if dk > 0 then updateLeft H P0 d k else updateRight H P0 d (k + 1), r.2.1)
  else some none

/-- what the loop over the sites of one iteration of `minimize` ends with: `skip` = `continue`, `failed` = `error` is set -/
inductive Iter (σ : Type) where
  | skip (d : σ)
  | failed (d : σ)
  | done (d : σ) (E : ℝ)

/-- one pass of single-site steps to the right, `for (k = 0; k != L; k++)`, /repo/src/dmrg/dmrg.cc:461, 466-472; the
first argument is `L - k` -/
noncomputable def singleRight (svd : Tensor K → SvdRes K) (eps dflt : ℝ) (eigs : Eigs K) (H : Ham K) (P0 : List (List (Tensor K))) :
    Nat → Nat → St K → ℝ → Option (Iter (St K))
  | 0, _, d, E => some (.done d E)
  | fuel + 1, k, d, _ => (singleSite svd eps dflt eigs H P0 d k 1).bind fun r =>
      singleRight svd eps dflt eigs H P0 fuel (k + 1) r.1 r.2

/-- one pass of single-site steps to the left, `for (k = L-1; k != 0; k--)`, /repo/src/dmrg/dmrg.cc:463, 466-472; the first argument is `k` -/
noncomputable def singleLeft (svd : Tensor K → SvdRes K) (eps dflt : ℝ) (eigs : Eigs K) (H : Ham K) (P0 : List (List (Tensor K))) :
    Nat → St K → ℝ → Option (Iter (St K))
  | 0, d, E => some (.done d E)
  | k + 1, d, _ => (singleSite svd eps dflt eigs H P0 d (k + 1) (-1)).bind fun r =>
      singleLeft svd eps dflt eigs H P0 k r.1 r.2

/-- one pass of two-site steps to the right, `for (k = 0; k != L-1; k++)`, /repo/src/dmrg/dmrg.cc:453, 466-476; the first
argument is `L - 1 - k` -/
noncomputable def twoRight (svd : Tensor K → SvdRes K) (eps dflt : ℝ) (solve : Solve K) (svdTol : ℝ) (H : Ham K)
    (P0 : List (List (Tensor K))) (Dmax : Nat) : Nat → Nat → St K → ℝ → Option (Iter (St K))
  | 0, _, d, E => some (.done d E)
  | fuel + 1, k, d, _ => (twoSites svd eps dflt solve svdTol H P0 d k 1 Dmax).bind fun r =>
      match r with
      | none => some (.failed d)
      | some r => twoRight svd eps dflt solve svdTol H P0 Dmax fuel (k + 1) r.1 r.2

/-- one pass of two-site steps to the left, `for (k = L-2; k != -1; k--)`, /repo/src/dmrg/dmrg.cc:457, 466-476; the first argument is
`k + 1` -/
noncomputable def twoLeft (svd : Tensor K → SvdRes K) (eps dflt : ℝ) (solve : Solve K) (svdTol : ℝ) (H : Ham K)
    (P0 : List (List (Tensor K))) (Dmax : Nat) : Nat → St K → ℝ → Option (Iter (St K))
  | 0, d, E => some (.done d E)
  | k + 1, d, _ => (twoSites svd eps dflt solve svdTol H P0 d k (-1) Dmax).bind fun r =>
      match r with
      | none => some (.failed d)
      | some r => twoLeft svd eps dflt solve svdTol H P0 Dmax k r.1 r.2

/-- one iteration of `minimize`, /repo/src/dmrg/dmrg.cc:451-480 -/
noncomputable def iteration (svd : Tensor K → SvdRes K) (eps dflt : ℝ) (eigs : Eigs K) (solve : Solve K) (svdTol : ℝ) (H : Ham K)
    (P0 : List (List (Tensor K))) (Dmax : Nat) (dk : Int) (d : St K) : Option (Iter (St K)) :=
  if Dmax ≠ 0 then
    if dk > 0 then twoRight svd eps dflt solve svdTol H P0 Dmax (H.size - 1) 0 d 0
    else if H.size < 3 then some (.skip d)
    else twoLeft svd eps dflt solve svdTol H P0 Dmax (H.size - 1) d 0
  else
    if dk > 0 then singleRight svd eps dflt eigs H P0 H.size 0 d 0
    else singleLeft svd eps dflt eigs H P0 (H.size - 1) d 0

/-- the members of `DMRG` which control the loop, /repo/include/mps/dmrg.h:37-43.  The constructor sets `sweeps` to 32, `tolerance` to
1e-6 and `svd_tolerance` to 1e-8; `allow_E_growth` is not initialised by it, so that it may be any number. -/
structure Opts where
  sweeps : Nat
  tolerance : ℝ
  svdTolerance : ℝ
  allowGrowth : Int

/-- what `minimize` leaves behind: the value returned, and the state.  `energies` (the numbers `newE` of all the iterations) and
`last` are not visible to the caller. -/
structure Out (K : Type) where
  E : ℝ
  P : List (Tensor K)
  energies : List ℝ
  last : St K

/-- the loop of `minimize`, /repo/src/dmrg/dmrg.cc:441-518; the first argument is the number of iterations left.  `fail` is what happens
when `error` is set: `P = canonical_form(P)`, line 474. -/
noncomputable def loop (iter : Int → St K → Option (Iter (St K))) (fail : List (Tensor K) → List (Tensor K)) (o : Opts) :
    Nat → Nat → Int → Int → ℝ → St K → List ℝ → Option (Out K)
  | 0, _, _, _, E, d, es => some ⟨E, d.P, es, d⟩
  | fuel + 1, i, dk, failures, E, d, es =>
    (iter dk d).bind fun r =>
      match r with
      | .skip d => loop iter fail o fuel (i + 1) (-dk) failures E d es
      | .failed d => some ⟨E, fail d.P, es, d⟩
      | .done d newE =>
        open Classical in
        if i ≠ 0 ∧ |newE - E| < o.tolerance then some ⟨newE, d.P, es ++ [newE], d⟩
        else if i ≠ 0 ∧ newE - E > 1 / 10 ^ 14 * |newE| then
          if failures ≥ o.allowGrowth then some ⟨newE, d.P, es ++ [newE], d⟩
          else loop iter fail o fuel (i + 1) (-dk) (failures + 1) newE d (es ++ [newE])
        else loop iter fail o fuel (i + 1) (-dk) failures newE d (es ++ [newE])

/-- `P = canonical_form(P); init_matrices(P, 0, Dmax > 0);`, /repo/src/dmrg/dmrg.cc:437-439, in an object with the states `P0` -/
noncomputable def start (svd : Tensor K → SvdRes K) (eps dflt : ℝ) (H : Ham K) (P0 : List (List (Tensor K))) (P : List (Tensor K)) : St K :=
  let c := canonicalForm svd eps dflt P (-1)
  initMatrices H P0 H.size ⟨c.1, List.replicate H.size Tensor.empty, P0, [], c.2, c.2⟩

/-- `DMRG<MPS> solver(H); solver.orthogonal_to(P0[0]); ...; solver.minimize(&P, Dmax, E)`, /repo/src/dmrg/dmrg.cc:60-100, 427-519.  `none`
also when the Hamiltonian has less than two sites or is periodic (lines 72-79), or some local term is empty: it is added in
`update_matrices_right` for every site. -/
noncomputable def minimize (svd : Tensor K → SvdRes K) (eps dflt : ℝ) (eigs : Eigs K) (solve : Solve K) (o : Opts) (H : Ham K)
    (P0 : List (List (Tensor K))) (P : List (Tensor K)) (Dmax : Nat) (E : ℝ) : Option (Out K) :=
  if H.size < 2 ∨ H.periodic = true then none
  else if (List.range H.size).any fun k => (H.loc k).isEmpty then none
  else loop (iteration svd eps dflt eigs solve o.svdTolerance H P0 Dmax) (fun P => (canonicalForm svd eps dflt P (-1)).1) o
    o.sweeps 0 1 0 E (start svd eps dflt H P0 P) []

end MPS.Dmrg
