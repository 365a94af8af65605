import Verif.DmrgModel

/-!
# Model of /repo/src/dmrg/dmrg.cc: conserved quantities (`commutes_with`, `Q_values`)

The vectors `Ql_` and `Qr_` have one entry, a vector of tensors, for each number in `Q_values`.  What is stored in them (lines 764-768, 801-804) is
an arbitrary function of the number of the quantity and of the site: only `prepare_simplifier` reads it, and that is part of the arbitrary
function `solve` of the two-site algorithm.
-/

namespace MPS.Dmrg
open MPS Tensor Minim
variable {K : Type} [RCLike K]

/-- `v.at(n)` of a `std::vector`: `none` = the exception `out_of_range` -/
def atQ {α : Type} (v : List α) (n : Nat) : Option α := v[n]?

/-- `Qr_.at(n).at(k) = value`, /repo/src/dmrg/dmrg.cc:768 -/
def storeQ (Qr : List (List (Tensor K))) (n k : Nat) (value : Tensor K) : Option (List (List (Tensor K))) :=
  (atQ Qr n).bind fun q => (atQ q k).bind fun _ => some (Qr.set n (q.set k value))

/-- the loop over the conserved quantities of `update_matrices_right(P, k)`, /repo/src/dmrg/dmrg.cc:762-771; the first argument is the
number of quantities left, `nQ` that of all of them -/
def updateQ (value : Nat → Nat → Tensor K) (nQ k : Nat) : Nat → List (List (Tensor K)) → Option (List (List (Tensor K)))
  | 0, Qr => some Qr
  | left + 1, Qr => (storeQ Qr (nQ - (left + 1)) k (value (nQ - (left + 1)) k)).bind (updateQ value nQ k left)

/-- the loop of `init_matrices(P, 0, also_Q)` over the sites, as far as `Qr_` is concerned, /repo/src/dmrg/dmrg.cc:590-592 -/
def initQ (value : Nat → Nat → Tensor K) (nQ : Nat) : Nat → List (List (Tensor K)) → Option (List (List (Tensor K)))
  | 0, Qr => some Qr
  | i + 1, Qr => (updateQ value nQ i nQ Qr).bind (initQ value nQ i)

/-- `Qr_` at the beginning of `init_matrices`, /repo/src/dmrg/dmrg.cc:575-581: `mps_vector_t(Q_values.size(), MPS(size()))` if `also_Q`, otherwise empty -/
def emptyQ (N nQ : Nat) (alsoQ : Bool) : List (List (Tensor K)) :=
  if alsoQ then List.replicate nQ (List.replicate N Tensor.empty) else []

/-- `minimize(&P, Dmax, E)` with `nQ` numbers in `Q_values` and as many operators: `init_matrices(P, 0, Dmax > 0)` (line 439) fills `Qr_`, and then all is as
without conserved quantities; `update_matrices_left`, `update_matrices_right` and `prepare_simplifier` do not reach beyond the vectors once they have been made.
`solve` is the eigenvalue problem in the subspace that `Q_values` selects. -/
noncomputable def minimizeQ (svd : Tensor K → SvdRes K) (eps dflt : ℝ) (eigs : Eigs K) (solve : Solve K) (o : Opts) (H : Ham K)
    (value : Nat → Nat → Tensor K) (nQ : Nat) (P0 : List (List (Tensor K))) (P : List (Tensor K)) (Dmax : Nat) (E : ℝ) : Option (Out K) :=
  (initQ value nQ H.size (emptyQ H.size nQ (0 < Dmax))).bind fun _ => minimize svd eps dflt eigs solve o H P0 P Dmax E

end MPS.Dmrg
