import Verif.DmrgModel

/-!
# Model of /repo/src/dmrg/dmrg.cc: the members `neigenvalues` and `eigenvalues`

`minimize_single_site` asks the eigenvalue solver for `neig = max(1, neigenvalues)` eigenvalues and vectors (line 144), keeps the first
vector (line 170), and stores all the eigenvalues in the member `eigenvalues` (line 177).  The solver is a parameter.
-/

namespace MPS.Dmrg
open MPS Tensor Minim
variable {K : Type} [RCLike K]

/-- what `eigs(Heff, SmallestAlgebraic, neig, &Pk)` (/repo/src/dmrg/dmrg.cc:148) and the loop with `Arpack` (lines 150-165) give
back: the vector of eigenvalues `aux`, the matrix with the eigenvectors in its columns, and whether they have succeeded -/
structure ManyRes (K : Type) where
  aux : List K
  P : Tensor K
  ok : Bool

/-- the solver: a linear function of vectors, their size, the number of eigenvalues, the initial vector -/
abbrev ManyEigs (K : Type) := (Tensor K → Tensor K) → Nat → Nat → Tensor K → ManyRes K

/-- `std::max<int>(1, neigenvalues)`, /repo/src/dmrg/dmrg.cc:144 -/
def neig (neigenvalues : Int) : Nat := (max 1 neigenvalues).toNat

/-- `Pk(range(), range(0))`: the first column of a matrix -/
def column0 (P : Tensor K) : Tensor K := ⟨[P.dim 0], fun I => P.get [I.getD 0 0, 0]⟩

/-- the eigenvalue problem as `minimize_single_site` sees it, /repo/src/dmrg/dmrg.cc:144-177: `neig` eigenvalues; the first vector is
kept if there are several (line 170), `reshape` of a matrix with one column is `reshape` of this column; `eigenvalues = real(aux)` (line 177),
and the value returned is `eigenvalues[0]` (line 178) -/
noncomputable def firstOf (eigs : ManyEigs K) (neigenvalues : Int) : Eigs K := fun A n P =>
  let r := eigs A n (neig neigenvalues) P
  ⟨((r.aux.map RCLike.re).getD 0 0 : ℝ), if neig neigenvalues > 1 then column0 r.P else reshape r.P [n], r.ok, r.aux.map RCLike.re⟩

/-- `solver.neigenvalues = neigenvalues; solver.minimize(&P, 0, E)`: the single-site algorithm.  The member `eigenvalues` is `last.vals` of the
result. -/
noncomputable def minimizeMany (svd : Tensor K → SvdRes K) (eps dflt : ℝ) (eigs : ManyEigs K) (neigenvalues : Int) (solve : Solve K) (o : Opts)
    (H : Ham K) (P0 : List (List (Tensor K))) (P : List (Tensor K)) (Dmax : Nat) (E : ℝ) : Option (Out K) :=
  minimize svd eps dflt (firstOf eigs neigenvalues) solve o H P0 P Dmax E

end MPS.Dmrg
