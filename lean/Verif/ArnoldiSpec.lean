import Verif.ArnoldiModel
import Verif.ObcSpec
import Mathlib.Analysis.Normed.Algebra.MatrixExponential

/-!
# Time evolution of wave functions, and what is assumed of the linear algebra
-/

namespace MPS.Arnoldi
open MPS Tensor Form Minim Obc

/-- `solve_with_svd(A, B)` with a matrix of right-hand sides: it solves `A X = B` whenever that has a solution -/
def GoodSolveM (lin : Tensor ℂ → Tensor ℂ → Tensor ℂ) : Prop :=
  ∀ (A B : Tensor ℂ) (n : Nat), A.dims = [n, n] → B.dims = [n, n] → (lin A B).dims = [n, n] ∧
    ((∃ X : Nat → Nat → ℂ, ∀ i < n, ∀ j < n, ∑ k ∈ Finset.range n, A.get [i, k] * X k j = B.get [i, j]) →
      ∀ i < n, ∀ j < n, ∑ k ∈ Finset.range n, A.get [i, k] * (lin A B).get [k, j] = B.get [i, j])

/-- the matrix stored in a tensor -/
def toMat (n : Nat) (A : Tensor ℂ) : Matrix (Fin n) (Fin n) ℂ := Matrix.of fun i j => A.get [i.1, j.1]

/-- `expm` is the exponential of matrices -/
def ExactExpm (expm : Tensor ℂ → Tensor ℂ) : Prop :=
  ∀ (A : Tensor ℂ) (n : Nat), A.dims = [n, n] → (expm A).dims = [n, n] ∧ toMat n (expm A) = NormedSpace.exp (toMat n A)

/-- `eig(A, &U)`: the columns of `U` are eigenvectors, and no eigenvalue is missing -/
def GoodEig (eig : Tensor ℂ → Tensor ℂ × Tensor ℂ) : Prop :=
  ∀ (A : Tensor ℂ) (n : Nat), A.dims = [n, n] → (eig A).1.dims = [n] ∧ (eig A).2.dims = [n, n] ∧
    (∀ k < n, (∀ i < n, ∑ j ∈ Finset.range n, A.get [i, j] * (eig A).2.get [j, k] = (eig A).1.get [k] * (eig A).2.get [i, k]) ∧
      ∃ i < n, (eig A).2.get [i, k] ≠ 0) ∧
    ∀ (e : ℂ) (x : Nat → ℂ), (∃ i < n, x i ≠ 0) → (∀ i < n, ∑ j ∈ Finset.range n, A.get [i, j] * x j = e * x i) → ∃ k < n, (eig A).1.get [k] = e

/-- `H φ` -/
def act (ds : List Nat) (H : List (Tensor ℂ)) (φ : List Nat → ℂ) : List Nat → ℂ := actOp ds (opElt H) φ

/-- `φ = exp(z H) ψ`, as the sum of the series `∑ z^k/k! H^k ψ` -/
def Evolved (ds : List Nat) (H : List (Tensor ℂ)) (z : ℂ) (ψ φ : List Nat → ℂ) : Prop :=
  ∀ s, IsCfg ds s → HasSum (fun k : Nat => z ^ k / (k.factorial : ℂ) * ((act ds H)^[k] ψ) s) (φ s)

/-- `⟨φ|H|φ⟩`, real part -/
noncomputable def energyAt (ds : List Nat) (H : List (Tensor ℂ)) (φ : List Nat → ℂ) : ℝ := RCLike.re (MPS.inner ds φ (act ds H φ))

/-- the vectors of the basis -/
def Basis.vec (b : Basis) (j : Nat) : List Nat → ℂ := amp (b.states.getD j [])

/-- `φ` is a superposition of the first `k` vectors of the basis -/
def Basis.InSpan (b : Basis) (ds : List Nat) (k : Nat) (φ : List Nat → ℂ) : Prop :=
  ∃ y : Nat → ℂ, ∀ s, IsCfg ds s → φ s = ∑ j ∈ Finset.range k, y j * b.vec j s

/-- the vectors of the basis are linearly independent -/
def Basis.Independent (b : Basis) (ds : List Nat) : Prop :=
  ∀ y : Nat → ℂ, (∀ s, IsCfg ds s → ∑ j ∈ Finset.range b.states.length, y j * b.vec j s = 0) → ∀ j < b.states.length, y j = 0

/-- what is left of `H v_j` when the components along `v_j` and `v_{j-1}` are taken away, as the program does it -/
noncomputable def Basis.rest (b : Basis) (ds : List Nat) (H : List (Tensor ℂ)) (j : Nat) : List Nat → ℂ := fun s =>
  act ds H (b.vec j) s - b.Heff.get [j, j] * b.vec j s - (if j = 0 then 0 else b.Heff.get [j, j - 1] * b.vec (j - 1) s)

/-- the initial state has norm one, and the canonical forms have dropped no singular values -/
def Faithful (ds : List Nat) (psi : List (Tensor ℂ)) (b : Basis) : Prop := b.lost = 0 ∧ normSq ds psi = 1

/-- what the basis is -/
structure Krylov (ds : List Nat) (H psi : List (Tensor ℂ)) (nvectors : Nat) (b : Basis) : Prop where
  size : 0 < b.states.length ∧ b.states.length ≤ nvectors
  wf : ∀ j < b.states.length, WF 1 (b.states.getD j []) ds 1
  dims : b.N.dims = [b.states.length, b.states.length] ∧ b.Heff.dims = [b.states.length, b.states.length]
  lost : 0 ≤ b.lost
  /-- it begins with the initial state -/
  first : Faithful ds psi b → ∀ s, IsCfg ds s → b.vec 0 s = amp psi s
  unit : Faithful ds psi b → ∀ j < b.states.length, normSq ds (b.states.getD j []) = 1
  /-- `N` and `Heff` are the matrices of the scalar products and of the Hamiltonian -/
  gram : Faithful ds psi b → ∀ i < b.states.length, ∀ j < b.states.length, b.N.get [i, j] = MPS.inner ds (b.vec i) (b.vec j)
  ham : Faithful ds psi b → ∀ i < b.states.length, ∀ j < b.states.length, b.Heff.get [i, j] = MPS.inner ds (b.vec i) (act ds H (b.vec j))
  /-- the three-term recurrence, if `simplify_obc` has made no errors -/
  step : Faithful ds psi b → b.exact → ∀ j, j + 1 < b.states.length → ∃ r : ℝ, 0 < r ∧ ∀ s, IsCfg ds s → b.rest ds H j s = (r : ℂ) * b.vec (j + 1) s
  /-- the basis has the size asked for, or else the next vector seemed to vanish -/
  full : b.closed = false → b.states.length = nvectors
  stop : b.closed = true → Faithful ds psi b → ∃ P k, WF 1 P ds 1 ∧ normSq ds P < 1 / 10 ^ 15 ∧ Best ds (b.rest ds H (b.states.length - 1)) P k

/-- the superposition of the vectors of the basis that is to be the new state -/
noncomputable def Out.target (out : Out) : List Nat → ℂ := superpose out.coef out.basis.states

/-- what `one_step` promises: the new state is a normalised approximation, with bonds at most `Dmax`, of the superposition `out.target` of the vectors of the basis -/
structure Stepped (ds : List Nat) (H psi : List (Tensor ℂ)) (nvectors Dmax final : Nat) (tolerance : ℝ) (out : Out) : Prop where
  wf : WF 1 out.psi ds 1
  bonds : 0 < Dmax → ∀ j, j + 1 < ds.length → (site out.psi j).dim 2 ≤ Dmax
  unit : (∃ s, IsCfg ds s ∧ amp out.psi s ≠ 0) → normSq ds out.psi = 1
  basis : Krylov ds H psi nvectors out.basis
  coef : out.coef.length = out.basis.states.length
  psi : out.psi = out.last.P
  approx : Reached ds out.coef out.basis.states final true Dmax tolerance out.last
  /-- if the last compression has made no error, the new state is the superposition, up to the norm of the latter -/
  exact : out.last.err = 0 → normSqOf ds out.target ≠ 0 → ∀ s, IsCfg ds s → amp out.psi s = ((1 / Real.sqrt (normSqOf ds out.target) : ℝ) : ℂ) * out.target s

end MPS.Arnoldi
