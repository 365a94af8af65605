import Verif.TrotterSpec
import Mathlib.Analysis.Normed.Algebra.MatrixExponential

/-!
# The matrix exponential meets the assumptions `GoodExpm`
-/

namespace MPS.Trotter
open MPS Tensor

/-- the matrix exponential, `∑ A^n/n!`, of a square matrix stored in a tensor -/
noncomputable def matrixExp (A : Tensor ℂ) : Tensor ℂ :=
  let n := A.dim 0
  let M : Matrix (Fin n) (Fin n) ℂ := Matrix.of fun i j => A.get [i.1, j.1]
  let E := NormedSpace.exp M
  ⟨A.dims, fun l => if h : l.getD 0 0 < n ∧ l.getD 1 0 < n then E ⟨l.getD 0 0, h.1⟩ ⟨l.getD 1 0, h.2⟩ else 0⟩

theorem exists_goodExpm : GoodExpm matrixExp := by
  refine ⟨fun A n h => h, fun A n h ha x y hx hy => ?_⟩
  have hn : A.dim 0 = n := by simp [dim, h, nrm]
  subst hn
  set M : Matrix (Fin (A.dim 0)) (Fin (A.dim 0)) ℂ := Matrix.of fun i j => A.get [i.1, j.1] with hM
  have hs : M.conjTranspose = -M := by
    ext i j
    rw [Matrix.conjTranspose_apply, hM, Matrix.neg_apply, Matrix.of_apply, Matrix.of_apply]
    exact ha j.1 i.1 j.2 i.2
  have hu : (NormedSpace.exp M).conjTranspose * NormedSpace.exp M = 1 := by
    rw [← Matrix.exp_conjTranspose, hs, ← Matrix.exp_add_of_commute _ _ ((Commute.refl M).neg_left), neg_add_cancel]
    exact NormedSpace.exp_zero
  have := congrFun (congrFun hu ⟨x, hx⟩) ⟨y, hy⟩
  rw [Matrix.mul_apply, Matrix.one_apply] at this
  simp only [Fin.mk.injEq] at this
  rw [← this, Finset.sum_range]
  refine Finset.sum_congr rfl fun u _ => ?_
  rw [Matrix.conjTranspose_apply]
  simp [matrixExp, hx, hy, ← hM]

end MPS.Trotter
