import Verif.ArnoldiSpec
import Verif.ExpmExists
import Mathlib.LinearAlgebra.Matrix.Charpoly.Eigs
import Mathlib.LinearAlgebra.Matrix.ToLinearEquiv
import Mathlib.Analysis.Complex.Polynomial.Basic
import Mathlib.Data.List.GetD

/-!
# The assumptions on the linear algebra of `arnoldi.cc` can be met
-/

set_option linter.unusedSimpArgs false

namespace MPS.Arnoldi
open MPS Tensor Form Minim Obc

theorem exists_goodSolveM : ∃ lin : Tensor ℂ → Tensor ℂ → Tensor ℂ, GoodSolveM lin := by
  classical
  have h : ∀ A B : Tensor ℂ, ∃ V : Tensor ℂ, ∀ n : Nat, A.dims = [n, n] → B.dims = [n, n] → V.dims = [n, n] ∧
    ((∃ X : Nat → Nat → ℂ, ∀ i < n, ∀ j < n, ∑ k ∈ Finset.range n, A.get [i, k] * X k j = B.get [i, j]) →
      ∀ i < n, ∀ j < n, ∑ k ∈ Finset.range n, A.get [i, k] * V.get [k, j] = B.get [i, j]) := by
    intro A B
    by_cases hx : ∃ X : Nat → Nat → ℂ, ∀ i < B.dims.getD 0 0, ∀ j < B.dims.getD 0 0,
        ∑ k ∈ Finset.range (B.dims.getD 0 0), A.get [i, k] * X k j = B.get [i, j]
    · obtain ⟨X, hx⟩ := hx
      refine ⟨⟨B.dims, fun I => X (I.getD 0 0) (I.getD 1 0)⟩, fun n h1 h2 => ⟨h2, fun _ i hi j hj => ?_⟩⟩
      rw [h2] at hx
      exact hx i hi j hj
    · refine ⟨⟨B.dims, fun _ => 0⟩, fun n h1 h2 => ⟨h2, fun hy => absurd ?_ hx⟩⟩
      rw [h2]
      exact hy
  choose lin hlin using h
  exact ⟨lin, fun A B n h1 h2 => hlin A B n h1 h2⟩

theorem exactExpm_matrixExp : ExactExpm Trotter.matrixExp := by
  intro A n h
  refine ⟨h, ?_⟩
  have hn : A.dim 0 = n := by simp [dim, h, nrm]
  subst hn
  ext i j
  simp [toMat, Trotter.matrixExp]

/-- the eigenvalues and eigenvectors of a complex matrix -/
theorem exists_eigen (n : Nat) (M : Matrix (Fin n) (Fin n) ℂ) : ∃ (e : Fin n → ℂ) (V : Fin n → Fin n → ℂ),
    (∀ k, M.mulVec (V k) = e k • V k ∧ V k ≠ 0) ∧ ∀ (c : ℂ) (x : Fin n → ℂ), x ≠ 0 → M.mulVec x = c • x → ∃ k, e k = c := by
  have root : ∀ c : ℂ, M.charpoly.IsRoot c ↔ ∃ x, x ≠ 0 ∧ M.mulVec x = c • x := by
    intro c
    rw [Polynomial.IsRoot, Matrix.eval_charpoly, ← Matrix.exists_mulVec_eq_zero_iff]
    refine exists_congr fun x => and_congr_right fun _ => ?_
    rw [Matrix.sub_mulVec, sub_eq_zero, eq_comm]
    have : (Matrix.scalar (Fin n) c).mulVec x = c • x := by
      funext i
      simp [Matrix.scalar_apply, Matrix.mulVec_diagonal]
    rw [this]
  have hlen : M.charpoly.roots.toList.length = n := by
    rw [Multiset.length_toList, IsAlgClosed.card_roots_eq_natDegree, Matrix.charpoly_natDegree_eq_dim, Fintype.card_fin]
  have hmem : ∀ c, c ∈ M.charpoly.roots.toList ↔ M.charpoly.IsRoot c := by
    intro c
    rw [Multiset.mem_toList, Polynomial.mem_roots (Matrix.charpoly_monic M).ne_zero]
  have hk : ∀ k : Fin n, ∃ x, x ≠ 0 ∧ M.mulVec x = (M.charpoly.roots.toList.get (k.cast hlen.symm)) • x := fun k =>
    (root _).1 ((hmem _).1 (List.get_mem _ _))
  choose V hV using hk
  refine ⟨_, V, fun k => ⟨(hV k).2, (hV k).1⟩, fun c x hx h => ?_⟩
  obtain ⟨i, hi⟩ := List.get_of_mem ((hmem c).2 ((root c).2 ⟨x, hx, h⟩))
  exact ⟨i.cast hlen, by rw [← hi]; rfl⟩

theorem exists_goodEig : ∃ eig : Tensor ℂ → Tensor ℂ × Tensor ℂ, GoodEig eig := by
  classical
  have h : ∀ A : Tensor ℂ, ∃ r : Tensor ℂ × Tensor ℂ, ∀ n : Nat, A.dims = [n, n] → r.1.dims = [n] ∧ r.2.dims = [n, n] ∧
      (∀ k < n, (∀ i < n, ∑ j ∈ Finset.range n, A.get [i, j] * r.2.get [j, k] = r.1.get [k] * r.2.get [i, k]) ∧ ∃ i < n, r.2.get [i, k] ≠ 0) ∧
      ∀ (e : ℂ) (x : Nat → ℂ), (∃ i < n, x i ≠ 0) → (∀ i < n, ∑ j ∈ Finset.range n, A.get [i, j] * x j = e * x i) → ∃ k < n, r.1.get [k] = e := by
    intro A
    generalize hm : A.dims.getD 0 0 = m
    obtain ⟨e, V, h1, h2⟩ := exists_eigen m (toMat _ A)
    refine ⟨(⟨[m], fun I => if h : I.getD 0 0 < m then e ⟨_, h⟩ else 0⟩,
      ⟨A.dims, fun I => if h : I.getD 0 0 < m ∧ I.getD 1 0 < m then V ⟨_, h.2⟩ ⟨_, h.1⟩ else 0⟩), fun n hA => ?_⟩
    have hn : n = m := by rw [← hm, hA]; rfl
    subst hn
    refine ⟨rfl, hA, fun k hk => ⟨fun i hi => ?_, ?_⟩, fun c x ⟨i, hi, hx⟩ h => ?_⟩
    · have := congrFun (h1 ⟨k, hk⟩).1 ⟨i, hi⟩
      rw [Finset.sum_range]
      simpa [Matrix.mulVec, dotProduct, toMat, hk, hi] using this
    · by_contra hc
      push Not at hc
      refine (h1 ⟨k, hk⟩).2 (funext fun i => ?_)
      have := hc i.1 i.2
      simpa [hk] using this
    · obtain ⟨k, hk⟩ := h2 c (fun i => x i.1) (fun h0 => hx (congrFun h0 ⟨i, hi⟩)) (funext fun i => by
        have := h i.1 i.2
        rw [Finset.sum_range] at this
        simpa [Matrix.mulVec, dotProduct, toMat] using this)
      exact ⟨k.1, k.2, by simpa using hk⟩
  choose eig heig using h
  exact ⟨eig, fun A n h => heig A n h⟩

end MPS.Arnoldi
