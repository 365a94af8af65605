import Verif.CanonSpec
import Mathlib.Analysis.InnerProductSpace.SingularValues
import Mathlib.Analysis.InnerProductSpace.PiL2
import Mathlib.Analysis.InnerProductSpace.Adjoint

/-!
# The hypothesis `GoodSvd` can be met: every matrix has a singular value decomposition

(Not in Mathlib; built from the spectral theorem for `T† T`.)
-/

set_option linter.unusedSectionVars false
set_option linter.unusedSimpArgs false

namespace MPS
open Tensor
variable {K : Type} [RCLike K]

/-- singular value decomposition of a linear map from a space of dimension `n` to one of dimension `m ≥ n` -/
theorem exists_svd_map {m n : Nat} (hmn : n ≤ m)
    (T : EuclideanSpace K (Fin n) →ₗ[K] EuclideanSpace K (Fin m)) :
    ∃ (e : OrthonormalBasis (Fin n) K (EuclideanSpace K (Fin n))) (f : OrthonormalBasis (Fin m) K (EuclideanSpace K (Fin m)))
      (s : Fin n → ℝ), (∀ i, 0 ≤ s i) ∧ ∀ i : Fin n, T (e i) = ((s i : ℝ) : K) • f (Fin.castLE hmn i) := by
  classical
  have hn : Module.finrank K (EuclideanSpace K (Fin n)) = n := by simp
  have hpos := T.isPositive_adjoint_comp_self
  have hsym := hpos.isSymmetric
  let e := hsym.eigenvectorBasis hn
  let lam := hsym.eigenvalues hn
  have hlam : ∀ i, 0 ≤ lam i := fun i => hpos.nonneg_eigenvalues hn i
  have hinner : ∀ i j, Inner.inner K (T (e i)) (T (e j)) = if i = j then ((lam j : ℝ) : K) else 0 := by
    intro i j
    rw [← LinearMap.adjoint_inner_right]
    have h1 : (LinearMap.adjoint T) (T (e j)) = ((lam j : ℝ) : K) • e j := by
      have := hsym.apply_eigenvectorBasis hn j
      simpa [LinearMap.comp_apply] using this
    rw [h1, inner_smul_right]
    have := (orthonormal_iff_ite.1 e.orthonormal) i j
    rw [this]
    simp
  let s : Fin n → ℝ := fun i => Real.sqrt (lam i)
  have hs2 : ∀ i, s i * s i = lam i := fun i => Real.mul_self_sqrt (hlam i)
  let S : Set (Fin m) := {i | ∃ h : i.val < n, s ⟨i.val, h⟩ ≠ 0}
  let v : Fin m → EuclideanSpace K (Fin m) := fun i =>
    if h : i.val < n then ((1 / s ⟨i.val, h⟩ : ℝ) : K) • T (e ⟨i.val, h⟩) else 0
  have hv : Orthonormal K (S.domRestrict v) := by
    rw [orthonormal_iff_ite]
    rintro ⟨i, hi, hi0⟩ ⟨j, hj, hj0⟩
    simp only [Set.domRestrict_apply, v, dif_pos hi, dif_pos hj, inner_smul_left, inner_smul_right, hinner]
    by_cases hij : i = j
    · subst hij
      rw [if_pos rfl, if_pos rfl, ← hs2, RCLike.conj_ofReal]
      rw [← RCLike.ofReal_mul, ← RCLike.ofReal_mul]
      have : 1 / s ⟨i.val, hi⟩ * (1 / s ⟨i.val, hi⟩ * (s ⟨i.val, hi⟩ * s ⟨i.val, hi⟩)) = 1 := by
        field_simp
      rw [this]; simp
    · rw [if_neg, if_neg]
      · simp
      · intro hh; exact hij (by simpa [Fin.ext_iff] using hh)
      · intro hh; exact hij (by simpa [Fin.ext_iff] using hh)
  obtain ⟨f, hf⟩ := hv.exists_orthonormalBasis_extension_of_card_eq (ι := Fin m) (by simp)
  refine ⟨e, f, s, fun i => Real.sqrt_nonneg _, fun i => ?_⟩
  by_cases h0 : s i = 0
  · rw [h0]
    have hz : lam i = 0 := by rw [← hs2, h0]; ring
    have := hinner i i
    rw [if_pos rfl, hz] at this
    have : T (e i) = 0 := by
      rw [← inner_self_eq_zero (𝕜 := K), this]; simp
    rw [this]; simp
  · have hmem : Fin.castLE hmn i ∈ S := ⟨i.isLt, h0⟩
    rw [hf _ hmem]
    simp only [v, Fin.val_castLE, Fin.is_lt, dif_pos, Fin.eta]
    rw [smul_smul, ← RCLike.ofReal_mul]
    have : s i * (1 / s i) = 1 := by field_simp
    rw [this]; simp

/-- … in coordinates: an `m × n` matrix with `n ≤ m` -/
theorem exists_svd_tall (m n : Nat) (hmn : n ≤ m) (M : Fin m → Fin n → K) :
    ∃ (U : Fin m → Fin n → K) (s : Fin n → ℝ) (V : Fin n → Fin n → K),
      (∀ i j, ∑ k, U i k * ((s k : ℝ) : K) * V k j = M i j) ∧
      (∀ k k', ∑ i, star (U i k) * U i k' = if k = k' then 1 else 0) ∧
      (∀ k k', ∑ j, V k j * star (V k' j) = if k = k' then 1 else 0) ∧ ∀ k, 0 ≤ s k := by
  obtain ⟨e, f, s, hs0, hT⟩ := exists_svd_map hmn (Matrix.toEuclideanLin (Matrix.of M))
  refine ⟨fun i k => f (Fin.castLE hmn k) i, s, fun k j => star (e k j), ?_, ?_, ?_, hs0⟩
  · intro i j
    have h1 : (Matrix.toEuclideanLin (Matrix.of M)) (EuclideanSpace.single j (1 : K)) i = M i j := by
      simp [Matrix.toLpLin_apply]
    rw [← h1]
    have h2 : EuclideanSpace.single j (1 : K) = ∑ k, (star (e k j)) • e k := by
      conv_lhs => rw [← e.sum_repr (EuclideanSpace.single j (1 : K))]
      refine Finset.sum_congr rfl fun k _ => ?_
      rw [e.repr_apply_apply, EuclideanSpace.inner_single_right]
      simp
    rw [h2, map_sum]
    simp only [map_smul, hT]
    rw [WithLp.ofLp_sum, Finset.sum_apply]
    refine Finset.sum_congr rfl fun k _ => ?_
    simp only [PiLp.smul_apply, smul_eq_mul]
    ring
  · intro k k'
    have := (orthonormal_iff_ite.1 f.orthonormal) (Fin.castLE hmn k) (Fin.castLE hmn k')
    rw [PiLp.inner_apply] at this
    simp only [RCLike.inner_apply] at this
    rw [show (if k = k' then (1 : K) else 0) = if Fin.castLE hmn k = Fin.castLE hmn k' then 1 else 0 by simp, ← this]
    refine Finset.sum_congr rfl fun i _ => ?_
    rw [RCLike.star_def, mul_comm]
  · intro k k'
    have := (orthonormal_iff_ite.1 e.orthonormal) k k'
    rw [PiLp.inner_apply] at this
    simp only [RCLike.inner_apply] at this
    rw [← this]
    refine Finset.sum_congr rfl fun i _ => ?_
    rw [star_star, RCLike.star_def, mul_comm]

/-- every matrix -/
theorem exists_svd (m n : Nat) (M : Fin m → Fin n → K) :
    ∃ (U : Fin m → Fin (min m n) → K) (s : Fin (min m n) → ℝ) (V : Fin (min m n) → Fin n → K),
      (∀ i j, ∑ k, U i k * ((s k : ℝ) : K) * V k j = M i j) ∧
      (∀ k k', ∑ i, star (U i k) * U i k' = if k = k' then 1 else 0) ∧
      (∀ k k', ∑ j, V k j * star (V k' j) = if k = k' then 1 else 0) ∧ ∀ k, 0 ≤ s k := by
  rcases Nat.le_total n m with h | h
  · rw [Nat.min_eq_right h]; exact exists_svd_tall m n h M
  · rw [Nat.min_eq_left h]
    obtain ⟨U, s, V, h1, h2, h3, h0⟩ := exists_svd_tall n m h (fun j i => star (M i j))
    refine ⟨fun i k => star (V k i), s, fun k j => star (U j k), ?_, ?_, ?_, h0⟩
    · intro i j
      have := congrArg star (h1 j i)
      rw [star_star, star_sum] at this
      rw [← this]
      refine Finset.sum_congr rfl fun k _ => ?_
      rw [star_mul', star_mul', RCLike.star_def, RCLike.conj_ofReal]
      ring
    · intro k k'
      have := h3 k k'
      rw [← this]
      refine Finset.sum_congr rfl fun i _ => ?_
      rw [star_star]
    · intro k k'
      have := h2 k k'
      rw [← this]
      refine Finset.sum_congr rfl fun i _ => ?_
      rw [star_star]

/-- there is a function computing singular value decompositions with non-negative singular values -/
theorem exists_goodSvd_nonneg : ∃ svd : Tensor K → SvdRes K, GoodSvd svd ∧ ∀ A, ∀ x ∈ (svd A).s, 0 ≤ x := by
  have key : ∀ A : Tensor K, ∃ r : SvdRes K, (∀ m n, A.dims = [m, n] → IsSVD A m n r) ∧ ∀ x ∈ r.s, 0 ≤ x := by
    intro A
    by_cases hA : ∃ m n, A.dims = [m, n]
    · obtain ⟨m, n, hmn⟩ := hA
      obtain ⟨U, s, V, h1, h2, h3, h0⟩ := exists_svd m n (fun i j => A.get [i.val, j.val])
      refine ⟨⟨⟨[m, min m n], fun l => if h : l.getD 0 0 < m ∧ l.getD 1 0 < min m n then U ⟨_, h.1⟩ ⟨_, h.2⟩ else 0⟩,
        List.ofFn s,
        ⟨[min m n, n], fun l => if h : l.getD 0 0 < min m n ∧ l.getD 1 0 < n then V ⟨_, h.1⟩ ⟨_, h.2⟩ else 0⟩⟩, ?_, by
          intro x hx; obtain ⟨k, rfl⟩ := List.mem_ofFn.1 hx; exact h0 k⟩
      intro m' n' hmn'
      rw [hmn] at hmn'
      obtain ⟨rfl, rfl⟩ : m = m' ∧ n = n' := by simpa using hmn'
      refine ⟨rfl, by simp, rfl, ?_, ?_, ?_⟩
      · intro i j hi hj
        rw [← h1 ⟨i, hi⟩ ⟨j, hj⟩, Finset.sum_range]
        refine Finset.sum_congr rfl fun k _ => ?_
        have hk : k.val < m ∧ k.val < n := by have := k.isLt; omega
        simp [hi, hj, hk]
      · intro k k' hk hk'
        have := h2 ⟨k, hk⟩ ⟨k', hk'⟩
        simp only [Fin.mk.injEq] at this
        rw [← this, Finset.sum_range]
        refine Finset.sum_congr rfl fun i _ => ?_
        simp [lt_min_iff.1 hk, lt_min_iff.1 hk']
      · intro k k' hk hk'
        have := h3 ⟨k, hk⟩ ⟨k', hk'⟩
        simp only [Fin.mk.injEq] at this
        rw [← this, Finset.sum_range]
        refine Finset.sum_congr rfl fun i _ => ?_
        simp [lt_min_iff.1 hk, lt_min_iff.1 hk']
    · exact ⟨⟨Tensor.zeros [], [], Tensor.zeros []⟩, fun m n h => absurd ⟨m, n, h⟩ hA, by simp⟩
  choose svd hsvd using key
  exact ⟨svd, fun A m n h _ _ => (hsvd A).1 m n h, fun A => (hsvd A).2⟩

/-- there is a function computing singular value decompositions -/
theorem exists_goodSvd : ∃ svd : Tensor K → SvdRes K, GoodSvd svd := by
  obtain ⟨svd, h, _⟩ := exists_goodSvd_nonneg (K := K)
  exact ⟨svd, h⟩

end MPS
