import Verif.DmrgManySpec
import Verif.EigsExists

/-!
# The hypothesis `GoodManyEigs` can be met, by a solver which reports success whenever there are enough eigenvalues
-/

set_option linter.unusedSectionVars false
set_option linter.unusedSimpArgs false

namespace MPS.Dmrg
open MPS Tensor Minim
variable {K : Type} [RCLike K]

/-- a Hermitian matrix has an orthonormal basis of eigenvectors with ascending eigenvalues -/
theorem exists_sorted (n : Nat) (W : Fin n → Fin n → K) (hW : ∀ i j, star (W i j) = W j i) :
    ∃ (v : Fin n → Fin n → K) (E : Fin n → ℝ), (∀ p q, ∑ i, star (v p i) * v q i = if p = q then 1 else 0) ∧
      (∀ p i, ∑ j, W i j * v p j = (E p : K) * v p i) ∧
      ∀ (p : Fin n) (x : Fin n → K), (∀ q < p, ∑ i, star (v q i) * x i = 0) →
        E p * ∑ i, ‖x i‖ ^ 2 ≤ RCLike.re (∑ i, ∑ j, star (x i) * W i j * x j) := by
  classical
  let T : EuclideanSpace K (Fin n) →ₗ[K] EuclideanSpace K (Fin n) := Matrix.toEuclideanLin (Matrix.of W)
  have hT : ∀ (x : EuclideanSpace K (Fin n)) i, T x i = ∑ j, W i j * x j := by
    intro x i
    simp [T, Matrix.toEuclideanLin, Matrix.toLpLin, Matrix.mulVec, dotProduct]
  have hin : ∀ x y : EuclideanSpace K (Fin n), Inner.inner K x y = ∑ i, star (x i) * y i := by
    intro x y
    rw [PiLp.inner_apply]
    exact Finset.sum_congr rfl fun i _ => by rw [RCLike.inner_apply, mul_comm]; rfl
  have hsym : T.IsSymmetric := by
    intro x y
    rw [hin, hin]
    simp only [hT, star_sum, star_mul', hW, Finset.sum_mul, Finset.mul_sum]
    rw [Finset.sum_comm]
    exact Finset.sum_congr rfl fun i _ => Finset.sum_congr rfl fun j _ => by ring
  have hfr : Module.finrank K (EuclideanSpace K (Fin n)) = n := by simp
  let e := hsym.eigenvectorBasis hfr
  let lam := hsym.eigenvalues hfr
  have hanti : Antitone lam := hsym.eigenvalues_antitone hfr
  have heig : ∀ i, T (e i) = ((lam i : ℝ) : K) • e i := fun i => hsym.apply_eigenvectorBasis hfr i
  refine ⟨fun p => e (Fin.rev p), fun p => lam (Fin.rev p), ?_, ?_, ?_⟩
  · intro p q
    rw [← hin, orthonormal_iff_ite.1 e.orthonormal]
    by_cases h : p = q
    · rw [if_pos h, if_pos (by rw [h])]
    · rw [if_neg h, if_neg (fun h' => h (Fin.rev_injective h'))]
  · intro p i
    rw [← hT, heig]
    simp [RCLike.real_smul_eq_coe_mul]
  · intro p x hx
    let y : EuclideanSpace K (Fin n) := WithLp.toLp 2 x
    have hy : ∀ i, y i = x i := fun i => rfl
    have h1 : ∑ i, ∑ j, star (x i) * W i j * x j = Inner.inner K y (T y) := by
      rw [hin]
      refine Finset.sum_congr rfl fun i _ => ?_
      rw [hT, Finset.mul_sum]
      exact Finset.sum_congr rfl fun j _ => by rw [hy, hy]; ring
    have h2 : ∑ i, ‖x i‖ ^ 2 = ∑ i, ‖Inner.inner K (e i) y‖ ^ 2 := by
      rw [e.sum_sq_norm_inner_right y, EuclideanSpace.norm_sq_eq]
    have h3 : Inner.inner K y (T y) = ((∑ i, lam i * ‖Inner.inner K (e i) y‖ ^ 2 : ℝ) : K) := by
      rw [← e.sum_inner_mul_inner y (T y), RCLike.ofReal_sum]
      refine Finset.sum_congr rfl fun i _ => ?_
      rw [← hsym (e i) y, heig, inner_smul_left, RCLike.conj_ofReal, ← inner_conj_symm y (e i)]
      rw [RCLike.ofReal_mul, RCLike.ofReal_pow, ← RCLike.conj_mul]; ring
    rw [h1, h3, RCLike.ofReal_re, h2, Finset.mul_sum]
    refine Finset.sum_le_sum fun i _ => ?_
    by_cases hi : Fin.rev i < p
    · have := hx _ hi
      simp only [Fin.rev_rev] at this
      have h0 : Inner.inner K (e i) y = 0 := by rw [hin]; exact this
      rw [h0]; simp
    · exact mul_le_mul_of_nonneg_right (hanti (by
        rw [← Fin.rev_rev i]; exact Fin.rev_le_rev.2 (not_lt.1 hi))) (by positivity)

/-- a solver which succeeds whenever the space is large enough -/
theorem exists_goodManyEigs : ∃ eigs : ManyEigs K, GoodManyEigs eigs ∧ ∀ A n m P, m ≤ n → (eigs A n m P).ok = true := by
  classical
  have key : ∀ (A : Tensor K → Tensor K) (n m : Nat), ∃ r : ManyRes K, (m ≤ n → r.ok = true) ∧ (r.ok = true → m ≤ n) ∧
      (m ≤ n → ∀ W, Represents A n W →
      r.aux.length = m ∧ r.P.dims = [n, m] ∧
      (∀ p q, p < m → q < m → ∑ i ∈ Finset.range n, star (r.P.get [i, p]) * r.P.get [i, q] = if p = q then 1 else 0) ∧
      (∀ p, p < m → ∀ i < n, ∑ j ∈ Finset.range n, W i j * r.P.get [j, p] = ((RCLike.re (r.aux.getD p 0) : ℝ) : K) * r.P.get [i, p]) ∧
      ∀ p, p < m → ∀ X : Nat → K, (∀ q < p, ∑ i ∈ Finset.range n, star (r.P.get [i, q]) * X i = 0) →
        RCLike.re (r.aux.getD p 0) * ∑ i ∈ Finset.range n, ‖X i‖ ^ 2 ≤
          RCLike.re (∑ i ∈ Finset.range n, ∑ j ∈ Finset.range n, star (X i) * W i j * X j)) := by
    intro A n m
    by_cases hmn : m ≤ n
    swap
    · exact ⟨⟨[], Tensor.empty, false⟩, fun h => absurd h hmn, fun h => by simp at h, fun h => absurd h hmn⟩
    by_cases h : ∃ W, Represents A n W
    · obtain ⟨W, hW⟩ := h
      obtain ⟨v, E, h1, h2, h3⟩ := exists_sorted n (fun i j => W i j) (fun i j => hW.2.1 i j i.2 j.2)
      let val : Nat → ℝ := fun p => if h : p < n then E ⟨p, h⟩ else 0
      let M : Tensor K := ⟨[n, m], fun I => if h : I.getD 0 0 < n ∧ I.getD 1 0 < n then v ⟨I.getD 1 0, h.2⟩ ⟨I.getD 0 0, h.1⟩ else 0⟩
      have hM : ∀ (i : Fin n) p (hp : p < m), M.get [i, p] = v ⟨p, by omega⟩ i := by
        intro i p hp
        simp only [M, List.getD_cons_zero, List.getD_cons_succ]
        rw [dif_pos ⟨i.2, by omega⟩]
      have hval : ∀ p (hp : p < m), RCLike.re ((((List.range m).map fun p => ((val p : ℝ) : K)).getD p 0)) = E ⟨p, by omega⟩ := by
        intro p hp
        rw [List.getD_eq_getElem _ _ (by simpa using hp)]
        simp only [List.getElem_map, List.getElem_range, RCLike.ofReal_re, val]
        rw [dif_pos (by omega)]
      refine ⟨⟨(List.range m).map fun p => ((val p : ℝ) : K), M, true⟩, fun _ => rfl, fun _ => hmn, fun _ W' hW' => ⟨by simp, rfl, ?_, ?_, ?_⟩⟩
      · intro p q hp hq
        rw [Finset.sum_range]
        have := h1 ⟨p, by omega⟩ ⟨q, by omega⟩
        simp only [Fin.mk.injEq] at this
        rw [← this]
        exact Finset.sum_congr rfl fun i _ => by rw [hM i p hp, hM i q hq]
      · intro p hp i hi
        have := h2 ⟨p, by omega⟩ ⟨i, hi⟩
        rw [hval p hp, hM ⟨i, hi⟩ p hp, ← this, Finset.sum_range]
        exact Finset.sum_congr rfl fun j _ => by rw [hM j p hp, hW'.unique hW hi j.2]
      · intro p hp X hX
        rw [hval p hp]
        refine le_trans (le_of_eq ?_) (le_trans (h3 ⟨p, by omega⟩ (fun i => X i) fun q hq => ?_) (le_of_eq ?_))
        · rw [Finset.sum_range]
        · have hqp : q.1 < p := hq
          have := hX q hqp
          rw [Finset.sum_range] at this
          rw [← this]
          exact Finset.sum_congr rfl fun i _ => by rw [hM i q (by omega)]
        · rw [Finset.sum_range]
          congr 1
          refine Finset.sum_congr rfl fun i _ => ?_
          rw [Finset.sum_range]
          exact Finset.sum_congr rfl fun j _ => by rw [hW.unique hW' i.2 j.2]
    · exact ⟨⟨[], Tensor.empty, true⟩, fun _ => rfl, fun _ => hmn, fun _ W hW => absurd ⟨W, hW⟩ h⟩
  choose r hr1 hr2 hr3 using key
  exact ⟨fun A n m _ => r A n m, fun A n m P W hn hm hW hA hok => hr3 A n m (hr2 A n m hok) W ⟨hn, hW, hA⟩, fun A n m _ h => hr1 A n m h⟩

end MPS.Dmrg
