import Verif.MinimizerSpec
import Mathlib.Analysis.InnerProductSpace.Spectrum
import Mathlib.Analysis.InnerProductSpace.PiL2

/-!
# The hypothesis `GoodEigs` can be met, by a solver which always reports success
-/

set_option linter.unusedSectionVars false
set_option linter.unusedSimpArgs false

namespace MPS.Minim
open MPS Tensor
variable {K : Type} [RCLike K]

/-- a Hermitian matrix has an eigenvector for its smallest eigenvalue -/
theorem exists_lowest (n : Nat) (hn : 0 < n) (W : Fin n → Fin n → K) (hW : ∀ i j, star (W i j) = W j i) :
    ∃ (v : Fin n → K) (E : ℝ), ∑ i, ‖v i‖ ^ 2 = 1 ∧ (∀ i, ∑ j, W i j * v j = (E : K) * v i) ∧
      ∀ x : Fin n → K, E * ∑ i, ‖x i‖ ^ 2 ≤ RCLike.re (∑ i, ∑ j, star (x i) * W i j * x j) := by
  classical
  let T : EuclideanSpace K (Fin n) →ₗ[K] EuclideanSpace K (Fin n) := Matrix.toEuclideanLin (Matrix.of W)
  have hT : ∀ (x : EuclideanSpace K (Fin n)) i, T x i = ∑ j, W i j * x j := by
    intro x i
    simp [T, Matrix.toEuclideanLin, Matrix.toLpLin, Matrix.mulVec, dotProduct]
  have hin : ∀ x y : EuclideanSpace K (Fin n), Inner.inner K x y = ∑ i, star (x i) * y i := by
    intro x y
    rw [PiLp.inner_apply]
    exact Finset.sum_congr rfl fun i _ => by rw [RCLike.inner_apply, mul_comm]; rfl
  have hsym : T.IsSymmetric := by
    intro x y
    rw [hin, hin]
    simp only [hT, star_sum, star_mul', hW, Finset.sum_mul, Finset.mul_sum]
    rw [Finset.sum_comm]
    exact Finset.sum_congr rfl fun i _ => Finset.sum_congr rfl fun j _ => by ring
  have hfr : Module.finrank K (EuclideanSpace K (Fin n)) = n := by simp
  let e := hsym.eigenvectorBasis hfr
  let lam := hsym.eigenvalues hfr
  haveI : Nonempty (Fin n) := ⟨⟨0, hn⟩⟩
  obtain ⟨i0, hi0⟩ := Finite.exists_min lam
  have heig : ∀ i, T (e i) = ((lam i : ℝ) : K) • e i := fun i => hsym.apply_eigenvectorBasis hfr i
  refine ⟨e i0, lam i0, ?_, ?_, ?_⟩
  · have := e.orthonormal.1 i0
    have h2 := EuclideanSpace.norm_sq_eq (e i0)
    rw [this] at h2
    rw [← h2]; norm_num
  · intro i
    rw [← hT, heig]
    simp [RCLike.real_smul_eq_coe_mul]
  · intro x
    let y : EuclideanSpace K (Fin n) := WithLp.toLp 2 x
    have hy : ∀ i, y i = x i := fun i => rfl
    have h1 : ∑ i, ∑ j, star (x i) * W i j * x j = Inner.inner K y (T y) := by
      rw [hin]
      refine Finset.sum_congr rfl fun i _ => ?_
      rw [hT, Finset.mul_sum]
      exact Finset.sum_congr rfl fun j _ => by rw [hy, hy]; ring
    have h2 : ∑ i, ‖x i‖ ^ 2 = ∑ i, ‖Inner.inner K (e i) y‖ ^ 2 := by
      rw [e.sum_sq_norm_inner_right y, EuclideanSpace.norm_sq_eq]
    have h3 : Inner.inner K y (T y) = ((∑ i, lam i * ‖Inner.inner K (e i) y‖ ^ 2 : ℝ) : K) := by
      rw [← e.sum_inner_mul_inner y (T y), RCLike.ofReal_sum]
      refine Finset.sum_congr rfl fun i _ => ?_
      rw [← hsym (e i) y, heig, inner_smul_left, RCLike.conj_ofReal, ← inner_conj_symm y (e i)]
      rw [RCLike.ofReal_mul, RCLike.ofReal_pow, ← RCLike.conj_mul]; ring
    rw [h1, h3, RCLike.ofReal_re, h2, Finset.mul_sum]
    exact Finset.sum_le_sum fun i _ => mul_le_mul_of_nonneg_right (hi0 i) (by positivity)

/-- `A` multiplies vectors of size `n` with the Hermitian matrix `W` -/
def Represents (A : Tensor K → Tensor K) (n : Nat) (W : Nat → Nat → K) : Prop :=
  0 < n ∧ (∀ i j, i < n → j < n → star (W i j) = W j i) ∧
    ∀ X : Tensor K, X.dims = [n] → (A X).dims = [n] ∧ ∀ i < n, (A X).get [i] = ∑ j ∈ Finset.range n, W i j * X.get [j]

theorem Represents.unique {A : Tensor K → Tensor K} {n : Nat} {W W' : Nat → Nat → K} (h : Represents A n W) (h' : Represents A n W')
    {i j : Nat} (hi : i < n) (hj : j < n) : W i j = W' i j := by
  have key : ∀ W : Nat → Nat → K, Represents A n W → (A ⟨[n], fun I => if I = [j] then 1 else 0⟩).get [i] = W i j := by
    intro W hW
    rw [(hW.2.2 ⟨[n], fun I => if I = [j] then 1 else 0⟩ rfl).2 i hi, Finset.sum_eq_single_of_mem j (Finset.mem_range.2 hj)]
    · simp
    · intro b _ hb; simp [hb]
  rw [← key W h, ← key W' h']

theorem exists_lowest_range {n : Nat} (hn : 0 < n) (W : Nat → Nat → K) (hW : ∀ i j, i < n → j < n → star (W i j) = W j i) :
    ∃ (P : Tensor K) (E : ℝ), P.dims = [n] ∧ ∑ i ∈ Finset.range n, ‖P.get [i]‖ ^ 2 = 1 ∧
    (∀ i < n, ∑ j ∈ Finset.range n, W i j * P.get [j] = (E : K) * P.get [i]) ∧
    ∀ X : Nat → K, E * ∑ i ∈ Finset.range n, ‖X i‖ ^ 2 ≤
      RCLike.re (∑ i ∈ Finset.range n, ∑ j ∈ Finset.range n, star (X i) * W i j * X j) := by
  obtain ⟨v, E, h1, h2, h3⟩ := exists_lowest n hn (fun i j => W i j) (fun i j => hW i j i.2 j.2)
  refine ⟨⟨[n], fun I => if h : I.getD 0 0 < n then v ⟨I.getD 0 0, h⟩ else 0⟩, E, rfl, ?_, ?_, ?_⟩
  · rw [← h1, Finset.sum_range]
    exact Finset.sum_congr rfl fun i _ => by simp
  · intro i hi
    have := h2 ⟨i, hi⟩
    rw [Finset.sum_range]
    simp only [List.getD_cons_zero, hi, Fin.is_lt, dif_pos, Fin.eta]
    exact this
  · intro X
    have := h3 fun i => X i
    simp only [Finset.sum_range]
    exact this

/-- a solver which always succeeds -/
theorem exists_goodEigs : ∃ eigs : Eigs K, GoodEigs eigs ∧ ∀ A n P, (eigs A n P).ok = true := by
  classical
  have key : ∀ (A : Tensor K → Tensor K) (n : Nat), ∃ r : EigRes K, r.ok = true ∧ ∀ W, Represents A n W →
      r.P.dims = [n] ∧ ∑ i ∈ Finset.range n, ‖r.P.get [i]‖ ^ 2 = 1 ∧
      (∀ i < n, ∑ j ∈ Finset.range n, W i j * r.P.get [j] = r.E * r.P.get [i]) ∧
      ∀ X : Nat → K, RCLike.re r.E * ∑ i ∈ Finset.range n, ‖X i‖ ^ 2 ≤
        RCLike.re (∑ i ∈ Finset.range n, ∑ j ∈ Finset.range n, star (X i) * W i j * X j) := by
    intro A n
    by_cases h : ∃ W, Represents A n W
    · obtain ⟨W, hW⟩ := h
      obtain ⟨P, E, h1, h2, h3, h4⟩ := exists_lowest_range hW.1 W hW.2.1
      refine ⟨⟨(E : K), P, true, [E]⟩, rfl, fun W' hW' => ⟨h1, h2, ?_, ?_⟩⟩
      · intro i hi
        rw [← h3 i hi]
        exact Finset.sum_congr rfl fun j hj => by rw [hW.unique hW' hi (Finset.mem_range.1 hj)]
      · intro X
        simp only [RCLike.ofReal_re]
        refine le_trans (h4 X) (le_of_eq ?_)
        congr 1
        exact Finset.sum_congr rfl fun i hi => Finset.sum_congr rfl fun j hj => by
          rw [hW.unique hW' (Finset.mem_range.1 hi) (Finset.mem_range.1 hj)]
    · exact ⟨⟨0, Tensor.empty, true, []⟩, rfl, fun W hW => absurd ⟨W, hW⟩ h⟩
  choose r hr1 hr2 using key
  exact ⟨fun A n _ => r A n, fun A n P W hn hW hA _ => hr2 A n W ⟨hn, hW, hA⟩, fun A n _ => hr1 A n⟩

end MPS.Minim
