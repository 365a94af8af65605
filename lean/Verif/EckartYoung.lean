import Verif.CanonLemmas
import Mathlib.Analysis.InnerProductSpace.Projection.Basic
import Mathlib.Analysis.InnerProductSpace.Projection.FiniteDimensional
import Mathlib.Analysis.InnerProductSpace.PiL2

/-!
# The truncated singular value decomposition is the best approximation of its rank (Eckart, Young)
-/

set_option linter.unusedSectionVars false
set_option linter.unusedSimpArgs false

namespace MPS
open Tensor MPS.Props
variable {K : Type} [RCLike K]

/-- weights between 0 and 1 with sum at most `c`, on ordered values -/
theorem weighted_le {N c : Nat} (hc : c ≤ N) (s w : Nat → ℝ) (hs : ∀ i j, i ≤ j → s j ≤ s i) (h0 : ∀ i, 0 ≤ s i)
    (w0 : ∀ k < N, 0 ≤ w k) (w1 : ∀ k < N, w k ≤ 1) (hw : ∑ k ∈ Finset.range N, w k ≤ c) :
    ∑ k ∈ Finset.range N, s k * w k ≤ ∑ k ∈ Finset.range c, s k := by
  have e1 := Finset.sum_range_add_sum_Ico (fun k => s k * w k) hc
  have e2 := Finset.sum_range_add_sum_Ico w hc
  rw [← e1]
  have h1 : ∑ k ∈ Finset.Ico c N, s k * w k ≤ s c * ∑ k ∈ Finset.Ico c N, w k := by
    rw [Finset.mul_sum]
    refine Finset.sum_le_sum fun k hk => ?_
    obtain ⟨a, b⟩ := Finset.mem_Ico.1 hk
    exact mul_le_mul_of_nonneg_right (hs c k a) (w0 k b)
  have h2 : s c * ∑ k ∈ Finset.range c, (1 - w k) ≤ ∑ k ∈ Finset.range c, s k * (1 - w k) := by
    rw [Finset.mul_sum]
    refine Finset.sum_le_sum fun k hk => ?_
    have hk := Finset.mem_range.1 hk
    exact mul_le_mul_of_nonneg_right (hs k c hk.le) (by linarith [w1 k (by omega)])
  have h3 : ∑ k ∈ Finset.range c, (1 - w k) = c - ∑ k ∈ Finset.range c, w k := by
    rw [Finset.sum_sub_distrib]; simp
  have h4 : ∑ k ∈ Finset.range c, s k * (1 - w k) = ∑ k ∈ Finset.range c, s k - ∑ k ∈ Finset.range c, s k * w k := by
    rw [← Finset.sum_sub_distrib]
    exact Finset.sum_congr rfl fun k _ => by ring
  rw [h3] at h2
  rw [h4] at h2
  have h5 : s c * ∑ k ∈ Finset.Ico c N, w k ≤ s c * (c - ∑ k ∈ Finset.range c, w k) :=
    mul_le_mul_of_nonneg_left (by linarith) (h0 c)
  linarith

/-- distance to a subspace -/
theorem dist_subspace {E : Type} [NormedAddCommGroup E] [InnerProductSpace K E] [FiniteDimensional K E] (S : Submodule K E) {ι : Type} [Fintype ι]
    (b : OrthonormalBasis ι K S) (v w : E) (hw : w ∈ S) : ‖v‖ ^ 2 - ∑ q, ‖Inner.inner K (b q : E) v‖ ^ 2 ≤ ‖v - w‖ ^ 2 := by
  have h1 := Submodule.norm_sq_eq_add_norm_sq_projection v S
  have h2 := Submodule.norm_sq_eq_add_norm_sq_projection (v - w) S
  have h3 : Sᗮ.orthogonalProjectionOnto w = 0 := by
    rw [Submodule.orthogonalProjectionOnto_eq_zero_iff]
    exact Submodule.le_orthogonal_orthogonal S hw
  rw [map_sub Sᗮ.orthogonalProjectionOnto, h3, sub_zero] at h2
  have h4 : ‖S.orthogonalProjectionOnto v‖ ^ 2 = ∑ q, ‖Inner.inner K (b q : E) v‖ ^ 2 := by
    rw [← b.sum_sq_norm_inner_right]
    refine Finset.sum_congr rfl fun q _ => ?_
    rw [Submodule.inner_orthogonalProjectionOnto_eq_of_mem_left]
  rw [← h4]
  nlinarith [sq_nonneg ‖S.orthogonalProjectionOnto (v - w)‖]

/-- Eckart and Young: no matrix `∑_{k<c} X(i,k) Y(k,j)` is closer to `A` than the decomposition with the `c` first singular values -/
theorem eckart_young {A : Tensor K} {m n : Nat} {r : SvdRes K} (h : IsSVD A m n r) (h0 : ∀ i, 0 ≤ r.s.getD i 0)
    (hs : ∀ i j, i ≤ j → r.s.getD j 0 ≤ r.s.getD i 0) (c : Nat) (X Y : Nat → Nat → K) :
    discarded r.s c ≤ ∑ i ∈ Finset.range m, ∑ j ∈ Finset.range n, ‖A.get [i, j] - ∑ k ∈ Finset.range c, X i k * Y k j‖ ^ 2 := by
  rcases Nat.lt_or_ge (min m n) c with hc | hc
  · have : discarded r.s c = 0 := by
      unfold discarded; rw [h.lenS, Finset.Ico_eq_empty (by omega)]; simp
    rw [this]
    exact Finset.sum_nonneg fun _ _ => Finset.sum_nonneg fun _ _ => by positivity
  let E := EuclideanSpace K (Fin m)
  have hin : ∀ x y : E, Inner.inner K x y = ∑ i, star (x i) * y i := by
    intro x y
    rw [PiLp.inner_apply]
    exact Finset.sum_congr rfl fun i _ => by rw [RCLike.inner_apply, mul_comm]; rfl
  let u : Fin (min m n) → E := fun k => WithLp.toLp 2 fun i : Fin m => r.U.get [(i : Nat), (k : Nat)]
  have hu : ∀ k i, u k i = r.U.get [(i : Nat), (k : Nat)] := fun _ _ => rfl
  have huo : Orthonormal K u := by
    rw [orthonormal_iff_ite]
    intro k l
    rw [hin]
    have := h.isoU k l k.2 l.2
    rw [← Fin.sum_univ_eq_sum_range (fun i => star (r.U.get [i, (k : Nat)]) * r.U.get [i, (l : Nat)])] at this
    simp only [hu, this, Fin.val_inj]
  let v : Nat → E := fun j => WithLp.toLp 2 fun i : Fin m => A.get [(i : Nat), j]
  let x : Fin c → E := fun k => WithLp.toLp 2 fun i : Fin m => X i k
  let S := Submodule.span K (Set.range x)
  let b := stdOrthonormalBasis K S
  have hfr : Module.finrank K S ≤ c := by
    have := finrank_range_le_card (R := K) x
    rw [Fintype.card_fin] at this
    exact this
  let w : Nat → E := fun j => ∑ k : Fin c, Y k j • x k
  have hwS : ∀ j, w j ∈ S := fun j => Submodule.sum_mem _ fun k _ => Submodule.smul_mem _ _ (Submodule.subset_span ⟨k, rfl⟩)
  have hnorm : ∀ j, ‖v j - w j‖ ^ 2 = ∑ i ∈ Finset.range m, ‖A.get [i, j] - ∑ k ∈ Finset.range c, X i k * Y k j‖ ^ 2 := by
    intro j
    rw [EuclideanSpace.norm_sq_eq, ← Fin.sum_univ_eq_sum_range (fun i => ‖A.get [i, j] - ∑ k ∈ Finset.range c, X i k * Y k j‖ ^ 2)]
    refine Finset.sum_congr rfl fun i _ => ?_
    rw [← Fin.sum_univ_eq_sum_range (fun k => X i k * Y k j)]
    congr 2
    show A.get [(i : Nat), j] - (∑ k : Fin c, Y k j • x k : E) i = _
    congr 1
    rw [WithLp.ofLp_sum, Finset.sum_apply]
    exact Finset.sum_congr rfl fun k _ => mul_comm _ _
  have hv : ∀ j, ‖v j‖ ^ 2 = ∑ i ∈ Finset.range m, ‖A.get [i, j]‖ ^ 2 := by
    intro j
    rw [EuclideanSpace.norm_sq_eq, ← Fin.sum_univ_eq_sum_range (fun i => ‖A.get [i, j]‖ ^ 2)]
  have hvin : ∀ (q : E) j, j < n → Inner.inner K q (v j) = ∑ k : Fin (min m n), Inner.inner K q (u k) * ((r.s.getD k 0 : ℝ) : K) * r.V.get [(k : Nat), j] := by
    intro q j hj
    rw [hin]
    have : ∀ i : Fin m, v j i = ∑ k : Fin (min m n), r.U.get [(i : Nat), (k : Nat)] * ((r.s.getD k 0 : ℝ) : K) * r.V.get [(k : Nat), j] := by
      intro i
      rw [Fin.sum_univ_eq_sum_range (fun k => r.U.get [(i : Nat), k] * ((r.s.getD k 0 : ℝ) : K) * r.V.get [k, j]), h.prod i j i.2 hj]
    simp only [this, hin, hu, Finset.mul_sum, Finset.sum_mul]
    rw [Finset.sum_comm]
    exact Finset.sum_congr rfl fun k _ => Finset.sum_congr rfl fun i _ => by ring
  have hsq : ∀ q : E, ∑ j ∈ Finset.range n, ‖Inner.inner K q (v j)‖ ^ 2 = ∑ k : Fin (min m n), r.s.getD k 0 ^ 2 * ‖Inner.inner K q (u k)‖ ^ 2 := by
    intro q
    have hK : ∀ z : K, ((‖z‖ ^ 2 : ℝ) : K) = z * star z := by
      intro z; have := RCLike.mul_conj z; simpa using this.symm
    have : ((∑ j ∈ Finset.range n, ‖Inner.inner K q (v j)‖ ^ 2 : ℝ) : K) =
        ((∑ k : Fin (min m n), r.s.getD k 0 ^ 2 * ‖Inner.inner K q (u k)‖ ^ 2 : ℝ) : K) := by
      rw [RCLike.ofReal_sum, RCLike.ofReal_sum]
      rw [Finset.sum_congr rfl fun j hj => by rw [hK, hvin q j (Finset.mem_range.1 hj), star_sum, Finset.sum_mul_sum]]
      rw [Finset.sum_comm]
      refine Finset.sum_congr rfl fun k _ => ?_
      rw [Finset.sum_comm]
      have : ∀ l : Fin (min m n), ∑ j ∈ Finset.range n, Inner.inner K q (u k) * ((r.s.getD k 0 : ℝ) : K) * r.V.get [(k : Nat), j] *
          star (Inner.inner K q (u l) * ((r.s.getD l 0 : ℝ) : K) * r.V.get [(l : Nat), j]) =
          Inner.inner K q (u k) * ((r.s.getD k 0 : ℝ) : K) * star (Inner.inner K q (u l) * ((r.s.getD l 0 : ℝ) : K)) *
            if (k : Nat) = l then 1 else 0 := by
        intro l
        rw [← h.isoV k l k.2 l.2, Finset.mul_sum]
        refine Finset.sum_congr rfl fun j _ => ?_
        rw [star_mul' (Inner.inner K q (u l) * ((r.s.getD l 0 : ℝ) : K))]
        ring
      simp only [this, Fin.val_inj]
      rw [Finset.sum_eq_single_of_mem k (Finset.mem_univ _) (fun l _ hl => by rw [if_neg (Ne.symm hl), mul_zero]), if_pos rfl, mul_one, star_mul',
        RCLike.ofReal_mul, hK, RCLike.star_def, RCLike.conj_ofReal, RCLike.ofReal_pow]
      ring
    exact_mod_cast this
  let wt : Nat → ℝ := fun k => if hk : k < min m n then ∑ q, ‖Inner.inner K (b q : E) (u ⟨k, hk⟩)‖ ^ 2 else 0
  have hwt : ∀ k : Fin (min m n), wt k = ∑ q, ‖Inner.inner K (b q : E) (u k)‖ ^ 2 := by
    intro k; simp only [wt, dif_pos k.2]
  have hbo : Orthonormal K (fun q => (b q : E)) := by
    have := b.orthonormal
    rw [orthonormal_iff_ite] at this ⊢
    intro i j
    rw [← this i j]; rfl
  have hle := weighted_le hc (fun k => r.s.getD k 0 ^ 2) wt (fun i j hij => pow_le_pow_left₀ (h0 j) (hs i j hij) 2) (fun i => sq_nonneg _)
    (fun k hk => by rw [hwt ⟨k, hk⟩]; exact Finset.sum_nonneg fun _ _ => by positivity)
    (fun k hk => by
      rw [hwt ⟨k, hk⟩]
      have := hbo.sum_inner_products_le (u ⟨k, hk⟩) (s := Finset.univ)
      rw [huo.1 ⟨k, hk⟩] at this
      simpa using this)
    (by
      rw [← Fin.sum_univ_eq_sum_range wt]
      simp only [hwt]
      rw [Finset.sum_comm]
      refine le_trans (Finset.sum_le_sum (g := fun _ => (1 : ℝ)) fun q _ => ?_) ?_
      · have := huo.sum_inner_products_le (b q : E) (s := Finset.univ)
        rw [hbo.1 q] at this
        refine le_trans (le_of_eq (Finset.sum_congr rfl fun k _ => ?_)) (by simpa using this)
        rw [← inner_conj_symm, RCLike.norm_conj]
      · simp only [Finset.sum_const, Finset.card_univ, Fintype.card_fin, nsmul_eq_mul, mul_one]
        exact_mod_cast hfr)
  rw [Finset.sum_comm]
  have h1 : ∑ j ∈ Finset.range n, (‖v j‖ ^ 2 - ∑ q, ‖Inner.inner K (b q : E) (v j)‖ ^ 2) ≤ ∑ j ∈ Finset.range n, ‖v j - w j‖ ^ 2 :=
    Finset.sum_le_sum fun j _ => dist_subspace S b (v j) (w j) (hwS j)
  rw [Finset.sum_congr rfl fun j _ => (hnorm j).symm]
  refine le_trans ?_ h1
  rw [Finset.sum_sub_distrib]
  have h2 : ∑ j ∈ Finset.range n, ‖v j‖ ^ 2 = discarded r.s 0 := by
    have := h.error (Nat.zero_le _)
    simp only [Finset.range_zero, Finset.sum_empty, sub_zero] at this
    rw [← this, Finset.sum_comm]
    exact Finset.sum_congr rfl fun j _ => hv j
  have h3 : ∑ j ∈ Finset.range n, ∑ q, ‖Inner.inner K (b q : E) (v j)‖ ^ 2 = ∑ k ∈ Finset.range (min m n), r.s.getD k 0 ^ 2 * wt k := by
    rw [Finset.sum_comm, Finset.sum_congr rfl fun q _ => hsq (b q), Finset.sum_comm,
      ← Fin.sum_univ_eq_sum_range (fun k => r.s.getD k 0 ^ 2 * wt k)]
    exact Finset.sum_congr rfl fun k _ => by rw [hwt, Finset.mul_sum]
  rw [h2, h3]
  have h4 : discarded r.s 0 = ∑ k ∈ Finset.range c, r.s.getD k 0 ^ 2 + discarded r.s c := by
    unfold discarded
    rw [Finset.range_eq_Ico, Finset.sum_Ico_consecutive _ (Nat.zero_le _) (by rw [h.lenS]; exact hc)]
  rw [h4]
  linarith

end MPS
