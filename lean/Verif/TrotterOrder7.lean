import Verif.TrotterOrder6

/-!
# Existence of the exact evolution; powers of the bounds
-/

set_option linter.unusedSectionVars false
set_option linter.unusedSimpArgs false

namespace MPS.Order
open MPS Tensor Trotter Props
open scoped Matrix.Norms.Operator Matrix

/-- Schrödinger's equation has a solution for every initial state -/
theorem schroedinger_exists (H : Ham ℂ) (ds : List Nat) (w : ℂ) (φ : List Nat → ℂ) :
    ∃ ψ, Schroedinger H ds w ψ ∧ ∀ s, IsCfg ds s → ψ 0 s = φ s := by
  classical
  let X : Matrix (Cfg ds) (Cfg ds) ℂ := (-Complex.I * w) • hamMat H ds
  let v : ℝ → Cfg ds → ℂ := fun τ => NormedSpace.exp (τ • X) *ᵥ vec ds φ
  refine ⟨fun τ s => if h : s ∈ cfgs ds then v τ ⟨s, h⟩ else 0, ?_, ?_⟩
  · intro τ s hs
    have hm := mem_cfgs.2 hs
    have e1 : (fun τ => if h : s ∈ cfgs ds then v τ ⟨s, h⟩ else 0) = fun τ => ∑ t, NormedSpace.exp (τ • X) ⟨s, hm⟩ t * vec ds φ t := by
      funext τ; simp only [hm, dif_pos]; rfl
    rw [e1]
    have hd : HasDerivAt (fun τ : ℝ => NormedSpace.exp (τ • X)) (X * NormedSpace.exp (τ • X)) τ :=
      hasDerivAt_exp_smul_const' (𝕂 := ℝ) X τ
    have hen : ∀ t, HasDerivAt (fun τ : ℝ => NormedSpace.exp (τ • X) ⟨s, hm⟩ t) ((X * NormedSpace.exp (τ • X)) ⟨s, hm⟩ t) τ := by
      intro t
      let L : Matrix (Cfg ds) (Cfg ds) ℂ →ₗ[ℝ] ℂ := ⟨⟨fun M => M ⟨s, hm⟩ t, fun _ _ => rfl⟩, fun _ _ => rfl⟩
      exact L.toContinuousLinearMap.hasFDerivAt.comp_hasDerivAt τ hd
    refine (HasDerivAt.fun_sum fun t _ => (hen t).mul_const (vec ds φ t)).congr_deriv ?_
    have e2 : ∑ t, (X * NormedSpace.exp (τ • X)) ⟨s, hm⟩ t * vec ds φ t = ((X * NormedSpace.exp (τ • X)) *ᵥ vec ds φ) ⟨s, hm⟩ := rfl
    rw [e2, ← Matrix.mulVec_mulVec]
    have e3 : actOp ds (chainElt H ds) (fun s => if h : s ∈ cfgs ds then v τ ⟨s, h⟩ else 0) s = (hamMat H ds *ᵥ v τ) ⟨s, hm⟩ := by
      have := congrFun (vec_actOp ds (chainElt H ds) (fun s => if h : s ∈ cfgs ds then v τ ⟨s, h⟩ else 0)) ⟨s, hm⟩
      have ev : vec ds (fun s => if h : s ∈ cfgs ds then v τ ⟨s, h⟩ else 0) = v τ := by funext t; simp [vec]
      rw [ev] at this
      exact this
    rw [e3]
    simp only [X, Matrix.smul_mulVec, Pi.smul_apply, smul_eq_mul]
    rfl
  · intro s hs
    have hm := mem_cfgs.2 hs
    simp only [hm, dif_pos, v, zero_smul, NormedSpace.exp_zero, Matrix.one_mulVec]
    rfl

theorem exact_of_schroedinger {H : Ham ℂ} {ds : List Nat} {w : ℂ} {ψ : ℝ → List Nat → ℂ} (h : Schroedinger H ds w ψ) (τ₀ τ : ℝ) {dt : ℂ}
    (hw : w * τ = dt) {φ : List Nat → ℂ} (h0 : ∀ s, IsCfg ds s → ψ τ₀ s = φ s) : Exact H ds dt φ (ψ (τ₀ + τ)) := by
  unfold Exact
  rw [schroedinger_shift h, hw]
  congr 1
  funext s
  exact h0 s.1 s.cfg

theorem wdist_congr {ds : List Nat} {φ φ' χ χ' : List Nat → ℂ} (h : ∀ s, IsCfg ds s → φ s = φ' s) (h' : ∀ s, IsCfg ds s → χ s = χ' s) :
    wdist ds φ χ = wdist ds φ' χ' := by
  refine wnorm_congr ?_
  funext s
  simp [vec, h s.1 s.cfg, h' s.1 s.cfg]

/-- the operator of one step, of the first order -/
noncomputable def op2 (H : Ham ℂ) (ds : List Nat) (z : ℂ) : Matrix (Cfg ds) (Cfg ds) ℂ :=
  NormedSpace.exp (z • genMat H ds 1) * NormedSpace.exp (z • genMat H ds 0)

/-- growth of the operators -/
noncomputable def rate (H : Ham ℂ) (ds : List Nat) : ℝ := ‖genMat H ds 0‖ + ‖genMat H ds 1‖

theorem op2_le (H : Ham ℂ) (ds : List Nat) (z : ℂ) : ‖op2 H ds z‖ ≤ Real.exp (‖z‖ * rate H ds) := by
  unfold op2 rate
  refine (norm_mul_le _ _).trans ?_
  have := mul_le_mul (norm_exp_smul_le (genMat H ds 1) z) (norm_exp_smul_le (genMat H ds 0) z) (norm_nonneg _) (Real.exp_pos _).le
  rw [← Real.exp_add] at this
  refine this.trans (le_of_eq ?_)
  congr 1; ring

theorem strang_le (H : Ham ℂ) (ds : List Nat) (z : ℂ) : ‖strang (genMat H ds 0) (genMat H ds 1) z‖ ≤ Real.exp (‖z‖ * rate H ds) := by
  unfold strang rate
  have h0 := norm_exp_smul_le (genMat H ds 0) (1 / 2 * z)
  have h1 := norm_exp_smul_le (genMat H ds 1) z
  refine (norm_mul_le _ _).trans ?_
  have := mul_le_mul ((norm_mul_le _ _).trans (mul_le_mul h0 h1 (norm_nonneg _) (Real.exp_pos _).le)) h0 (norm_nonneg _)
    (mul_nonneg (Real.exp_pos _).le (Real.exp_pos _).le)
  rw [← Real.exp_add, ← Real.exp_add] at this
  refine this.trans (le_of_eq ?_)
  congr 1
  rw [norm_mul]
  norm_num
  ring

theorem exact_le {H : Ham ℂ} {ds : List Nat} (hH : HamFits H ds) (z : ℂ) : ‖NormedSpace.exp (z • hamMat H ds)‖ ≤ Real.exp (‖z‖ * rate H ds) := by
  refine (norm_exp_smul_le _ _).trans (Real.exp_le_exp.2 ?_)
  rw [← gen_sum hH]
  exact mul_le_mul_of_nonneg_left (norm_add_le _ _) (norm_nonneg _)

/-- many steps of a method of order `m` -/
theorem global_of {H : Ham ℂ} {ds : List Nat} (hH : HamFits H ds) {M : ℂ → Matrix (Cfg ds) (Cfg ds) ℂ} {m : Nat}
    (hM : ∀ z, ‖M z‖ ≤ Real.exp (‖z‖ * rate H ds))
    (ho : (fun z => M z - NormedSpace.exp (z • hamMat H ds)) =O[nhds 0] fun z => z ^ (m + 1)) (T : ℝ) :
    ∃ C δ : ℝ, 0 ≤ C ∧ 0 < δ ∧ ∀ z : ℂ, ‖z‖ < δ → ∀ n : Nat, n * ‖z‖ ≤ T → ∀ a b : Nat → List Nat → ℂ,
      (∀ i < n, vec ds (a (i + 1)) = M z *ᵥ vec ds (a i)) →
      (∀ i < n, vec ds (b (i + 1)) = NormedSpace.exp (z • hamMat H ds) *ᵥ vec ds (b i)) → vec ds (a 0) = vec ds (b 0) →
      wdist ds (a n) (b n) ≤ C * ‖z‖ ^ m * wnorm ds (a 0) := by
  obtain ⟨C, δ, hC, hδ, h⟩ := bound_of_bigO ho
  have hr : 0 ≤ rate H ds := add_nonneg (norm_nonneg _) (norm_nonneg _)
  refine ⟨Real.sqrt (Fintype.card (Cfg ds)) * (|T| * C * Real.exp (|T| * rate H ds)), δ, by positivity, hδ, fun z hz n hn a b ha hb h0 => ?_⟩
  have hT : n * ‖z‖ ≤ |T| := hn.trans (le_abs_self T)
  have ht := (telescope (a := fun i => vec ds (a i)) (b := fun i => vec ds (b i)) (N := n) (c := C * ‖z‖ ^ (m + 1))
    (g := Real.exp (‖z‖ * rate H ds)) (by positivity) (Real.one_le_exp (by positivity)) (hM z) (exact_le hH z) (h z hz) ha hb h0 n le_rfl).2
  have hexp : Real.exp (‖z‖ * rate H ds) ^ n ≤ Real.exp (|T| * rate H ds) := by
    rw [← Real.exp_nat_mul]
    refine Real.exp_le_exp.2 ?_
    rw [← mul_assoc]
    exact mul_le_mul_of_nonneg_right hT hr
  have hv := vec_le_wnorm ds (a 0)
  calc wdist ds (a n) (b n) ≤ Real.sqrt (Fintype.card (Cfg ds)) * ‖vec ds (a n) - vec ds (b n)‖ := wnorm_le_vec ds _
    _ ≤ Real.sqrt (Fintype.card (Cfg ds)) * (n * (C * ‖z‖ ^ (m + 1)) * Real.exp (‖z‖ * rate H ds) ^ n * ‖vec ds (a 0)‖) := by
        gcongr
    _ = Real.sqrt (Fintype.card (Cfg ds)) * ((n * ‖z‖) * (C * ‖z‖ ^ m) * Real.exp (‖z‖ * rate H ds) ^ n * ‖vec ds (a 0)‖) := by ring
    _ ≤ Real.sqrt (Fintype.card (Cfg ds)) * (|T| * (C * ‖z‖ ^ m) * Real.exp (|T| * rate H ds) * wnorm ds (a 0)) := by
        gcongr
    _ = _ := by ring

end MPS.Order
