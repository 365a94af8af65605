import Verif.TrotterOrder4
import Mathlib.Analysis.InnerProductSpace.PiL2

/-!
# Forest–Ruth; bounds of the error of one step
-/

set_option linter.unusedSectionVars false
set_option linter.unusedSimpArgs false

namespace MPS.Order
open MPS Tensor Trotter Props
open scoped Matrix.Norms.Operator Matrix
open Asymptotics Filter Topology

/-- the parameter of the Forest–Ruth solver -/
noncomputable def theta : ℝ := 1.35120719195966

theorem stepsFR_theta : stepsFR = [(0, ((theta / 2 : ℝ) : ℂ)), (1, ((theta : ℝ) : ℂ)), (0, (((1 - theta) / 2 : ℝ) : ℂ)),
    (1, ((1 - 2 * theta : ℝ) : ℂ)), (0, (((1 - theta) / 2 : ℝ) : ℂ)), (1, ((theta : ℝ) : ℂ)), (0, ((theta / 2 : ℝ) : ℂ))] := by
  simp only [stepsFR, theta]; push_cast; norm_num

theorem stepsFR_vec {H : Ham ℂ} {ds : List Nat} (hH : HamFits H ds) (dt : ℝ) (φ : List Nat → ℂ) :
    vec ds (layerSteps matrixExp H ds dt stepsFR φ) =
      (strang (genMat H ds 0) (genMat H ds 1) (theta * (-Complex.I * dt)) *
        strang (genMat H ds 0) (genMat H ds 1) ((1 - 2 * theta) * (-Complex.I * dt)) *
        strang (genMat H ds 0) (genMat H ds 1) (theta * (-Complex.I * dt))) *ᵥ vec ds φ := by
  have hz : ∀ (k : Nat) (c : ℝ), (⟨-|((dt : ℂ) * (k, (c : ℂ)).2).im|, -((dt : ℂ) * (k, (c : ℂ)).2).re⟩ : ℂ) = c * (-Complex.I * dt) :=
    fun k c => half_rot dt (by simp) c (Or.inr (by simp))
  rw [stepsFR_theta]
  simp only [layerSteps, List.foldl_cons, List.foldl_nil]
  rw [layerStep_vec hH _ _ _ (hz _ _), layerStep_vec hH _ _ _ (hz _ _), layerStep_vec hH _ _ _ (hz _ _), layerStep_vec hH _ _ _ (hz _ _),
    layerStep_vec hH _ _ _ (hz _ _), layerStep_vec hH _ _ _ (hz _ _), layerStep_vec hH _ _ _ (hz _ _)]
  simp only [Matrix.mulVec_mulVec]
  have := fr_prod (genMat H ds 0) (genMat H ds 1) (theta : ℂ) (-Complex.I * dt)
  rw [← this]
  push_cast
  rfl

/-! ### norms -/

theorem wnorm_euclid (ds : List Nat) (φ : List Nat → ℂ) : wnorm ds φ = ‖WithLp.toLp 2 (vec ds φ)‖ := by
  rw [EuclideanSpace.norm_eq, wnorm, sumCfg_cfg]; rfl

theorem vec_le_wnorm (ds : List Nat) (φ : List Nat → ℂ) : ‖vec ds φ‖ ≤ wnorm ds φ := by
  have h0 : 0 ≤ wnorm ds φ := Real.sqrt_nonneg _
  refine (pi_norm_le_iff_of_nonneg h0).2 fun s => ?_
  rw [wnorm, sumCfg_cfg]
  refine Real.le_sqrt_of_sq_le ?_
  exact Finset.single_le_sum (f := fun s : Cfg ds => ‖φ s.1‖ ^ 2) (fun _ _ => by positivity) (Finset.mem_univ s)

theorem wnorm_le_vec (ds : List Nat) (φ : List Nat → ℂ) : wnorm ds φ ≤ Real.sqrt (Fintype.card (Cfg ds)) * ‖vec ds φ‖ := by
  rw [wnorm, sumCfg_cfg, ← Real.sqrt_sq (norm_nonneg (vec ds φ)), ← Real.sqrt_mul (by positivity)]
  refine Real.sqrt_le_sqrt ?_
  calc ∑ s : Cfg ds, ‖φ s.1‖ ^ 2 ≤ ∑ _s : Cfg ds, ‖vec ds φ‖ ^ 2 := by
        refine Finset.sum_le_sum fun s _ => ?_
        have := norm_le_pi_norm (vec ds φ) s
        exact pow_le_pow_left₀ (norm_nonneg _) this 2
    _ = _ := by simp

/-- `C |z|^m` bounds an operator which is `O(z^m)` -/
theorem bound_of_bigO {ds : List Nat} {f : ℂ → Matrix (Cfg ds) (Cfg ds) ℂ} {m : Nat} (h : f =O[𝓝 0] fun z => z ^ m) :
    ∃ C δ : ℝ, 0 ≤ C ∧ 0 < δ ∧ ∀ z : ℂ, ‖z‖ < δ → ‖f z‖ ≤ C * ‖z‖ ^ m := by
  obtain ⟨C, hC, h⟩ := h.exists_nonneg
  obtain ⟨δ, hδ, h⟩ := Metric.eventually_nhds_iff.1 h.bound
  exact ⟨C, δ, hC, hδ, fun z hz => by have := h (by simpa using hz); simpa using this⟩

/-- in the norm of the wave functions -/
theorem wnorm_bound {ds : List Nat} {f : ℂ → Matrix (Cfg ds) (Cfg ds) ℂ} {m : Nat} (h : f =O[𝓝 0] fun z => z ^ m) :
    ∃ C δ : ℝ, 0 ≤ C ∧ 0 < δ ∧ ∀ z : ℂ, ‖z‖ < δ → ∀ φ χ : List Nat → ℂ, vec ds χ = f z *ᵥ vec ds φ →
      wnorm ds χ ≤ C * ‖z‖ ^ m * wnorm ds φ := by
  obtain ⟨C, δ, hC, hδ, h⟩ := bound_of_bigO h
  refine ⟨Real.sqrt (Fintype.card (Cfg ds)) * C, δ, by positivity, hδ, fun z hz φ χ e => ?_⟩
  calc wnorm ds χ ≤ Real.sqrt (Fintype.card (Cfg ds)) * ‖vec ds χ‖ := wnorm_le_vec ds χ
    _ ≤ Real.sqrt (Fintype.card (Cfg ds)) * (‖f z‖ * ‖vec ds φ‖) := by
        rw [e]; gcongr; exact Matrix.linfty_opNorm_mulVec _ _
    _ ≤ Real.sqrt (Fintype.card (Cfg ds)) * ((C * ‖z‖ ^ m) * wnorm ds φ) := by
        gcongr
        · exact h z hz
        · exact vec_le_wnorm ds φ
    _ = _ := by ring

theorem norm_rot (dt : ℂ) : ‖-Complex.I * dt‖ = ‖dt‖ := by simp

/-- the exact evolution during a time `dt` -/
def Exact (H : Ham ℂ) (ds : List Nat) (dt : ℂ) (φ χ : List Nat → ℂ) : Prop :=
  vec ds χ = NormedSpace.exp ((-Complex.I * dt) • hamMat H ds) *ᵥ vec ds φ

theorem local2 {H : Ham ℂ} {ds : List Nat} (hH : HamFits H ds) : ∃ C δ : ℝ, 0 ≤ C ∧ 0 < δ ∧ ∀ dt : ℂ, dt.im ≤ 0 → ‖dt‖ < δ →
    ∀ φ χ, Exact H ds dt φ χ → wdist ds (layerSteps matrixExp H ds dt steps2 φ) χ ≤ C * ‖dt‖ ^ 2 * wnorm ds φ := by
  obtain ⟨C, δ, hC, hδ, h⟩ := wnorm_bound (lie (genMat H ds 0) (genMat H ds 1))
  refine ⟨C, δ, hC, hδ, fun dt hd hdt φ χ he => ?_⟩
  have := h (-Complex.I * dt) (by rwa [norm_rot]) φ (fun s => layerSteps matrixExp H ds dt steps2 φ s - χ s) ?_
  · rwa [norm_rot] at this
  · have e : vec ds (fun s => layerSteps matrixExp H ds dt steps2 φ s - χ s) = vec ds (layerSteps matrixExp H ds dt steps2 φ) - vec ds χ := rfl
    rw [e, steps2_vec hH dt hd, he, gen_sum hH]
    exact (Matrix.sub_mulVec _ _ _).symm

theorem local3 {H : Ham ℂ} {ds : List Nat} (hH : HamFits H ds) : ∃ C δ : ℝ, 0 ≤ C ∧ 0 < δ ∧ ∀ dt : ℂ, dt.im ≤ 0 → ‖dt‖ < δ →
    ∀ φ χ, Exact H ds dt φ χ → wdist ds (layerSteps matrixExp H ds dt steps3 φ) χ ≤ C * ‖dt‖ ^ 3 * wnorm ds φ := by
  obtain ⟨C, δ, hC, hδ, h⟩ := wnorm_bound (strang_order (genMat H ds 0) (genMat H ds 1))
  refine ⟨C, δ, hC, hδ, fun dt hd hdt φ χ he => ?_⟩
  have := h (-Complex.I * dt) (by rwa [norm_rot]) φ (fun s => layerSteps matrixExp H ds dt steps3 φ s - χ s) ?_
  · rwa [norm_rot] at this
  · have e : vec ds (fun s => layerSteps matrixExp H ds dt steps3 φ s - χ s) = vec ds (layerSteps matrixExp H ds dt steps3 φ) - vec ds χ := rfl
    rw [e, steps3_vec hH dt hd, he, gen_sum hH]
    exact (Matrix.sub_mulVec _ _ _).symm

theorem eta_lt : |2 * theta ^ 3 + (1 - 2 * theta) ^ 3| ≤ 1e-13 := by
  unfold theta; rw [abs_le]; constructor <;> norm_num

theorem localFR {H : Ham ℂ} {ds : List Nat} (hH : HamFits H ds) : ∃ C δ : ℝ, 0 ≤ C ∧ 0 < δ ∧ ∀ dt : ℝ, |dt| < δ →
    ∀ φ χ, Exact H ds dt φ χ → wdist ds (layerSteps matrixExp H ds dt stepsFR φ) χ ≤
      1e-13 * wdist ds (layerSteps matrixExp H ds dt steps3 φ) χ + C * |dt| ^ 5 * wnorm ds φ := by
  obtain ⟨C, δ, hC, hδ, h⟩ := wnorm_bound (forest_ruth (genMat H ds 0) (genMat H ds 1) (theta : ℂ))
  refine ⟨C, δ, hC, hδ, fun dt hdt φ χ he => ?_⟩
  have hn : ‖-Complex.I * (dt : ℂ)‖ = |dt| := by rw [norm_rot]; simp
  let η : ℝ := 2 * theta ^ 3 + (1 - 2 * theta) ^ 3
  have hη : (η : ℂ) = 2 * (theta : ℂ) ^ 3 + (1 - 2 * (theta : ℂ)) ^ 3 := by simp only [η]; push_cast; ring
  let f : List Nat → ℂ := fun s => layerSteps matrixExp H ds dt stepsFR φ s - χ s
  let g : List Nat → ℂ := fun s => layerSteps matrixExp H ds dt steps3 φ s - χ s
  have := h (-Complex.I * dt) (by rwa [hn]) φ (fun s => f s - (η : ℂ) * g s) ?_
  · rw [hn] at this
    have t1 : wnorm ds f ≤ wnorm ds (fun s => f s - (η : ℂ) * g s) + wnorm ds (fun s => (η : ℂ) * g s) := by
      rw [wnorm_euclid, wnorm_euclid, wnorm_euclid]
      refine le_trans (le_of_eq ?_) (norm_add_le _ _)
      congr 1
      ext s
      simp [vec]
    have t2 : wnorm ds (fun s => (η : ℂ) * g s) = |η| * wnorm ds g := by
      rw [wnorm_euclid, wnorm_euclid]
      have : WithLp.toLp 2 (vec ds fun s => (η : ℂ) * g s) = (η : ℂ) • WithLp.toLp 2 (vec ds g) := by
        ext s; simp [vec]
      rw [this, norm_smul]; simp
    have t3 : |η| * wnorm ds g ≤ 1e-13 * wnorm ds g := mul_le_mul_of_nonneg_right eta_lt (Real.sqrt_nonneg _)
    change wnorm ds f ≤ 1e-13 * wnorm ds g + _
    linarith
  · have e : vec ds (fun s => f s - (η : ℂ) * g s) = (vec ds (layerSteps matrixExp H ds dt stepsFR φ) - vec ds χ) -
        (η : ℂ) • (vec ds (layerSteps matrixExp H ds dt steps3 φ) - vec ds χ) := by
      funext s; simp [vec, f, g]
    rw [e, stepsFR_vec hH dt, steps3_vec hH dt (by simp), he, gen_sum hH, ← hη]
    refine Eq.symm ((Matrix.sub_mulVec _ _ _).trans ?_)
    refine congrArg₂ _ (Matrix.sub_mulVec _ _ _) ?_
    exact (Matrix.smul_mulVec _ _ _).trans (congrArg _ (Matrix.sub_mulVec _ _ _))

end MPS.Order
