import Verif.TrotterOrder3
import Verif.TrotterOrderSpec
import Verif.Props.TrotterProps4

/-!
# One step of the Trotter solvers and the exact evolution
-/

set_option linter.unusedSectionVars false
set_option linter.unusedSimpArgs false

namespace MPS.Order
open MPS Tensor Trotter Props
open scoped Matrix.Norms.Operator Matrix

theorem hasDerivAt_matrix_real {n : Type} [Fintype n] [DecidableEq n] {F : ℝ → Matrix n n ℂ} {F' : Matrix n n ℂ} {z : ℝ}
    (h : ∀ i j, HasDerivAt (fun z => F z i j) (F' i j) z) : HasDerivAt F F' z := by
  have e : ∀ M : Matrix n n ℂ, M = ∑ i, ∑ j, M i j • Matrix.single i j (1 : ℂ) := by
    intro M
    conv_lhs => rw [Matrix.matrix_eq_sum_single M]
    refine Finset.sum_congr rfl fun i _ => Finset.sum_congr rfl fun j _ => ?_
    rw [Matrix.smul_single, smul_eq_mul, mul_one]
  rw [show F = fun z => ∑ i, ∑ j, F z i j • Matrix.single i j (1 : ℂ) from funext fun z => e _, e F']
  exact HasDerivAt.fun_sum fun i _ => HasDerivAt.fun_sum fun j _ => (h i j).smul_const _

/-- the Hamiltonian as a matrix -/
noncomputable def hamMat (H : Ham ℂ) (ds : List Nat) : Matrix (Cfg ds) (Cfg ds) ℂ := opMat ds (chainElt H ds)

/-- the solution of Schrödinger's equation -/
theorem schroedinger_exp {H : Ham ℂ} {ds : List Nat} {w : ℂ} {ψ : ℝ → List Nat → ℂ} (h : Schroedinger H ds w ψ) (τ : ℝ) :
    vec ds (ψ τ) = NormedSpace.exp ((-Complex.I * (w * τ)) • hamMat H ds) *ᵥ vec ds (ψ 0) := by
  let F : ℝ → Matrix (Cfg ds) (Cfg ds) ℂ := fun τ => Matrix.of fun s _ => ψ τ s.1
  have hF : ∀ τ, HasDerivAt F (((-Complex.I * w) • hamMat H ds) * F τ) τ := by
    intro τ
    refine hasDerivAt_matrix_real fun s t => ?_
    refine (h τ s.1 s.cfg).congr_deriv ?_
    rw [Matrix.smul_mul, Matrix.smul_apply, Matrix.mul_apply, actOp, sumCfg_cfg, smul_eq_mul]
    rfl
  have := ode_exp_real hF τ
  funext s
  have e := congrFun (congrFun this s) s
  rw [Matrix.mul_apply] at e
  have e2 : τ • ((-Complex.I * w) • hamMat H ds) = (-Complex.I * (w * τ)) • hamMat H ds := by
    ext i j
    simp only [Matrix.smul_apply, smul_eq_mul, Complex.real_smul]; ring
  rw [e2] at e
  exact e

theorem schroedinger_shift {H : Ham ℂ} {ds : List Nat} {w : ℂ} {ψ : ℝ → List Nat → ℂ} (h : Schroedinger H ds w ψ) (τ₀ τ : ℝ) :
    vec ds (ψ (τ₀ + τ)) = NormedSpace.exp ((-Complex.I * (w * τ)) • hamMat H ds) *ᵥ vec ds (ψ τ₀) := by
  have h2 : Schroedinger H ds w (fun τ => ψ (τ₀ + τ)) := by
    intro τ s hs
    exact (h (τ₀ + τ) s hs).comp_const_add τ₀ τ
  have := schroedinger_exp h2 τ
  simpa using this

/-- the sum of the generators of a layer -/
noncomputable def genMat (H : Ham ℂ) (ds : List Nat) (k : Nat) : Matrix (Cfg ds) (Cfg ds) ℂ := opMat ds (genElt ds k (layerGen H k))

theorem gen_sum {H : Ham ℂ} {ds : List Nat} (hH : HamFits H ds) : genMat H ds 0 + genMat H ds 1 = hamMat H ds := by
  ext s t
  have := C58_generators_sum hH s.1 t.1 s.cfg t.cfg
  rw [Finset.sum_range_succ, Finset.sum_range_one] at this
  exact this

theorem layer_dims {H : Ham ℂ} {ds : List Nat} (hH : HamFits H ds) (k : Nat) : LayerDims ds k (layerGen H k) :=
  ⟨(layerGen_dims hH k).1, (layerGen_dims hH k).2⟩

theorem layerStep_vec {H : Ham ℂ} {ds : List Nat} (hH : HamFits H ds) (dt : ℂ) (l : Nat × ℂ) (z : ℂ)
    (hz : (⟨-|(dt * l.2).im|, -(dt * l.2).re⟩ : ℂ) = z) (φ : List Nat → ℂ) :
    vec ds (layerStep matrixExp H ds dt φ l) = NormedSpace.exp (z • genMat H ds l.1) *ᵥ vec ds φ := by
  unfold layerStep
  rw [hz, vec_actOp, layer_exp (layer_dims hH l.1)]
  rfl

/-- first order -/
theorem steps2_vec {H : Ham ℂ} {ds : List Nat} (hH : HamFits H ds) (dt : ℂ) (hd : dt.im ≤ 0) (φ : List Nat → ℂ) :
    vec ds (layerSteps matrixExp H ds dt steps2 φ) =
      (NormedSpace.exp ((-Complex.I * dt) • genMat H ds 1) * NormedSpace.exp ((-Complex.I * dt) • genMat H ds 0)) *ᵥ vec ds φ := by
  have hz : ∀ k : Nat, (⟨-|(dt * (k, (1 : ℂ)).2).im|, -(dt * (k, (1 : ℂ)).2).re⟩ : ℂ) = -Complex.I * dt := by
    intro k; simp only [mul_one]; exact C60_rotation dt hd
  simp only [layerSteps, steps2, List.foldl_cons, List.foldl_nil]
  rw [layerStep_vec hH dt (1, 1) _ (hz 1), layerStep_vec hH dt (0, 1) _ (hz 0), Matrix.mulVec_mulVec]

theorem half_rot (dt : ℂ) (hd : dt.im ≤ 0) (c : ℝ) (hc : 0 ≤ c ∨ dt.im = 0) :
    (⟨-|(dt * (c : ℂ)).im|, -(dt * (c : ℂ)).re⟩ : ℂ) = c * (-Complex.I * dt) := by
  have hm : (dt * (c : ℂ)).im ≤ 0 := by
    rcases hc with h | h
    · simp; nlinarith
    · simp [h]
  rw [C60_rotation _ hm]; ring

theorem steps3_vec {H : Ham ℂ} {ds : List Nat} (hH : HamFits H ds) (dt : ℂ) (hd : dt.im ≤ 0) (φ : List Nat → ℂ) :
    vec ds (layerSteps matrixExp H ds dt steps3 φ) = strang (genMat H ds 0) (genMat H ds 1) (-Complex.I * dt) *ᵥ vec ds φ := by
  have h1 : (⟨-|(dt * ((1 : Nat), (1 : ℂ)).2).im|, -(dt * ((1 : Nat), (1 : ℂ)).2).re⟩ : ℂ) = -Complex.I * dt := by
    simp only [mul_one]; exact C60_rotation dt hd
  have h2 : (⟨-|(dt * ((0 : Nat), (1 / 2 : ℂ)).2).im|, -(dt * ((0 : Nat), (1 / 2 : ℂ)).2).re⟩ : ℂ) = (1 / 2 : ℂ) * (-Complex.I * dt) := by
    have := half_rot dt hd (1 / 2) (Or.inl (by norm_num))
    push_cast at this
    exact this
  simp only [layerSteps, steps3, List.foldl_cons, List.foldl_nil]
  rw [layerStep_vec hH dt (0, 1 / 2) _ h2, layerStep_vec hH dt (1, 1) _ h1, layerStep_vec hH dt (0, 1 / 2) _ h2, Matrix.mulVec_mulVec,
    Matrix.mulVec_mulVec]
  rfl

end MPS.Order
