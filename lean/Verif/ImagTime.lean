import Verif.Props.TrotterOrderProps
import Mathlib.Analysis.InnerProductSpace.Calculus
import Mathlib.Analysis.Calculus.Deriv.MeanValue
import Mathlib.Analysis.Calculus.Deriv.Inv
import Mathlib.Analysis.Calculus.Deriv.Prod
import Mathlib.Analysis.InnerProductSpace.Symmetric

/-!
# Energy in imaginary time

The energy of the exact evolution in imaginary time does not grow, and energies of near wave functions are near.
-/

set_option linter.unusedSectionVars false
set_option linter.unusedSimpArgs false

namespace MPS.Order
open MPS Tensor Trotter Matrix Props

/-- for a linear flow `x' = -L x` with a symmetric operator the Rayleigh quotient does not grow -/
theorem rayleigh_antitone {E : Type} [NormedAddCommGroup E] [InnerProductSpace ℂ E] {L : E →L[ℂ] E} (hL : ∀ x y, Inner.inner ℂ (L x) y = Inner.inner ℂ x (L y))
    {x : ℝ → E} (hx : ∀ t, HasDerivAt x (-(L (x t))) t) (h0 : ∀ t, x t ≠ 0) :
    Antitone fun t => (Inner.inner ℂ (x t) (L (x t)) : ℂ).re / ‖x t‖ ^ 2 := by
  have hLx : ∀ t, HasDerivAt (fun t => L (x t)) (-(L (L (x t)))) t := by
    intro t
    have := (L.restrictScalars ℝ).hasFDerivAt.comp_hasDerivAt t (hx t)
    simpa [Function.comp_def] using this
  have hg : ∀ t, HasDerivAt (fun t => (Inner.inner ℂ (x t) (L (x t)) : ℂ).re) (-2 * ‖L (x t)‖ ^ 2) t := by
    intro t
    have := ((hx t).inner ℂ (hLx t))
    have h2 := (Complex.reCLM.hasFDerivAt.comp_hasDerivAt t this)
    refine h2.congr_deriv ?_
    simp only [inner_neg_left, inner_neg_right, Complex.reCLM_apply, ← hL (x t) (L (x t))]
    rw [inner_self_eq_norm_sq_to_K]
    simp [← Complex.ofReal_pow]
    ring
  have hn : ∀ t, HasDerivAt (fun t => ‖x t‖ ^ 2) (-2 * (Inner.inner ℂ (x t) (L (x t)) : ℂ).re) t := by
    intro t
    have := ((hx t).inner ℂ (hx t))
    have h2 := (Complex.reCLM.hasFDerivAt.comp_hasDerivAt t this)
    have e : (fun t => ‖x t‖ ^ 2) = Complex.reCLM ∘ fun t => (Inner.inner ℂ (x t) (x t) : ℂ) := by
      funext t
      simp only [Function.comp, Complex.reCLM_apply, inner_self_eq_norm_sq_to_K]
      simp [← Complex.ofReal_pow]
    rw [e]
    refine h2.congr_deriv ?_
    simp only [inner_neg_left, inner_neg_right, Complex.reCLM_apply, hL (x t) (x t)]
    simp
    ring
  have hd : ∀ t, HasDerivAt (fun t => (Inner.inner ℂ (x t) (L (x t)) : ℂ).re / ‖x t‖ ^ 2) _ t :=
    fun t => (hg t).div (hn t) (by have := norm_pos_iff.2 (h0 t); positivity)
  refine antitone_of_deriv_nonpos (fun t => (hd t).differentiableAt) fun t => ?_
  rw [(hd t).deriv]
  refine div_nonpos_of_nonpos_of_nonneg ?_ (by positivity)
  have h1 : |(Inner.inner ℂ (x t) (L (x t)) : ℂ).re| ≤ ‖x t‖ * ‖L (x t)‖ :=
    (Complex.abs_re_le_norm _).trans (norm_inner_le_norm _ _)
  have h2 := mul_self_le_mul_self (abs_nonneg _) h1
  rw [abs_mul_abs_self] at h2
  nlinarith

/-- Rayleigh quotient ⟨φ|H|φ⟩/⟨φ|φ⟩ -/
noncomputable def ray (H : Ham ℂ) (ds : List Nat) (φ : List Nat → ℂ) : ℝ :=
  (MPS.inner ds φ (actOp ds (chainElt H ds) φ)).re / wnorm ds φ ^ 2

theorem inner_euclid (ds : List Nat) (φ χ : List Nat → ℂ) :
    MPS.inner ds φ χ = Inner.inner ℂ (WithLp.toLp 2 (vec ds φ)) (WithLp.toLp 2 (vec ds χ)) := by
  rw [inner_vec, EuclideanSpace.inner_eq_star_dotProduct, dotProduct_comm]

/-- the Hamiltonian on the Euclidean space of wave functions -/
noncomputable def hamL (H : Ham ℂ) (ds : List Nat) : EuclideanSpace ℂ (Cfg ds) →L[ℂ] EuclideanSpace ℂ (Cfg ds) :=
  (Matrix.toEuclideanLin (hamMat H ds)).toContinuousLinearMap

theorem hamL_vec (H : Ham ℂ) (ds : List Nat) (φ : List Nat → ℂ) :
    hamL H ds (WithLp.toLp 2 (vec ds φ)) = WithLp.toLp 2 (vec ds (actOp ds (chainElt H ds) φ)) := by
  rw [vec_actOp]; rfl

theorem ray_euclid (H : Ham ℂ) (ds : List Nat) (φ : List Nat → ℂ) :
    ray H ds φ = (Inner.inner ℂ (WithLp.toLp 2 (vec ds φ)) (hamL H ds (WithLp.toLp 2 (vec ds φ))) : ℂ).re / ‖WithLp.toLp 2 (vec ds φ)‖ ^ 2 := by
  rw [ray, inner_euclid, wnorm_euclid, hamL_vec]

theorem hamL_symm {H : Ham ℂ} {ds : List Nat} (hh : HamHermitian H ds) (x y : EuclideanSpace ℂ (Cfg ds)) :
    Inner.inner ℂ (hamL H ds x) y = Inner.inner ℂ x (hamL H ds y) :=
  (Matrix.isSymmetric_toEuclideanLin_iff.2 (hamMat_herm hh)) x y

theorem flow_deriv {H : Ham ℂ} {ds : List Nat} {ψ : ℝ → List Nat → ℂ} (hψ : Schroedinger H ds (-Complex.I) ψ) (t : ℝ) :
    HasDerivAt (fun τ => WithLp.toLp 2 (vec ds (ψ τ))) (-(hamL H ds (WithLp.toLp 2 (vec ds (ψ t))))) t := by
  have e : HasDerivAt (fun τ => vec ds (ψ τ)) (-(vec ds (actOp ds (chainElt H ds) (ψ t)))) t := by
    rw [hasDerivAt_pi]
    intro s
    have := hψ t s.1 s.cfg
    refine this.congr_deriv ?_
    simp [vec]
  have := (PiLp.continuousLinearEquiv 2 ℝ (fun _ : Cfg ds => ℂ)).symm.toContinuousLinearMap.hasFDerivAt.comp_hasDerivAt t e
  rw [hamL_vec]
  simpa [Function.comp_def] using this

theorem flow_ne_zero {H : Ham ℂ} {ds : List Nat} {ψ : ℝ → List Nat → ℂ} (hψ : Schroedinger H ds (-Complex.I) ψ)
    (h0 : wnorm ds (ψ 0) ≠ 0) (t : ℝ) : WithLp.toLp 2 (vec ds (ψ t)) ≠ 0 := by
  intro ht
  refine h0 ?_
  have hv : vec ds (ψ t) = 0 := by
    funext s
    exact congrFun (congrArg WithLp.ofLp ht) s
  have := exact_of_schroedinger (φ := ψ t) hψ t (-t) rfl fun _ _ => rfl
  unfold Exact at this
  rw [add_neg_cancel, hv, mulVec_zero] at this
  rw [wnorm_euclid, this]; simp

theorem ray_exact {H : Ham ℂ} {ds : List Nat} (hh : HamHermitian H ds) {ψ : ℝ → List Nat → ℂ} (hψ : Schroedinger H ds (-Complex.I) ψ)
    (h0 : wnorm ds (ψ 0) ≠ 0) : Antitone fun τ => ray H ds (ψ τ) := by
  have := rayleigh_antitone (L := hamL H ds) (x := fun τ => WithLp.toLp 2 (vec ds (ψ τ))) (hamL_symm hh) (flow_deriv hψ) (flow_ne_zero hψ h0)
  simpa only [ray_euclid] using this

theorem ray_near {E : Type} [NormedAddCommGroup E] [InnerProductSpace ℂ E] (L : E →L[ℂ] E) {u v : E} (hu : u ≠ 0) (hv : v ≠ 0) :
    (Inner.inner ℂ u (L u) : ℂ).re / ‖u‖ ^ 2 ≤ (Inner.inner ℂ v (L v) : ℂ).re / ‖v‖ ^ 2 + 2 * ‖L‖ * (‖u‖ + ‖v‖) * ‖u - v‖ / ‖u‖ ^ 2 := by
  have pu := norm_pos_iff.2 hu
  have pv := norm_pos_iff.2 hv
  have e : (Inner.inner ℂ u (L u) : ℂ) - Inner.inner ℂ v (L v) = Inner.inner ℂ (u - v) (L u) + Inner.inner ℂ v (L (u - v)) := by
    rw [map_sub, inner_sub_left, inner_sub_right]; ring
  have h1 : (Inner.inner ℂ u (L u) : ℂ).re - (Inner.inner ℂ v (L v) : ℂ).re ≤ ‖L‖ * (‖u‖ + ‖v‖) * ‖u - v‖ := by
    rw [← Complex.sub_re, e]
    refine (Complex.re_le_norm _).trans ((norm_add_le _ _).trans ?_)
    have t1 := norm_inner_le_norm (𝕜 := ℂ) (u - v) (L u)
    have t2 := norm_inner_le_norm (𝕜 := ℂ) v (L (u - v))
    have t3 := mul_le_mul_of_nonneg_left (L.le_opNorm u) (norm_nonneg (u - v))
    have t4 := mul_le_mul_of_nonneg_left (L.le_opNorm (u - v)) (norm_nonneg v)
    nlinarith
  have h2 : |(Inner.inner ℂ v (L v) : ℂ).re| ≤ ‖L‖ * ‖v‖ ^ 2 := by
    refine (Complex.abs_re_le_norm _).trans ((norm_inner_le_norm _ _).trans ?_)
    have := mul_le_mul_of_nonneg_left (L.le_opNorm v) (norm_nonneg v)
    nlinarith
  have h3 : |‖v‖ ^ 2 - ‖u‖ ^ 2| ≤ (‖u‖ + ‖v‖) * ‖u - v‖ := by
    rw [show ‖v‖ ^ 2 - ‖u‖ ^ 2 = (‖u‖ + ‖v‖) * (‖v‖ - ‖u‖) by ring, abs_mul, abs_of_pos (by positivity)]
    have := abs_norm_sub_norm_le v u
    rw [norm_sub_rev] at this
    gcongr
  have h4 : (Inner.inner ℂ v (L v) : ℂ).re * (‖v‖ ^ 2 - ‖u‖ ^ 2) ≤ ‖L‖ * ‖v‖ ^ 2 * ((‖u‖ + ‖v‖) * ‖u - v‖) := by
    refine (le_abs_self _).trans ?_
    rw [abs_mul]
    gcongr
  rw [← sub_le_iff_le_add', div_sub_div _ _ (by positivity) (by positivity), div_le_div_iff₀ (by positivity) (by positivity)]
  set a := (Inner.inner ℂ u (L u) : ℂ).re
  set b := (Inner.inner ℂ v (L v) : ℂ).re
  have h5 := mul_le_mul_of_nonneg_right h1 (show 0 ≤ ‖v‖ ^ 2 by positivity)
  have h6 : a * ‖v‖ ^ 2 - ‖u‖ ^ 2 * b ≤ 2 * ‖L‖ * (‖u‖ + ‖v‖) * ‖u - v‖ * ‖v‖ ^ 2 := by nlinarith
  have h7 := mul_le_mul_of_nonneg_right h6 (show 0 ≤ ‖u‖ ^ 2 by positivity)
  nlinarith

/-- a step whose distance to `v` is at most `η` times the norm of `φ` -/
theorem ray_step {E : Type} [NormedAddCommGroup E] [InnerProductSpace ℂ E] (L : E →L[ℂ] E) {φ u v : E} {η : ℝ} (hφ : φ ≠ 0)
    (hv : ‖φ‖ / 2 ≤ ‖v‖) (hd : ‖u - v‖ ≤ η * ‖φ‖) (hη : η ≤ 1 / 4) :
    u ≠ 0 ∧ (Inner.inner ℂ u (L u) : ℂ).re / ‖u‖ ^ 2 ≤ (Inner.inner ℂ v (L v) : ℂ).re / ‖v‖ ^ 2 + 24 * ‖L‖ * η := by
  have pφ := norm_pos_iff.2 hφ
  have pv : 0 < ‖v‖ := by linarith
  have h1 : ‖v‖ - ‖u‖ ≤ ‖u - v‖ := by
    have := norm_sub_norm_le v u
    rwa [norm_sub_rev] at this
  have h2 : ‖u - v‖ ≤ ‖φ‖ / 4 := hd.trans (by nlinarith)
  have hu : ‖φ‖ / 4 ≤ ‖u‖ := by linarith
  have hvu : ‖v‖ ≤ 2 * ‖u‖ := by linarith
  have pu : 0 < ‖u‖ := by linarith
  refine ⟨norm_pos_iff.1 pu, (ray_near L (norm_pos_iff.1 pu) (norm_pos_iff.1 pv)).trans ?_⟩
  have h3 : 2 * ‖L‖ * (‖u‖ + ‖v‖) * ‖u - v‖ / ‖u‖ ^ 2 ≤ 24 * ‖L‖ * η := by
    rw [div_le_iff₀ (by positivity)]
    have a1 : (‖u‖ + ‖v‖) * ‖u - v‖ ≤ (3 * ‖u‖) * (η * (4 * ‖u‖)) := by
      have p1 : ‖u‖ + ‖v‖ ≤ 3 * ‖u‖ := by linarith
      have η0 : 0 ≤ η := by
        by_contra hc
        have := mul_neg_of_neg_of_pos (not_le.1 hc) pφ
        linarith [norm_nonneg (u - v)]
      have p2 : ‖u - v‖ ≤ η * (4 * ‖u‖) := hd.trans (by gcongr; linarith)
      gcongr
    have := mul_le_mul_of_nonneg_left a1 (show 0 ≤ 2 * ‖L‖ by positivity)
    nlinarith
  linarith

open scoped Matrix.Norms.Operator Topology in
open Asymptotics in
/-- for short times the exact evolution changes the state little -/
theorem exact_small (H : Ham ℂ) (ds : List Nat) : ∃ C δ : ℝ, 0 ≤ C ∧ 0 < δ ∧ ∀ dt : ℂ, ‖dt‖ < δ → ∀ φ χ, Exact H ds dt φ χ →
    wdist ds χ φ ≤ C * ‖dt‖ * wnorm ds φ := by
  have ho : (fun z => NormedSpace.exp (z • hamMat H ds) - 1) =O[𝓝 0] fun z : ℂ => z ^ 1 := by
    have := ((((IsBigO.trans (T5.exp (hamMat H ds)) (pow_bigO (show 1 ≤ 5 by omega))).add (smul_bigO 1 (hamMat H ds))).add
      ((smul_bigO 2 ((1 / 2 : ℂ) • hamMat H ds ^ 2)).trans (pow_bigO (by omega)))).add
      ((smul_bigO 3 ((1 / 6 : ℂ) • hamMat H ds ^ 3)).trans (pow_bigO (by omega)))).add
      ((smul_bigO 4 ((1 / 24 : ℂ) • hamMat H ds ^ 4)).trans (pow_bigO (by omega)))
    refine this.congr_left fun z => ?_
    simp only [poly, pow_one]
    abel_nf
    exact add_comm _ _
  obtain ⟨C, δ, hC, hδ, h⟩ := wnorm_bound ho
  refine ⟨C, δ, hC, hδ, fun dt hdt φ χ he => ?_⟩
  have := h (-Complex.I * dt) (by rwa [norm_rot]) φ (fun s => χ s - φ s) ?_
  · rwa [norm_rot, pow_one] at this
  · have e : vec ds (fun s => χ s - φ s) = vec ds χ - vec ds φ := rfl
    rw [e, he, Matrix.sub_mulVec, Matrix.one_mulVec]

end MPS.Order
