import Verif.ImagTime
import Mathlib.Analysis.SpecialFunctions.Log.Basic
import Mathlib.Analysis.SpecialFunctions.ExpDeriv

/-!
# The flow `x' = -L x` finds eigenvalues
-/

set_option linter.unusedSectionVars false
set_option linter.unusedSimpArgs false

namespace MPS.Order
variable {E : Type} [NormedAddCommGroup E] [InnerProductSpace ℂ E] {L : E →L[ℂ] E}

/-- Rayleigh quotient -/
noncomputable def rq (L : E →L[ℂ] E) (x : E) : ℝ := (Inner.inner ℂ x (L x) : ℂ).re / ‖x‖ ^ 2

theorem norm_deriv (hL : ∀ x y, Inner.inner ℂ (L x) y = Inner.inner ℂ x (L y)) {x : ℝ → E} (hx : ∀ t, HasDerivAt x (-(L (x t))) t) (t : ℝ) :
    HasDerivAt (fun t => ‖x t‖ ^ 2) (-2 * (Inner.inner ℂ (x t) (L (x t)) : ℂ).re) t := by
  have := ((hx t).inner ℂ (hx t))
  have h2 := (Complex.reCLM.hasFDerivAt.comp_hasDerivAt t this)
  have e : (fun t => ‖x t‖ ^ 2) = Complex.reCLM ∘ fun t => (Inner.inner ℂ (x t) (x t) : ℂ) := by
    funext t
    simp only [Function.comp, Complex.reCLM_apply, inner_self_eq_norm_sq_to_K]
    simp [← Complex.ofReal_pow]
  rw [e]
  refine h2.congr_deriv ?_
  simp only [inner_neg_left, inner_neg_right, Complex.reCLM_apply, hL (x t) (x t)]
  simp
  ring

theorem flow_norm (hL : ∀ x y, Inner.inner ℂ (L x) y = Inner.inner ℂ x (L y)) {x : ℝ → E} (hx : ∀ t, HasDerivAt x (-(L (x t))) t)
    (h0 : ∀ t, x t ≠ 0) {t : ℝ} (ht : 0 ≤ t) : ‖x t‖ ^ 2 * Real.exp (2 * t * rq L (x t)) ≤ ‖x 0‖ ^ 2 := by
  have anti := rayleigh_antitone hL hx h0
  have hd : ∀ s, HasDerivAt (fun s => ‖x s‖ ^ 2 * Real.exp (s * (2 * rq L (x t))))
      (-2 * (Inner.inner ℂ (x s) (L (x s)) : ℂ).re * Real.exp (s * (2 * rq L (x t))) +
        ‖x s‖ ^ 2 * (Real.exp (s * (2 * rq L (x t))) * (1 * (2 * rq L (x t))))) s :=
    fun s => (norm_deriv hL hx s).mul (((hasDerivAt_id s).mul_const _).exp)
  have key : AntitoneOn (fun s => ‖x s‖ ^ 2 * Real.exp (s * (2 * rq L (x t)))) (Set.Icc 0 t) := by
    refine antitoneOn_of_deriv_nonpos (convex_Icc 0 t) (fun s _ => (hd s).continuousAt.continuousWithinAt)
      (fun s _ => (hd s).differentiableAt.differentiableWithinAt) fun s hs => ?_
    rw [interior_Icc] at hs
    rw [(hd s).deriv]
    have h1 : rq L (x t) ≤ rq L (x s) := anti hs.2.le
    have ps := norm_pos_iff.2 (h0 s)
    have h2 : (Inner.inner ℂ (x s) (L (x s)) : ℂ).re = rq L (x s) * ‖x s‖ ^ 2 := by
      rw [rq]; field_simp
    rw [h2]
    have h3 : 0 ≤ Real.exp (s * (2 * rq L (x t))) * ‖x s‖ ^ 2 := by positivity
    nlinarith [mul_le_mul_of_nonneg_left h1 h3]
  have := key (Set.left_mem_Icc.2 ht) (Set.right_mem_Icc.2 ht) ht
  beta_reduce at this
  rw [zero_mul, Real.exp_zero, mul_one] at this
  rwa [show 2 * t * rq L (x t) = t * (2 * rq L (x t)) by ring]

theorem flow_overlap (hL : ∀ x y, Inner.inner ℂ (L x) y = Inner.inner ℂ x (L y)) {x : ℝ → E} (hx : ∀ t, HasDerivAt x (-(L (x t))) t)
    {g : E} {e : ℝ} (hg : L g = (e : ℂ) • g) (t : ℝ) : ‖(Inner.inner ℂ g (x t) : ℂ)‖ * Real.exp (e * t) = ‖(Inner.inner ℂ g (x 0) : ℂ)‖ := by
  have hd : ∀ s, HasDerivAt (fun s => (Inner.inner ℂ g (x s) : ℂ) * ((Real.exp (s * e) : ℝ) : ℂ)) 0 s := by
    intro s
    have h1 : HasDerivAt (fun s => (Inner.inner ℂ g (x s) : ℂ)) (-(e : ℂ) * Inner.inner ℂ g (x s)) s := by
      have := (hasDerivAt_const s g).inner ℂ (hx s)
      refine this.congr_deriv ?_
      rw [inner_zero_left, add_zero, inner_neg_right, ← hL, hg, inner_smul_left]
      simp
    have h2 : HasDerivAt (fun s => ((Real.exp (s * e) : ℝ) : ℂ)) ((Real.exp (s * e) * (1 * e) : ℝ) : ℂ) s :=
      (((hasDerivAt_id s).mul_const e).exp).ofReal_comp
    refine (h1.mul h2).congr_deriv ?_
    push_cast
    ring
  have := is_const_of_deriv_eq_zero (fun s => (hd s).differentiableAt) (fun s => (hd s).deriv) t 0
  beta_reduce at this
  rw [zero_mul, Real.exp_zero, Complex.ofReal_one, mul_one] at this
  rw [← this, norm_mul, Complex.norm_real, Real.norm_of_nonneg (Real.exp_pos _).le, mul_comm e]

/-- If the initial vector has an overlap `c` with an eigenvector of eigenvalue `e`, then the energy is above `e` by `ln(1/c)/(2t)` at most at
time `t`, and a lower bound for the norm -/
theorem flow_ray (hL : ∀ x y, Inner.inner ℂ (L x) y = Inner.inner ℂ x (L y)) {x : ℝ → E} (hx : ∀ t, HasDerivAt x (-(L (x t))) t)
    (h0 : ∀ t, x t ≠ 0) {g : E} (hg0 : g ≠ 0) {e : ℝ} (hg : L g = (e : ℂ) • g) {c : ℝ} (hc : 0 < c)
    (ho : c * (‖g‖ ^ 2 * ‖x 0‖ ^ 2) ≤ ‖(Inner.inner ℂ g (x 0) : ℂ)‖ ^ 2) {t : ℝ} (ht : 0 < t) :
    c * Real.exp (-(2 * e * t)) * ‖x 0‖ ^ 2 ≤ ‖x t‖ ^ 2 ∧ rq L (x t) ≤ e - Real.log c / (2 * t) := by
  have pg := norm_pos_iff.2 hg0
  have px := norm_pos_iff.2 (h0 0)
  have pt := norm_pos_iff.2 (h0 t)
  have h1 := flow_overlap hL hx hg t
  have h2 := norm_inner_le_norm (𝕜 := ℂ) g (x t)
  have h3 : c * (‖g‖ ^ 2 * ‖x 0‖ ^ 2) ≤ ‖g‖ ^ 2 * (‖x t‖ ^ 2 * Real.exp (2 * e * t)) := by
    refine ho.trans ?_
    rw [← h1, mul_pow, ← Real.exp_nat_mul]
    calc ‖(Inner.inner ℂ g (x t) : ℂ)‖ ^ 2 * Real.exp ((2 : Nat) * (e * t)) ≤ (‖g‖ * ‖x t‖) ^ 2 * Real.exp ((2 : Nat) * (e * t)) := by gcongr
      _ = ‖g‖ ^ 2 * (‖x t‖ ^ 2 * Real.exp (2 * e * t)) := by rw [mul_pow]; push_cast; ring_nf
  have h4 : c * ‖x 0‖ ^ 2 ≤ ‖x t‖ ^ 2 * Real.exp (2 * e * t) := by
    have p : 0 < ‖g‖ ^ 2 := by positivity
    refine le_of_mul_le_mul_left ?_ p
    nlinarith
  constructor
  · rw [Real.exp_neg, mul_assoc, mul_comm _ (‖x 0‖ ^ 2), ← mul_assoc, ← div_eq_mul_inv, div_le_iff₀ (Real.exp_pos _)]
    exact h4
  · have h5 := flow_norm hL hx h0 ht.le
    have h6 : c ≤ Real.exp (2 * t * (e - rq L (x t))) := by
      have a : c * (‖x t‖ ^ 2 * Real.exp (2 * t * rq L (x t))) ≤ ‖x t‖ ^ 2 * Real.exp (2 * e * t) :=
        (mul_le_mul_of_nonneg_left h5 hc.le).trans h4
      have b : Real.exp (2 * e * t) = Real.exp (2 * t * (e - rq L (x t))) * Real.exp (2 * t * rq L (x t)) := by
        rw [← Real.exp_add]; ring_nf
      rw [b] at a
      have p : 0 < ‖x t‖ ^ 2 * Real.exp (2 * t * rq L (x t)) := by positivity
      refine le_of_mul_le_mul_right ?_ p
      nlinarith
    have h7 : Real.log c ≤ 2 * t * (e - rq L (x t)) := (Real.log_le_iff_le_exp hc).2 h6
    rw [le_sub_comm, div_le_iff₀ (by positivity)]
    linarith

end MPS.Order
