import Mathlib.Analysis.Normed.Algebra.Exponential
import Mathlib.Analysis.SpecialFunctions.Exponential
import Mathlib.Analysis.Asymptotics.Lemmas
import Mathlib.Analysis.Complex.Basic
import Mathlib.Tactic.Module
import Mathlib.Tactic.NoncommRing
import Mathlib.Analysis.Calculus.MeanValue

/-!
# Taylor expansions of products of exponentials

Nothing here is part of the model: expansions up to the fourth order of functions of a complex variable with values in
a (noncommutative) Banach algebra, and the error of the Lie, Strang and Forest–Ruth splittings.
-/

namespace MPS.Order
open Asymptotics Filter Topology

variable {𝔸 : Type*} [NormedRing 𝔸] [NormedAlgebra ℂ 𝔸]

theorem pow_bigO {m n : Nat} (h : m ≤ n) : (fun z : ℂ => z ^ n) =O[𝓝 0] fun z => z ^ m := by
  rcases h.eq_or_lt with rfl | h
  · exact isBigO_refl _ _
  · exact (isLittleO_pow_pow h).isBigO

theorem smul_bigO (n : Nat) (c : 𝔸) : (fun z : ℂ => z ^ n • c) =O[𝓝 0] fun z => z ^ n := by
  simpa using (isBigO_refl (fun z : ℂ => z ^ n) (𝓝 0)).smul (isBigO_const_const c (one_ne_zero (α := ℂ)) (𝓝 0))

/-- the polynomial `c₀ + z c₁ + z² c₂ + z³ c₃ + z⁴ c₄` -/
def poly (c0 c1 c2 c3 c4 : 𝔸) (z : ℂ) : 𝔸 := c0 + z • c1 + z ^ 2 • c2 + z ^ 3 • c3 + z ^ 4 • c4

/-- `f z = c₀ + z c₁ + z² c₂ + z³ c₃ + z⁴ c₄ + O(z⁵)` -/
def T5 (f : ℂ → 𝔸) (c0 c1 c2 c3 c4 : 𝔸) : Prop :=
  (fun z => f z - poly c0 c1 c2 c3 c4 z) =O[𝓝 0] fun z => z ^ 5

theorem bounded_smul (n : Nat) (c : 𝔸) : (fun z : ℂ => z ^ n • c) =O[𝓝 0] fun _ => (1 : ℂ) := by
  have := (smul_bigO n c).trans (pow_bigO (Nat.zero_le n))
  simpa using this

theorem poly_bounded (c0 c1 c2 c3 c4 : 𝔸) : (poly c0 c1 c2 c3 c4) =O[𝓝 0] fun _ => (1 : ℂ) := by
  have h1 := bounded_smul 1 c1
  simp only [pow_one] at h1
  exact (((((isBigO_const_const c0 (one_ne_zero (α := ℂ)) (𝓝 0)).add h1).add (bounded_smul 2 c2)).add (bounded_smul 3 c3)).add
    (bounded_smul 4 c4))

theorem T5.bounded {f : ℂ → 𝔸} {c0 c1 c2 c3 c4 : 𝔸} (h : T5 f c0 c1 c2 c3 c4) : f =O[𝓝 0] fun _ => (1 : ℂ) := by
  have h1 : (fun z : ℂ => z ^ 5) =O[𝓝 0] fun _ => (1 : ℂ) := by simpa using pow_bigO (Nat.zero_le 5)
  have := (h.trans h1).add (poly_bounded c0 c1 c2 c3 c4)
  simpa using this

theorem T5.congr {f g : ℂ → 𝔸} {c0 c1 c2 c3 c4 : 𝔸} (h : T5 f c0 c1 c2 c3 c4) (e : ∀ z, f z = g z) : T5 g c0 c1 c2 c3 c4 := by
  rwa [funext e] at h

theorem T5.coeff {f : ℂ → 𝔸} {c0 c1 c2 c3 c4 d0 d1 d2 d3 d4 : 𝔸} (h : T5 f c0 c1 c2 c3 c4) (h0 : c0 = d0) (h1 : c1 = d1)
    (h2 : c2 = d2) (h3 : c3 = d3) (h4 : c4 = d4) : T5 f d0 d1 d2 d3 d4 := by
  subst h0 h1 h2 h3 h4; exact h

theorem T5.mul {f g : ℂ → 𝔸} {c0 c1 c2 c3 c4 d0 d1 d2 d3 d4 : 𝔸} (hf : T5 f c0 c1 c2 c3 c4) (hg : T5 g d0 d1 d2 d3 d4) :
    T5 (fun z => f z * g z) (c0 * d0) (c0 * d1 + c1 * d0) (c0 * d2 + c1 * d1 + c2 * d0)
      (c0 * d3 + c1 * d2 + c2 * d1 + c3 * d0) (c0 * d4 + c1 * d3 + c2 * d2 + c3 * d1 + c4 * d0) := by
  have h1 := IsBigO.mul hf hg.bounded
  have h2 := IsBigO.mul (poly_bounded c0 c1 c2 c3 c4) hg
  have h3 : (fun z : ℂ => z ^ 5 • (c1 * d4 + c2 * d3 + c3 * d2 + c4 * d1) + z ^ 6 • (c2 * d4 + c3 * d3 + c4 * d2)
      + z ^ 7 • (c3 * d4 + c4 * d3) + z ^ 8 • (c4 * d4)) =O[𝓝 0] fun z => z ^ 5 :=
    (((smul_bigO 5 _).add ((smul_bigO 6 _).trans (pow_bigO (by omega)))).add ((smul_bigO 7 _).trans (pow_bigO (by omega)))).add
      ((smul_bigO 8 _).trans (pow_bigO (by omega)))
  simp only [mul_one, one_mul] at h1 h2
  have h := (h1.add h2).add h3
  unfold T5
  refine h.congr_left fun z => ?_
  simp only [poly, sub_mul, mul_sub, add_mul, mul_add, smul_mul_assoc, mul_smul_comm, smul_smul]
  module

theorem T5.smul {f : ℂ → 𝔸} {c0 c1 c2 c3 c4 : 𝔸} (hf : T5 f c0 c1 c2 c3 c4) (a : ℂ) :
    T5 (fun z => f (a * z)) c0 (a • c1) (a ^ 2 • c2) (a ^ 3 • c3) (a ^ 4 • c4) := by
  have ht : Tendsto (fun z : ℂ => a * z) (𝓝 0) (𝓝 0) := by
    have : Continuous fun z : ℂ => a * z := continuous_const.mul continuous_id
    simpa using this.tendsto 0
  have h := IsBigO.comp_tendsto hf ht
  have h2 : (fun z : ℂ => (a * z) ^ 5) =O[𝓝 0] fun z => z ^ 5 := by
    simp only [mul_pow]
    exact isBigO_const_mul_self _ _ _
  refine (h.trans h2).congr_left fun z => ?_
  simp only [Function.comp_apply, poly, mul_pow]
  module

theorem T5.exp [CompleteSpace 𝔸] (X : 𝔸) : T5 (fun z : ℂ => NormedSpace.exp (z • X)) 1 X ((1 / 2 : ℂ) • X ^ 2)
    ((1 / 6 : ℂ) • X ^ 3) ((1 / 24 : ℂ) • X ^ 4) := by
  have h0 : HasFPowerSeriesAt (NormedSpace.exp : 𝔸 → 𝔸) (NormedSpace.expSeries ℂ 𝔸) 0 := NormedSpace.exp_hasFPowerSeriesAt_zero
  have h := h0.isBigO_sub_partialSum_pow 5
  have ht : Tendsto (fun z : ℂ => z • X) (𝓝 0) (𝓝 0) := by
    have : Continuous fun z : ℂ => z • X := continuous_id.smul continuous_const
    simpa using this.tendsto 0
  have h1 := h.comp_tendsto ht
  have h2 : (fun z : ℂ => ‖z • X‖ ^ 5) =O[𝓝 0] fun z => z ^ 5 := by
    have : (fun z : ℂ => z • X) =O[𝓝 0] fun z => z := by
      simpa using smul_bigO 1 X
    exact this.norm_left.pow 5
  refine (h1.trans h2).congr_left fun z => ?_
  simp only [Function.comp_apply, zero_add, FormalMultilinearSeries.partialSum, Finset.sum_range_succ, Finset.sum_range_zero,
    NormedSpace.expSeries_apply_eq, poly, smul_pow, pow_zero, pow_one, Nat.factorial]
  norm_num
  module

theorem T5.sub {f g : ℂ → 𝔸} {c0 c1 c2 c3 c4 d0 d1 d2 d3 d4 : 𝔸} (hf : T5 f c0 c1 c2 c3 c4) (hg : T5 g d0 d1 d2 d3 d4) :
    T5 (fun z => f z - g z) (c0 - d0) (c1 - d1) (c2 - d2) (c3 - d3) (c4 - d4) := by
  refine (IsBigO.sub hf hg).congr_left fun z => ?_
  simp only [poly]
  module

theorem T5.const_smul {f : ℂ → 𝔸} {c0 c1 c2 c3 c4 : 𝔸} (hf : T5 f c0 c1 c2 c3 c4) (a : ℂ) :
    T5 (fun z => a • f z) (a • c0) (a • c1) (a • c2) (a • c3) (a • c4) := by
  refine (IsBigO.const_smul_left hf a).congr_left fun z => ?_
  simp only [poly, Pi.smul_apply]
  module

theorem T5.zero2 {f : ℂ → 𝔸} {c2 c3 c4 : 𝔸} (hf : T5 f 0 0 c2 c3 c4) : f =O[𝓝 0] fun z => z ^ 2 := by
  have := (((IsBigO.trans hf (pow_bigO (show 2 ≤ 5 by omega))).add (smul_bigO 2 c2)).add
    ((smul_bigO 3 c3).trans (pow_bigO (by omega)))).add ((smul_bigO 4 c4).trans (pow_bigO (by omega)))
  refine this.congr_left fun z => ?_
  simp only [poly]
  module

theorem T5.zero3 {f : ℂ → 𝔸} {c3 c4 : 𝔸} (hf : T5 f 0 0 0 c3 c4) : f =O[𝓝 0] fun z => z ^ 3 := by
  have := ((IsBigO.trans hf (pow_bigO (show 3 ≤ 5 by omega))).add
    (smul_bigO 3 c3)).add ((smul_bigO 4 c4).trans (pow_bigO (by omega)))
  refine this.congr_left fun z => ?_
  simp only [poly]
  module

theorem T5.zero5 {f : ℂ → 𝔸} (hf : T5 f 0 0 0 0 0) : f =O[𝓝 0] fun z => z ^ 5 := by
  refine IsBigO.congr_left hf fun z => ?_
  simp only [poly]
  module

variable [CompleteSpace 𝔸]

/-- Lie splitting -/
theorem lie (A B : 𝔸) : (fun z : ℂ => NormedSpace.exp (z • B) * NormedSpace.exp (z • A) - NormedSpace.exp (z • (A + B)))
    =O[𝓝 0] fun z => z ^ 2 := by
  refine (((T5.exp B).mul (T5.exp A)).sub (T5.exp (A + B)) |>.coeff ?_ ?_ rfl rfl rfl).zero2
  · simp
  · simp

/-- Strang splitting -/
noncomputable def strang (A B : 𝔸) (z : ℂ) : 𝔸 :=
  NormedSpace.exp (((1 / 2 : ℂ) * z) • A) * NormedSpace.exp (z • B) * NormedSpace.exp (((1 / 2 : ℂ) * z) • A)

/-- the expansion of the Strang splitting: the terms of the fourth order follow from those of the third one, because the
splitting is symmetric -/
theorem strang_T5 (A B : 𝔸) : ∃ Z : 𝔸, T5 (strang A B) 1 (A + B) ((1 / 2 : ℂ) • (A + B) ^ 2) ((1 / 6 : ℂ) • (A + B) ^ 3 + Z)
    ((1 / 24 : ℂ) • (A + B) ^ 4 + (1 / 2 : ℂ) • ((A + B) * Z + Z * (A + B))) := by
  have hA : T5 (fun z : ℂ => NormedSpace.exp (((1 / 2 : ℂ) * z) • A)) _ _ _ _ _ := (T5.exp A).smul (1 / 2 : ℂ)
  have h := (hA.mul (T5.exp B)).mul hA
  refine ⟨_, h.coeff ?_ ?_ ?_ (add_sub_cancel ((1 / 6 : ℂ) • (A + B) ^ 3) _).symm ?_⟩
  · simp
  · simp only [one_mul, mul_one]; module
  · simp only [one_mul, mul_one, pow_two, add_mul, mul_add, smul_mul_assoc, mul_smul_comm, smul_smul]; module
  · simp only [one_mul, mul_one, pow_succ, pow_zero, add_mul, mul_add, sub_mul, mul_sub, smul_add, smul_sub, smul_mul_assoc, mul_smul_comm, smul_smul, mul_assoc]
    module

theorem strang_order (A B : 𝔸) : (fun z => strang A B z - NormedSpace.exp (z • (A + B))) =O[𝓝 0] fun z => z ^ 3 := by
  obtain ⟨Z, h⟩ := strang_T5 A B
  refine ((h.sub (T5.exp (A + B))).coeff ?_ ?_ ?_ rfl rfl).zero3 <;> simp

/-- Forest–Ruth: up to the fifth order, the error of the threefold Strang splitting with durations `θ`, `1-2θ`, `θ` is
`2θ³+(1-2θ)³` times the error of one Strang splitting. -/
theorem forest_ruth (A B : 𝔸) (θ : ℂ) :
    (fun z => (strang A B (θ * z) * strang A B ((1 - 2 * θ) * z) * strang A B (θ * z) - NormedSpace.exp (z • (A + B)))
      - (2 * θ ^ 3 + (1 - 2 * θ) ^ 3) • (strang A B z - NormedSpace.exp (z • (A + B)))) =O[𝓝 0] fun z => z ^ 5 := by
  obtain ⟨Z, h⟩ := strang_T5 A B
  have h1 := h.smul θ
  have h2 := h.smul (1 - 2 * θ)
  have h3 := (((h1.mul h2).mul h1).sub (T5.exp (A + B))).sub ((h.sub (T5.exp (A + B))).const_smul (2 * θ ^ 3 + (1 - 2 * θ) ^ 3))
  generalize A + B = X at *
  refine (h3.coeff ?_ ?_ ?_ ?_ ?_).zero5
  · simp
  · simp only [one_mul, mul_one]; module
  · simp only [one_mul, mul_one, pow_two, add_mul, mul_add, smul_mul_assoc, mul_smul_comm, smul_smul]; module
  · simp only [one_mul, mul_one, pow_succ, pow_zero, add_mul, mul_add, sub_mul, mul_sub, smul_add, smul_sub, smul_mul_assoc, mul_smul_comm, smul_smul, mul_assoc]
    module
  · simp only [one_mul, mul_one, pow_succ, pow_zero, add_mul, mul_add, sub_mul, mul_sub, smul_add, smul_sub, smul_mul_assoc, mul_smul_comm, smul_smul, mul_assoc]
    module

/-! ### the differential equation of the exponential -/

theorem exp_inv (X : 𝔸) (z : ℂ) : NormedSpace.exp (z • X) * NormedSpace.exp (z • (-X)) = 1 := by
  letI : NormedAlgebra ℚ 𝔸 := NormedAlgebra.restrictScalars ℚ ℂ 𝔸
  rw [smul_neg, ← NormedSpace.exp_add_of_commute ((Commute.refl (z • X)).neg_right), add_neg_cancel, NormedSpace.exp_zero]

theorem exp_add_smul (X : 𝔸) (y z : ℂ) : NormedSpace.exp (y • X) * NormedSpace.exp (z • X) = NormedSpace.exp ((y + z) • X) := by
  letI : NormedAlgebra ℚ 𝔸 := NormedAlgebra.restrictScalars ℚ ℂ 𝔸
  rw [add_smul, NormedSpace.exp_add_of_commute (((Commute.refl X).smul_left y).smul_right z)]

/-- the seven exponentials of the Forest–Ruth method are three Strang splittings -/
theorem fr_prod (A B : 𝔸) (θ z : ℂ) :
    NormedSpace.exp ((θ / 2 * z) • A) * (NormedSpace.exp ((θ * z) • B) * (NormedSpace.exp (((1 - θ) / 2 * z) • A) *
      (NormedSpace.exp (((1 - 2 * θ) * z) • B) * (NormedSpace.exp (((1 - θ) / 2 * z) • A) * (NormedSpace.exp ((θ * z) • B) *
      NormedSpace.exp ((θ / 2 * z) • A)))))) =
    strang A B (θ * z) * strang A B ((1 - 2 * θ) * z) * strang A B (θ * z) := by
  have e1 : θ / 2 * z = 1 / 2 * (θ * z) := by ring
  have e2 : NormedSpace.exp (((1 - θ) / 2 * z) • A) = NormedSpace.exp ((1 / 2 * (θ * z)) • A) *
      NormedSpace.exp ((1 / 2 * ((1 - 2 * θ) * z)) • A) := by
    rw [exp_add_smul]; congr 2; ring
  have e3 : NormedSpace.exp (((1 - θ) / 2 * z) • A) = NormedSpace.exp ((1 / 2 * ((1 - 2 * θ) * z)) • A) *
      NormedSpace.exp ((1 / 2 * (θ * z)) • A) := by
    rw [exp_add_smul]; congr 2; ring
  unfold strang
  rw [e1]
  have g : ∀ p q b c M : 𝔸, M = p * q → M = q * p → p * (b * (M * (c * (M * (b * p))))) = p * b * p * (q * c * q) * (p * b * p) := by
    intro p q b c M h1 h2
    have : p * b * p * (q * c * q) * (p * b * p) = p * (b * ((p * q) * (c * ((q * p) * (b * p))))) := by simp only [mul_assoc]
    rw [this, ← h1, ← h2]
  exact g _ _ _ _ _ e2 e3

/-- the only solution of `F' = X F` with `F(0) = 1` -/
theorem ode_exp {F : ℂ → 𝔸} {X : 𝔸} (h : ∀ z, HasDerivAt F (X * F z) z) (h0 : F 0 = 1) (z : ℂ) :
    F z = NormedSpace.exp (z • X) := by
  have hd : ∀ z, HasDerivAt (fun z : ℂ => NormedSpace.exp (z • (-X)) * F z) 0 z := by
    intro z
    refine ((hasDerivAt_exp_smul_const (𝕂 := ℂ) (-X) z).fun_mul (h z)).congr_deriv ?_
    noncomm_ring
  have hc := is_const_of_deriv_eq_zero (fun z => (hd z).differentiableAt) (fun z => (hd z).deriv) z 0
  simp only [zero_smul, NormedSpace.exp_zero, h0, mul_one] at hc
  calc F z = NormedSpace.exp (z • X) * (NormedSpace.exp (z • (-X)) * F z) := by rw [← mul_assoc, exp_inv, one_mul]
    _ = _ := by rw [hc, mul_one]

/-- the solutions of `F' = X F`, of a real variable -/
theorem ode_exp_real {𝔹 : Type*} [NormedRing 𝔹] [NormedAlgebra ℝ 𝔹] [CompleteSpace 𝔹] {F : ℝ → 𝔹} {X : 𝔹} (h : ∀ τ, HasDerivAt F (X * F τ) τ) (τ : ℝ) :
    F τ = NormedSpace.exp (τ • X) * F 0 := by
  have hd : ∀ z, HasDerivAt (fun z : ℝ => NormedSpace.exp (z • (-X)) * F z) 0 z := by
    intro z
    refine ((hasDerivAt_exp_smul_const (𝕂 := ℝ) (-X) z).fun_mul (h z)).congr_deriv ?_
    noncomm_ring
  have hc := is_const_of_deriv_eq_zero (fun z => (hd z).differentiableAt) (fun z => (hd z).deriv) τ 0
  simp only [zero_smul, NormedSpace.exp_zero, one_mul] at hc
  have hi : NormedSpace.exp (τ • X) * NormedSpace.exp (τ • (-X)) = 1 := by
    letI : NormedAlgebra ℚ 𝔹 := NormedAlgebra.restrictScalars ℚ ℝ 𝔹
    rw [smul_neg, ← NormedSpace.exp_add_of_commute ((Commute.refl (τ • X)).neg_right), add_neg_cancel, NormedSpace.exp_zero]
  calc F τ = NormedSpace.exp (τ • X) * (NormedSpace.exp (τ • (-X)) * F τ) := by rw [← mul_assoc, hi, one_mul]
    _ = _ := by rw [hc]

end MPS.Order
