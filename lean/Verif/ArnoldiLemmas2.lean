import Verif.ArnoldiLemmas

/-!
# Projected evolution agrees with the exact one as far as the Krylov vectors are in the span
-/

set_option linter.unusedSectionVars false
set_option linter.unusedSimpArgs false

namespace MPS.Arnoldi
open MPS Tensor Form Minim Obc
variable {m : Nat} {ds : List Nat}

theorem comb_sub (S : Fin m → List Nat → ℂ) (c d : Fin m → ℂ) (s : List Nat) : comb S (c - d) s = comb S c s - comb S d s := by
  simp only [comb, Pi.sub_apply, sub_mul, Finset.sum_sub_distrib]

/-- where the operator does not leave the span, the matrix is the operator -/
theorem comb_step {H : List (Tensor ℂ)} {S : Fin m → List Nat → ℂ} {X : Matrix (Fin m) (Fin m) ℂ} (hX : gram ds S * X = ham ds H S)
    {w y : Fin m → ℂ} (h : ∀ s, IsCfg ds s → act ds H (comb S w) s = comb S y s) :
    ∀ s, IsCfg ds s → comb S (X.mulVec w) s = act ds H (comb S w) s := by
  have h0 : (gram ds S).mulVec (X.mulVec w - y) = 0 := by
    rw [Matrix.mulVec_sub, Matrix.mulVec_mulVec, hX]
    funext i
    have e1 : (ham ds H S).mulVec w i = MPS.inner ds (S i) (act ds H (comb S w)) := by
      rw [inner_congr (fun _ _ => rfl) (fun s _ => act_comb H S w s), inner_comb_right]
      simp only [Matrix.mulVec, dotProduct, ham, gram, Matrix.of_apply]
      exact Finset.sum_congr rfl fun j _ => mul_comm _ _
    have e2 : (gram ds S).mulVec y i = MPS.inner ds (S i) (comb S y) := by
      rw [inner_comb_right]
      simp only [Matrix.mulVec, dotProduct, ham, gram, Matrix.of_apply]
      exact Finset.sum_congr rfl fun j _ => mul_comm _ _
    rw [Pi.sub_apply, e1, e2, inner_congr (fun _ _ => rfl) h, sub_self]
    rfl
  intro s hs
  have := comb_zero h0 s hs
  rw [comb_sub] at this
  rw [h s hs, sub_eq_zero.1 this]

theorem act_iterate_congr {H : List (Tensor ℂ)} {φ χ : List Nat → ℂ} (h : ∀ s, IsCfg ds s → φ s = χ s) :
    ∀ k s, IsCfg ds s → ((act ds H)^[k] φ) s = ((act ds H)^[k] χ) s
  | 0, s, hs => h s hs
  | k + 1, s, hs => by
    rw [Function.iterate_succ_apply', Function.iterate_succ_apply']
    exact act_congr (fun t ht => act_iterate_congr h k t ht) s

/-- powers of the matrix give the Krylov vectors, as long as those are in the span -/
theorem comb_pow {H : List (Tensor ℂ)} {S : Fin m → List Nat → ℂ} {X : Matrix (Fin m) (Fin m) ℂ} (hX : gram ds S * X = ham ds H S)
    {ψ : List Nat → ℂ} {e : Fin m → ℂ} (he : ∀ s, IsCfg ds s → comb S e s = ψ s) :
    ∀ n, (∀ k ≤ n, ∃ y, ∀ s, IsCfg ds s → ((act ds H)^[k] ψ) s = comb S y s) →
      ∀ s, IsCfg ds s → comb S ((X ^ n).mulVec e) s = ((act ds H)^[n] ψ) s
  | 0, _, s, hs => by simpa using he s hs
  | n + 1, h, s, hs => by
    have ih := comb_pow hX he n fun k hk => h k (by omega)
    obtain ⟨y, hy⟩ := h (n + 1) le_rfl
    have h1 : ∀ s, IsCfg ds s → act ds H (comb S ((X ^ n).mulVec e)) s = comb S y s := by
      intro s hs
      rw [← hy s hs, Function.iterate_succ_apply']
      exact act_congr ih s
    rw [pow_succ', ← Matrix.mulVec_mulVec, comb_step hX h1 s hs, Function.iterate_succ_apply']
    exact act_congr ih s

/-- the exponential is exact when the span is large enough -/
theorem comb_evolved {H : List (Tensor ℂ)} {S : Fin m → List Nat → ℂ} {X : Matrix (Fin m) (Fin m) ℂ} (hX : gram ds S * X = ham ds H S)
    {ψ : List Nat → ℂ} {e : Fin m → ℂ} (he : ∀ s, IsCfg ds s → comb S e s = ψ s)
    (h : ∀ k, ∃ y, ∀ s, IsCfg ds s → ((act ds H)^[k] ψ) s = comb S y s) (z : ℂ) :
    Evolved ds H z ψ (comb S ((NormedSpace.exp (z • X)).mulVec e)) := by
  intro s hs
  have := comb_hasSum S X z e s
  simpa only [comb_pow hX he _ (fun k _ => h k) s hs] using this

/-! ### the exact evolution exists -/

theorem iterate_bound (H : List (Tensor ℂ)) (ψ : List Nat → ℂ) {M B : ℝ} (hM0 : 0 ≤ M)
    (hM : ∀ s, IsCfg ds s → sumCfg ds (fun t => ‖opElt H s t‖) ≤ M) (hB : ∀ s, IsCfg ds s → ‖ψ s‖ ≤ B) :
    ∀ k s, IsCfg ds s → ‖((act ds H)^[k] ψ) s‖ ≤ M ^ k * B
  | 0, s, hs => by simpa using hB s hs
  | k + 1, s, hs => by
    have ih := iterate_bound H ψ hM0 hM hB k
    rw [Function.iterate_succ_apply']
    have hle : ∀ (es : List Nat) (F : List Nat → ℂ) (G : List Nat → ℝ), (∀ t, IsCfg es t → ‖F t‖ ≤ G t) → ‖sumCfg es F‖ ≤ sumCfg es G := by
      intro es
      induction es with
      | nil => intro F G h; exact h [] List.Forall₂.nil
      | cons d es ih =>
        intro F G h
        rw [sumCfg_cons, sumCfg_cons]
        refine (norm_sum_le _ _).trans (Finset.sum_le_sum fun i hi => ih _ _ fun t ht => h _ (List.Forall₂.cons (Finset.mem_range.1 hi) ht))
    have h0 : 0 ≤ M ^ k * B := le_trans (norm_nonneg _) (ih s hs)
    calc ‖act ds H ((act ds H)^[k] ψ) s‖ ≤ sumCfg ds fun t => ‖opElt H s t‖ * (M ^ k * B) :=
          hle ds _ _ fun t ht => by
            rw [norm_mul]
            exact mul_le_mul_of_nonneg_left (ih t ht) (norm_nonneg _)
      _ = sumCfg ds (fun t => ‖opElt H s t‖) * (M ^ k * B) := by rw [sumCfg_mul_right]
      _ ≤ M * (M ^ k * B) := mul_le_mul_of_nonneg_right (hM s hs) h0
      _ = M ^ (k + 1) * B := by ring

/-- a function on the configurations is bounded -/
theorem cfg_bound : ∀ (ds : List Nat) (f : List Nat → ℝ), ∃ B, 0 ≤ B ∧ ∀ s, IsCfg ds s → f s ≤ B
  | [], f => ⟨|f []|, abs_nonneg _, fun s hs => by cases hs; exact le_abs_self _⟩
  | d :: ds, f => by
    choose B hB0 hB using fun i => cfg_bound ds fun s => f (i :: s)
    refine ⟨∑ i ∈ Finset.range d, B i, Finset.sum_nonneg fun i _ => hB0 i, fun s hs => ?_⟩
    cases hs with
    | @cons i _ s _ hi hs =>
    exact (hB i s hs).trans (Finset.single_le_sum (f := B) (fun i _ => hB0 i) (Finset.mem_range.2 hi))

theorem exists_evolved (ds : List Nat) (H : List (Tensor ℂ)) (z : ℂ) (ψ : List Nat → ℂ) : ∃ φ, Evolved ds H z ψ φ := by
  obtain ⟨M, hM0, hM⟩ := cfg_bound ds fun s => sumCfg ds fun t => ‖opElt H s t‖
  obtain ⟨B, hB0, hB⟩ := cfg_bound ds fun s => ‖ψ s‖
  refine ⟨fun s => ∑' k : Nat, z ^ k / (k.factorial : ℂ) * ((act ds H)^[k] ψ) s, fun s hs => Summable.hasSum ?_⟩
  refine Summable.of_norm_bounded (g := fun k : Nat => (‖z‖ * M) ^ k / (k.factorial : ℝ) * B) ((Real.summable_pow_div_factorial _).mul_right B) fun k => ?_
  rw [norm_mul, norm_div, norm_pow, Complex.norm_natCast, mul_pow]
  have := iterate_bound H ψ hM0 hM hB k s hs
  calc ‖z‖ ^ k / (k.factorial : ℝ) * ‖((act ds H)^[k] ψ) s‖ ≤ ‖z‖ ^ k / (k.factorial : ℝ) * (M ^ k * B) :=
        mul_le_mul_of_nonneg_left this (by positivity)
    _ = ‖z‖ ^ k * M ^ k / (k.factorial : ℝ) * B := by ring

theorem Evolved.unique {H : List (Tensor ℂ)} {z : ℂ} {ψ φ φ' : List Nat → ℂ} (h : Evolved ds H z ψ φ) (h' : Evolved ds H z ψ φ') :
    ∀ s, IsCfg ds s → φ s = φ' s := fun s hs => (h s hs).unique (h' s hs)

theorem Evolved.congr {H : List (Tensor ℂ)} {z : ℂ} {ψ φ φ' : List Nat → ℂ} (h : Evolved ds H z ψ φ) (h' : ∀ s, IsCfg ds s → φ' s = φ s) :
    Evolved ds H z ψ φ' := fun s hs => by rw [h' s hs]; exact h s hs

/-- the error of the projected evolution, when the first `n` Krylov vectors are in the span -/
theorem comb_order {H : List (Tensor ℂ)} {S : Fin m → List Nat → ℂ} {X : Matrix (Fin m) (Fin m) ℂ} (hX : gram ds S * X = ham ds H S)
    {ψ : List Nat → ℂ} {e : Fin m → ℂ} (he : ∀ s, IsCfg ds s → comb S e s = ψ s) (n : Nat)
    (h : ∀ k < n, ∃ y, ∀ s, IsCfg ds s → ((act ds H)^[k] ψ) s = comb S y s) :
    ∃ C : ℝ, 0 ≤ C ∧ ∀ (z : ℂ) (φ : List Nat → ℂ), ‖z‖ ≤ 1 → Evolved ds H z ψ φ → ∀ s, IsCfg ds s →
      ‖comb S ((NormedSpace.exp (z • X)).mulVec e) s - φ s‖ ≤ C * ‖z‖ ^ n := by
  obtain ⟨φ1, h1⟩ := exists_evolved ds H 1 ψ
  set D : List Nat → Nat → ℂ := fun s k => comb S ((X ^ k).mulVec e) s - ((act ds H)^[k] ψ) s with hD
  have hD0 : ∀ s, IsCfg ds s → ∀ k < n, D s k = 0 := fun s hs k hk => by
    rw [hD]
    simp only
    rw [comb_pow hX he k (fun j hj => h j (by omega)) s hs, sub_self]
  have hsum : ∀ s, IsCfg ds s → Summable fun k : Nat => ‖D s k‖ / (k.factorial : ℝ) := by
    intro s hs
    have h2 := ((comb_hasSum S X 1 e s).sub (h1 s hs)).summable.norm
    refine h2.congr fun k => ?_
    rw [← mul_sub, norm_mul, norm_div, norm_pow, Complex.norm_natCast, norm_one, one_pow]
    ring
  obtain ⟨C, hC0, hC⟩ := cfg_bound ds fun s => ∑' k : Nat, ‖D s k‖ / (k.factorial : ℝ)
  refine ⟨C, hC0, fun z φ hz hφ s hs => ?_⟩
  have h2 := (comb_hasSum S X z e s).sub (hφ s hs)
  have hb : ∀ k : Nat, ‖z ^ k / (k.factorial : ℂ) * comb S ((X ^ k).mulVec e) s - z ^ k / (k.factorial : ℂ) * ((act ds H)^[k] ψ) s‖
      ≤ ‖D s k‖ / (k.factorial : ℝ) * ‖z‖ ^ n := by
    intro k
    rw [← mul_sub, norm_mul, norm_div, norm_pow, Complex.norm_natCast]
    by_cases hk : k < n
    · have : comb S ((X ^ k).mulVec e) s - ((act ds H)^[k] ψ) s = 0 := hD0 s hs k hk
      rw [this, norm_zero, mul_zero]
      positivity
    · have hp : ‖z‖ ^ k ≤ ‖z‖ ^ n := pow_le_pow_of_le_one (norm_nonneg _) hz (by omega)
      calc ‖z‖ ^ k / (k.factorial : ℝ) * ‖D s k‖ ≤ ‖z‖ ^ n / (k.factorial : ℝ) * ‖D s k‖ := by gcongr
        _ = _ := by ring
  have h3 := tsum_of_norm_bounded ((hsum s hs).hasSum.mul_right (‖z‖ ^ n)) hb
  rw [h2.tsum_eq] at h3
  exact h3.trans (mul_le_mul_of_nonneg_right (hC s hs) (by positivity))

end MPS.Arnoldi
