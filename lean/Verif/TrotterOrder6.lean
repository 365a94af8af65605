import Verif.TrotterOrder5
import Verif.MPSNorm

/-!
# Many steps
-/

set_option linter.unusedSectionVars false
set_option linter.unusedSimpArgs false

namespace MPS.Order
open MPS Tensor Trotter Props
open scoped Matrix.Norms.Operator Matrix

theorem wnorm_nonneg (ds : List Nat) (φ : List Nat → ℂ) : 0 ≤ wnorm ds φ := Real.sqrt_nonneg _

theorem wnorm_congr {ds : List Nat} {φ χ : List Nat → ℂ} (h : vec ds φ = vec ds χ) : wnorm ds φ = wnorm ds χ := by
  rw [wnorm_euclid, wnorm_euclid, h]

theorem wnorm_add_le (ds : List Nat) (φ χ : List Nat → ℂ) : wnorm ds (fun s => φ s + χ s) ≤ wnorm ds φ + wnorm ds χ := by
  rw [wnorm_euclid, wnorm_euclid, wnorm_euclid]
  exact norm_add_le (WithLp.toLp 2 (vec ds φ)) (WithLp.toLp 2 (vec ds χ))

theorem wnorm_of_inner {ds : List Nat} {φ χ : List Nat → ℂ} (h : MPS.inner ds φ φ = MPS.inner ds χ χ) : wnorm ds φ = wnorm ds χ := by
  rw [inner_self_ofReal, inner_self_ofReal] at h
  unfold wnorm
  congr 1
  exact Complex.ofReal_injective h

theorem inner_vec (ds : List Nat) (φ χ : List Nat → ℂ) : MPS.inner ds φ χ = star (vec ds φ) ⬝ᵥ vec ds χ := by
  rw [MPS.inner, sumCfg_cfg]; rfl

/-- two runs: `a` with the operator `S`, `b` with the operator `E`, which preserve the norm -/
theorem telescope_unitary {ds : List Nat} {S E : (List Nat → ℂ) → (List Nat → ℂ) → Prop} {a b : Nat → List Nat → ℂ} {n : Nat} {c : ℝ}
    (hS : ∀ φ χ, S φ χ → wnorm ds χ = wnorm ds φ)
    (hE : ∀ φ φ' χ χ', E φ χ → E φ' χ' → wdist ds χ χ' = wdist ds φ φ')
    (hEx : ∀ φ, ∃ χ, E φ χ)
    (hd : ∀ φ χ χ', S φ χ → E φ χ' → wdist ds χ χ' ≤ c * wnorm ds φ)
    (ha : ∀ i < n, S (a i) (a (i + 1))) (hb : ∀ i < n, E (b i) (b (i + 1))) (h0 : vec ds (a 0) = vec ds (b 0)) :
    ∀ i ≤ n, wnorm ds (a i) = wnorm ds (a 0) ∧ wdist ds (a i) (b i) ≤ i * c * wnorm ds (a 0) := by
  intro i
  induction i with
  | zero =>
    intro _
    refine ⟨rfl, ?_⟩
    have : wdist ds (a 0) (b 0) = 0 := by
      unfold wdist
      rw [wnorm_euclid, show vec ds (fun s => a 0 s - b 0 s) = vec ds (a 0) - vec ds (b 0) from rfl, h0]
      simp
    rw [this]; simp
  | succ i ih =>
    intro hi
    obtain ⟨h1, h2⟩ := ih (by omega)
    have s1 := ha i (by omega)
    refine ⟨(hS _ _ s1).trans h1, ?_⟩
    obtain ⟨e, he⟩ := hEx (a i)
    have d1 := hd _ _ _ s1 he
    have d2 := hE _ _ _ _ he (hb i (by omega))
    have t : wdist ds (a (i + 1)) (b (i + 1)) ≤ wdist ds (a (i + 1)) e + wdist ds e (b (i + 1)) := by
      unfold wdist
      refine le_trans (le_of_eq ?_) (wnorm_add_le ds _ _)
      refine wnorm_congr ?_
      funext s; simp [vec]
    rw [h1] at d1
    push_cast
    nlinarith

/-- two runs, with operators which grow at most by a factor `g` -/
theorem telescope {n : Type} [Fintype n] [DecidableEq n] {S E : Matrix n n ℂ} {a b : Nat → n → ℂ} {N : Nat} {c g : ℝ} (hc : 0 ≤ c) (hg : 1 ≤ g)
    (hS : ‖S‖ ≤ g) (hE : ‖E‖ ≤ g) (hd : ‖S - E‖ ≤ c)
    (ha : ∀ i < N, a (i + 1) = S *ᵥ a i) (hb : ∀ i < N, b (i + 1) = E *ᵥ b i) (h0 : a 0 = b 0) :
    ∀ i ≤ N, ‖a i‖ ≤ g ^ i * ‖a 0‖ ∧ ‖a i - b i‖ ≤ i * c * g ^ i * ‖a 0‖ := by
  intro i
  induction i with
  | zero => intro _; simp [h0]
  | succ i ih =>
    intro hi
    obtain ⟨h1, h2⟩ := ih (by omega)
    have hg0 : 0 ≤ g := by linarith
    have n0 := norm_nonneg (a 0)
    constructor
    · rw [ha i (by omega)]
      calc ‖S *ᵥ a i‖ ≤ ‖S‖ * ‖a i‖ := Matrix.linfty_opNorm_mulVec _ _
        _ ≤ g * (g ^ i * ‖a 0‖) := mul_le_mul hS h1 (norm_nonneg _) hg0
        _ = _ := by ring
    · have e : a (i + 1) - b (i + 1) = (S - E) *ᵥ a i + E *ᵥ (a i - b i) := by
        rw [ha i (by omega), hb i (by omega), Matrix.sub_mulVec, Matrix.mulVec_sub]
        abel
      rw [e]
      calc ‖(S - E) *ᵥ a i + E *ᵥ (a i - b i)‖ ≤ ‖(S - E) *ᵥ a i‖ + ‖E *ᵥ (a i - b i)‖ := norm_add_le _ _
        _ ≤ ‖S - E‖ * ‖a i‖ + ‖E‖ * ‖a i - b i‖ := add_le_add (Matrix.linfty_opNorm_mulVec _ _) (Matrix.linfty_opNorm_mulVec _ _)
        _ ≤ c * (g ^ i * ‖a 0‖) + g * (i * c * g ^ i * ‖a 0‖) :=
            add_le_add (mul_le_mul hd h1 (norm_nonneg _) hc) (mul_le_mul hE h2 (norm_nonneg _) hg0)
        _ ≤ _ := by
            have hp : 0 ≤ g ^ i := pow_nonneg hg0 i
            have : c * (g ^ i * ‖a 0‖) ≤ c * (g ^ (i + 1) * ‖a 0‖) := by
              have : g ^ i ≤ g ^ (i + 1) := pow_le_pow_right₀ hg (Nat.le_succ i)
              gcongr
            push_cast
            have e2 : g * (i * c * g ^ i * ‖a 0‖) = i * c * g ^ (i + 1) * ‖a 0‖ := by ring
            rw [e2]
            linarith

/-! ### the exact evolution with a Hermitian Hamiltonian preserves the norm -/

theorem embed1_herm {ds : List Nat} {p : Nat} (hp : p < ds.length) {h : Tensor ℂ} (hh : IsHermitian (ds.getD p 0) h) {s t : List Nat}
    (hs : IsCfg ds s) (ht : IsCfg ds t) : star (embed1 ds.length p h s t) = embed1 ds.length p h t s := by
  unfold embed1
  rw [star_mul', hh _ _ (isCfg_getD hs hp) (isCfg_getD ht hp), star_prod]
  congr 1
  refine Finset.prod_congr rfl fun j _ => ?_
  simp only [ne_comm (a := s.getD j 0)]
  split <;> simp

theorem embed2_herm {ds : List Nat} {p : Nat} (hp : p + 1 < ds.length) {h : Tensor ℂ}
    (hh : IsHermitian (ds.getD p 0 * ds.getD (p + 1) 0) h) {s t : List Nat}
    (hs : IsCfg ds s) (ht : IsCfg ds t) : star (embed2 ds.length (ds.getD p 0) p h s t) = embed2 ds.length (ds.getD p 0) p h t s := by
  unfold embed2
  rw [star_mul', hh _ _ (add_mul_lt (isCfg_getD hs (by omega)) (isCfg_getD hs hp)) (add_mul_lt (isCfg_getD ht (by omega)) (isCfg_getD ht hp)),
    star_prod]
  congr 1
  refine Finset.prod_congr rfl fun j _ => ?_
  simp only [ne_comm (a := s.getD j 0)]
  split <;> simp

theorem hamMat_herm {H : Ham ℂ} {ds : List Nat} (hh : HamHermitian H ds) : (hamMat H ds)ᴴ = hamMat H ds := by
  ext s t
  rw [Matrix.conjTranspose_apply]
  simp only [hamMat, opMat, Matrix.of_apply, chainElt, star_add, star_sum]
  congr 1
  · exact Finset.sum_congr rfl fun p hp => embed1_herm (Finset.mem_range.1 hp) (hh.loc p (Finset.mem_range.1 hp)) t.cfg s.cfg
  · refine Finset.sum_congr rfl fun p hp => ?_
    have := Finset.mem_range.1 hp
    exact embed2_herm (by omega) (hh.inter p (by omega)) t.cfg s.cfg

theorem exact_unitary {H : Ham ℂ} {ds : List Nat} (hh : HamHermitian H ds) (dt : ℝ) :
    (NormedSpace.exp ((-Complex.I * (dt : ℂ)) • hamMat H ds))ᴴ * NormedSpace.exp ((-Complex.I * (dt : ℂ)) • hamMat H ds) = 1 := by
  have e : ((-Complex.I * (dt : ℂ)) • hamMat H ds)ᴴ = (-Complex.I * (dt : ℂ)) • (-hamMat H ds) := by
    rw [Matrix.conjTranspose_smul, hamMat_herm hh]
    ext i j
    simp
  rw [← Matrix.exp_conjTranspose, e]
  have := exp_inv (-hamMat H ds) (-Complex.I * (dt : ℂ))
  rw [neg_neg] at this
  exact this

theorem exact_norm {H : Ham ℂ} {ds : List Nat} (hh : HamHermitian H ds) (dt : ℝ) {φ χ : List Nat → ℂ} (h : Exact H ds dt φ χ) :
    wnorm ds χ = wnorm ds φ := by
  refine wnorm_of_inner ?_
  rw [inner_vec, inner_vec, h, Matrix.star_mulVec, ← Matrix.dotProduct_mulVec, Matrix.mulVec_mulVec, exact_unitary hh, Matrix.one_mulVec]

theorem exact_dist {H : Ham ℂ} {ds : List Nat} (hh : HamHermitian H ds) (dt : ℝ) {φ φ' χ χ' : List Nat → ℂ} (h : Exact H ds dt φ χ)
    (h' : Exact H ds dt φ' χ') : wdist ds χ χ' = wdist ds φ φ' := by
  refine exact_norm hh dt ?_
  unfold Exact at *
  have e1 : vec ds (fun s => χ s - χ' s) = vec ds χ - vec ds χ' := rfl
  have e2 : vec ds (fun s => φ s - φ' s) = vec ds φ - vec ds φ' := rfl
  rw [e1, e2, h, h', Matrix.mulVec_sub]

theorem exact_exists (H : Ham ℂ) (ds : List Nat) (dt : ℂ) (φ : List Nat → ℂ) : ∃ χ, Exact H ds dt φ χ := by
  classical
  let v := NormedSpace.exp ((-Complex.I * dt) • hamMat H ds) *ᵥ vec ds φ
  refine ⟨fun s => if h : s ∈ cfgs ds then v ⟨s, h⟩ else 0, ?_⟩
  funext s
  simp [vec, v]

theorem norm_exp_le' {𝔸 : Type*} [NormedRing 𝔸] [NormedAlgebra ℂ 𝔸] [CompleteSpace 𝔸] [NormOneClass 𝔸] (X : 𝔸) :
    ‖NormedSpace.exp X‖ ≤ Real.exp ‖X‖ := by
  rw [NormedSpace.exp_eq_tsum ℂ, Real.exp_eq_exp_ℝ, NormedSpace.exp_eq_tsum_div (𝔸 := ℝ)]
  refine tsum_of_norm_bounded (NormedSpace.expSeries_div_summable (𝔸 := ℝ) ‖X‖).hasSum fun n => ?_
  rw [norm_smul, norm_inv, div_eq_inv_mul]
  refine mul_le_mul (le_of_eq ?_) (norm_pow_le X n) (norm_nonneg _) (by positivity)
  simp

theorem norm_exp_smul_le {n : Type} [Fintype n] [DecidableEq n] (X : Matrix n n ℂ) (z : ℂ) :
    ‖NormedSpace.exp (z • X)‖ ≤ Real.exp (‖z‖ * ‖X‖) := by
  rcases isEmpty_or_nonempty n with h | h
  · have : NormedSpace.exp (z • X) = 0 := Subsingleton.elim _ _
    rw [this, norm_zero]; exact (Real.exp_pos _).le
  · haveI : NormOneClass (Matrix n n ℂ) := Matrix.linfty_opNormOneClass
    rw [← norm_smul]
    exact norm_exp_le' (z • X)

end MPS.Order
