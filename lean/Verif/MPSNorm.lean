import Verif.MPSLemmas2
import Mathlib.Analysis.RCLike.Basic
import Mathlib.Analysis.SpecialFunctions.Sqrt

set_option linter.unusedSectionVars false

/-! # Model of `norm2` (needs `sqrt`, hence `RCLike` scalars: ℝ or ℂ) -/

namespace MPS
open Tensor
variable {𝕜 : Type} [RCLike 𝕜]

/-- `state_norm` / `norm2`: `sqrt(abs(real(prop_matrix_close(M)[0])))`,
/repo/src/mps/mps_expected1.cc:49-57, mps_norm_d.cc, mps_norm_z.cc -/
noncomputable def norm2 (ψ : List (Tensor 𝕜)) : ℝ := Real.sqrt |RCLike.re (normClosed ψ)|

theorem sumCfg_re (ds : List Nat) (F : List Nat → 𝕜) :
    RCLike.re (sumCfg ds F) = sumCfg ds (fun s => RCLike.re (F s)) := by
  induction ds generalizing F with
  | nil => rfl
  | cons d ds ih => simp only [sumCfg_cons, map_sum, ih]

theorem sumCfg_nonneg (ds : List Nat) (F : List Nat → ℝ) (h : ∀ s, IsCfg ds s → 0 ≤ F s) :
    0 ≤ sumCfg ds F := by
  induction ds generalizing F with
  | nil => exact h [] List.Forall₂.nil
  | cons d ds ih =>
    exact Finset.sum_nonneg fun i hi =>
      ih _ fun s hs => h _ (List.Forall₂.cons (Finset.mem_range.1 hi) hs)

theorem inner_self_ofReal (ds : List Nat) (φ : List Nat → 𝕜) :
    inner ds φ φ = ((sumCfg ds (fun s => ‖φ s‖ ^ 2) : ℝ) : 𝕜) := by
  unfold inner
  have : ∀ s, star (φ s) * φ s = ((‖φ s‖ ^ 2 : ℝ) : 𝕜) := by
    intro s
    have := RCLike.conj_mul (φ s)
    simpa using this
  simp only [this]
  induction ds generalizing φ with
  | nil => rfl
  | cons d ds ih =>
    simp only [sumCfg_cons, RCLike.ofReal_sum]
    refine Finset.sum_congr rfl fun i _ => ih (fun s => φ (i :: s)) (fun s => this _)

theorem normClosed_spec {ds : List Nat} {ψ : List (Tensor 𝕜)} (h : IsMPS ds ψ) :
    normClosed ψ = inner ds (amp ψ) (amp ψ) := by
  have := scprod_spec h h 1
  unfold scprod at this
  rw [if_pos ⟨rfl, h.1⟩] at this
  have e : (ψ.zip ψ).map (fun x => (x.1, x.2, (none : Option (Tensor 𝕜))))
      = ψ.map (fun x => (x, x, none)) := by
    apply List.ext_getElem
    · simp
    · intro i h1 h2; simp
  simp only [e] at this
  exact Option.some.inj this

theorem norm2_spec {ds : List Nat} {ψ : List (Tensor 𝕜)} (h : IsMPS ds ψ) :
    norm2 ψ = Real.sqrt (sumCfg ds (fun s => ‖amp ψ s‖ ^ 2)) := by
  unfold norm2
  rw [normClosed_spec h, inner_self_ofReal, RCLike.ofReal_re, abs_of_nonneg]
  exact sumCfg_nonneg _ _ fun s _ => by positivity

theorem inner_star (ds : List Nat) (φ χ : List Nat → 𝕜) :
    star (inner ds φ χ) = inner ds χ φ := by
  unfold inner
  rw [sumCfg_star]
  refine sumCfg_congr fun s _ => ?_
  rw [star_mul', star_star, mul_comm]

end MPS
