import Verif.DmrgTruncSpec
import Verif.DmrgManyLemmas3
import Verif.TrotterTrunc2
import Verif.LayerErr

/-! What the truncations of single-site DMRG do to the energy. -/

set_option linter.unusedSectionVars false
set_option linter.unusedSimpArgs false

namespace MPS.Dmrg
open MPS Tensor Form Minim
variable {K : Type} [RCLike K]

theorem norm_sumCfg_le : ∀ (ds : List Nat) (f : List Nat → K) (g : List Nat → ℝ), (∀ I, IsCfg ds I → ‖f I‖ ≤ g I) → ‖sumCfg ds f‖ ≤ sumCfg ds g
  | [], _, _, hfg => hfg [] .nil
  | d :: ds, f, g, hfg => by
    rw [sumCfg_cons, sumCfg_cons]
    exact (norm_sum_le _ _).trans (Finset.sum_le_sum fun i hi => norm_sumCfg_le ds _ _ fun I hI => hfg _ (.cons (Finset.mem_range.1 hi) hI))

theorem term_le_sumCfg : ∀ (ds : List Nat) (g : List Nat → ℝ), (∀ I, 0 ≤ g I) → ∀ s, IsCfg ds s → g s ≤ sumCfg ds g
  | [], _, _, s, hs => by cases hs; exact le_rfl
  | d :: ds, g, hg, s, hs => by
    cases hs with
    | cons hi hs =>
      rename_i i s
      rw [sumCfg_cons]
      exact (term_le_sumCfg ds (fun t => g (i :: t)) (fun _ => hg _) s hs).trans
        (Finset.single_le_sum (f := fun i => sumCfg ds fun t => g (i :: t)) (fun j _ => sumCfg_nonneg _ _ fun _ _ => hg _) (Finset.mem_range.2 hi))

/-- every Hamiltonian has a bound -/
theorem exists_energyBound (ds : List Nat) (H : Ham K) : ∃ M, 0 ≤ M ∧ EnergyBound ds H M := by
  refine ⟨sumCfg ds fun s => sumCfg ds fun t => ‖Props.hamElt ds H s t‖, sumCfg_nonneg _ _ fun _ _ => sumCfg_nonneg _ _ fun _ _ => norm_nonneg _, fun ψ => ?_⟩
  have hle : ∀ s, IsCfg ds s → ‖ψ s‖ ^ 2 ≤ sumCfg ds fun s => ‖ψ s‖ ^ 2 := fun s hs =>
    term_le_sumCfg ds (fun s => ‖ψ s‖ ^ 2) (fun _ => by positivity) s hs
  set N := sumCfg ds fun s => ‖ψ s‖ ^ 2 with hN
  unfold stateEnergy MPS.inner actOp
  refine (RCLike.abs_re_le_norm _).trans ?_
  rw [← sumCfg_mul_right]
  refine norm_sumCfg_le _ _ _ fun s hs => ?_
  rw [norm_mul, ← sumCfg_mul_right, norm_star]
  refine (mul_le_mul_of_nonneg_left (norm_sumCfg_le ds _ (fun t => ‖Props.hamElt ds H s t‖ * ‖ψ t‖) fun t _ => by rw [norm_mul]) (norm_nonneg _)).trans ?_
  rw [← sumCfg_mul_left]
  refine Trotter.sumCfg_le fun t ht => ?_
  have h1 := hle s hs
  have h2 := hle t ht
  have h3 : ‖ψ s‖ * ‖ψ t‖ ≤ N := by nlinarith [sq_nonneg (‖ψ s‖ - ‖ψ t‖)]
  calc ‖ψ s‖ * (‖Props.hamElt ds H s t‖ * ‖ψ t‖) = ‖Props.hamElt ds H s t‖ * (‖ψ s‖ * ‖ψ t‖) := by ring
    _ ≤ ‖Props.hamElt ds H s t‖ * N := mul_le_mul_of_nonneg_left h3 (norm_nonneg _)

/-- the energy along a line -/
theorem energy_line (ds : List Nat) (H : Ham K) (f w : List Nat → K) : ∃ c : ℝ, ∀ t : ℝ, stateEnergy ds H (fun s => f s + (t : K) * w s) =
    stateEnergy ds H f + t * c + t ^ 2 * stateEnergy ds H w := by
  let e := Props.hamElt ds H
  refine ⟨RCLike.re (MPS.inner ds f (actOp ds e w) + MPS.inner ds w (actOp ds e f)), fun t => ?_⟩
  have h1 : ∀ s, actOp ds e (fun s => f s + (t : K) * w s) s = actOp ds e f s + (t : K) * actOp ds e w s := by
    intro s
    unfold actOp
    rw [← sumCfg_mul_left, ← sumCfg_add]
    exact sumCfg_congr fun _ _ => by ring
  have h2 : MPS.inner ds (fun s => f s + (t : K) * w s) (actOp ds e (fun s => f s + (t : K) * w s)) =
      MPS.inner ds f (actOp ds e f) + (t : K) * (MPS.inner ds f (actOp ds e w) + MPS.inner ds w (actOp ds e f)) +
        ((t ^ 2 : ℝ) : K) * MPS.inner ds w (actOp ds e w) := by
    unfold MPS.inner
    simp only [h1]
    rw [← sumCfg_add, ← sumCfg_mul_left, ← sumCfg_mul_left, ← sumCfg_add, ← sumCfg_add]
    refine sumCfg_congr fun s _ => ?_
    simp only [RCLike.star_def, map_add, map_mul, RCLike.conj_ofReal]
    push_cast
    ring
  unfold stateEnergy
  rw [h2, map_add, map_add, RCLike.re_ofReal_mul, RCLike.re_ofReal_mul]

theorem norm_line (ds : List Nat) (f w : List Nat → K) : ∃ c : ℝ, ∀ t : ℝ, (sumCfg ds fun s => ‖f s + (t : K) * w s‖ ^ 2) =
    (sumCfg ds fun s => ‖f s‖ ^ 2) + t * c + t ^ 2 * sumCfg ds fun s => ‖w s‖ ^ 2 := by
  refine ⟨sumCfg ds fun s => 2 * RCLike.re (star (f s) * w s), fun t => ?_⟩
  rw [← sumCfg_mul_left, ← sumCfg_mul_left, ← sumCfg_add, ← sumCfg_add]
  refine sumCfg_congr fun s _ => ?_
  apply RCLike.ofReal_injective (K := K)
  simp only [RCLike.ofReal_add, RCLike.ofReal_mul, RCLike.ofReal_pow]
  have h := RCLike.add_conj ((starRingEnd K) (f s) * w s)
  rw [map_mul, RCLike.conj_conj] at h
  rw [← RCLike.conj_mul, ← RCLike.conj_mul, ← RCLike.conj_mul, RCLike.star_def]
  have h2 : ((2 : ℝ) : K) = 2 := RCLike.ofReal_ofNat 2
  rw [h2, ← h]
  simp only [map_add, map_mul, RCLike.conj_ofReal]
  ring

/-- a minimum on a line: what is gained by leaving it depends on the distance only -/
theorem min_line (ds : List Nat) (H : Ham K) (f w : List Nat → K) {E : ℝ} (h0 : stateEnergy ds H f = E * sumCfg ds fun s => ‖f s‖ ^ 2)
    (hmin : ∀ t : ℝ, E * (sumCfg ds fun s => ‖f s + (t : K) * w s‖ ^ 2) ≤ stateEnergy ds H fun s => f s + (t : K) * w s) :
    stateEnergy ds H (fun s => f s - w s) - E * (sumCfg ds fun s => ‖f s - w s‖ ^ 2) = stateEnergy ds H w - E * sumCfg ds fun s => ‖w s‖ ^ 2 := by
  obtain ⟨c, hc⟩ := energy_line ds H f w
  obtain ⟨c', hc'⟩ := norm_line ds f w
  have key : ∀ t : ℝ, 0 ≤ t * (c - E * c') + t ^ 2 * (stateEnergy ds H w - E * sumCfg ds fun s => ‖w s‖ ^ 2) := by
    intro t
    have := hmin t
    rw [hc, hc', h0] at this
    nlinarith
  have hz : c - E * c' = 0 := by
    set u := c - E * c'
    set q := stateEnergy ds H w - E * sumCfg ds fun s => ‖w s‖ ^ 2
    by_contra hu
    have hp : 0 < u ^ 2 := by positivity
    have hq : 0 < |q| + 1 := by positivity
    have k1 := key (-(u / (|q| + 1)))
    have e : -(u / (|q| + 1)) * u + (-(u / (|q| + 1))) ^ 2 * q = u ^ 2 / (|q| + 1) * (q / (|q| + 1) - 1) := by field_simp; ring
    rw [e] at k1
    have : q / (|q| + 1) < 1 := by rw [div_lt_one hq]; have := le_abs_self q; linarith
    have h3 : 0 < u ^ 2 / (|q| + 1) := by positivity
    nlinarith
  have e1 := hc (-1)
  have e2 := hc' (-1)
  have hm : (fun s => f s + ((-1 : ℝ) : K) * w s) = fun s => f s - w s := by funext s; push_cast; ring
  have hm2 : ∀ s, f s + ((-1 : ℝ) : K) * w s = f s - w s := fun s => by push_cast; ring
  rw [hm] at e1
  simp only [hm2] at e2
  rw [e1, e2, h0]
  nlinarith

end MPS.Dmrg
