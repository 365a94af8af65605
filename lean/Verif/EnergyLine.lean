import Verif.MinimizerSpec
import Verif.DmrgTrunc

/-! # Minimum of the energy on a line, for any operator -/

set_option linter.unusedSectionVars false

namespace MPS.Minim
open MPS Tensor
variable {K : Type} [RCLike K]

/-- `Re ⟨ψ|O|ψ⟩` of a wave function, for the operator with matrix elements `e` -/
noncomputable def opEnergy (ds : List Nat) (e : List Nat → List Nat → K) (ψ : List Nat → K) : ℝ := RCLike.re (MPS.inner ds ψ (actOp ds e ψ))

theorem opEnergy_congr {ds : List Nat} {e : List Nat → List Nat → K} {u v : List Nat → K} (huv : ∀ s, IsCfg ds s → u s = v s) :
    opEnergy ds e u = opEnergy ds e v := by
  unfold opEnergy MPS.inner actOp
  congr 1
  refine sumCfg_congr fun s hs => ?_
  rw [huv s hs]
  congr 1
  exact sumCfg_congr fun t ht => by rw [huv t ht]

theorem op_line (ds : List Nat) (e : List Nat → List Nat → K) (f w : List Nat → K) : ∃ c : ℝ, ∀ t : ℝ, opEnergy ds e (fun s => f s + (t : K) * w s) =
    opEnergy ds e f + t * c + t ^ 2 * opEnergy ds e w := by
  refine ⟨RCLike.re (MPS.inner ds f (actOp ds e w) + MPS.inner ds w (actOp ds e f)), fun t => ?_⟩
  have h1 : ∀ s, actOp ds e (fun s => f s + (t : K) * w s) s = actOp ds e f s + (t : K) * actOp ds e w s := by
    intro s
    unfold actOp
    rw [← sumCfg_mul_left, ← sumCfg_add]
    exact sumCfg_congr fun _ _ => by ring
  have h2 : MPS.inner ds (fun s => f s + (t : K) * w s) (actOp ds e (fun s => f s + (t : K) * w s)) =
      MPS.inner ds f (actOp ds e f) + (t : K) * (MPS.inner ds f (actOp ds e w) + MPS.inner ds w (actOp ds e f)) +
        ((t ^ 2 : ℝ) : K) * MPS.inner ds w (actOp ds e w) := by
    unfold MPS.inner
    simp only [h1]
    rw [← sumCfg_add, ← sumCfg_mul_left, ← sumCfg_mul_left, ← sumCfg_add, ← sumCfg_add]
    refine sumCfg_congr fun s _ => ?_
    simp only [RCLike.star_def, map_add, map_mul, RCLike.conj_ofReal]
    push_cast
    ring
  unfold opEnergy
  rw [h2, map_add, map_add, RCLike.re_ofReal_mul, RCLike.re_ofReal_mul]

/-- a minimum on a line: what is gained by leaving it depends on the distance only -/
theorem op_min_line (ds : List Nat) (e : List Nat → List Nat → K) (f w : List Nat → K) {E : ℝ} (h0 : opEnergy ds e f = E * sumCfg ds fun s => ‖f s‖ ^ 2)
    (hmin : ∀ t : ℝ, E * (sumCfg ds fun s => ‖f s + (t : K) * w s‖ ^ 2) ≤ opEnergy ds e fun s => f s + (t : K) * w s) :
    opEnergy ds e (fun s => f s - w s) - E * (sumCfg ds fun s => ‖f s - w s‖ ^ 2) = opEnergy ds e w - E * sumCfg ds fun s => ‖w s‖ ^ 2 := by
  obtain ⟨c, hc⟩ := op_line ds e f w
  obtain ⟨c', hc'⟩ := Dmrg.norm_line ds f w
  have key : ∀ t : ℝ, 0 ≤ t * (c - E * c') + t ^ 2 * (opEnergy ds e w - E * sumCfg ds fun s => ‖w s‖ ^ 2) := by
    intro t
    have := hmin t
    rw [hc, hc', h0] at this
    nlinarith
  have hz : c - E * c' = 0 := by
    set u := c - E * c'
    set q := opEnergy ds e w - E * sumCfg ds fun s => ‖w s‖ ^ 2
    by_contra hu
    have hp : 0 < u ^ 2 := by positivity
    have hq : 0 < |q| + 1 := by positivity
    have k1 := key (-(u / (|q| + 1)))
    have e : -(u / (|q| + 1)) * u + (-(u / (|q| + 1))) ^ 2 * q = u ^ 2 / (|q| + 1) * (q / (|q| + 1) - 1) := by field_simp; ring
    rw [e] at k1
    have : q / (|q| + 1) < 1 := by rw [div_lt_one hq]; have := le_abs_self q; linarith
    have h3 : 0 < u ^ 2 / (|q| + 1) := by positivity
    nlinarith
  have e1 := hc (-1)
  have e2 := hc' (-1)
  have hm : (fun s => f s + ((-1 : ℝ) : K) * w s) = fun s => f s - w s := by funext s; push_cast; ring
  have hm2 : ∀ s, f s + ((-1 : ℝ) : K) * w s = f s - w s := fun s => by push_cast; ring
  rw [hm] at e1
  simp only [hm2] at e2
  rw [e1, e2, h0]
  nlinarith

end MPS.Minim
