import Verif.TrotterSpec
import Mathlib.Analysis.Calculus.Deriv.Basic
import Mathlib.Analysis.Complex.Basic

/-!
# The exact evolution with a nearest-neighbour Hamiltonian
-/

namespace MPS.Order
open MPS Tensor

/-- matrix element ⟨s|H|t⟩ of the Hamiltonian of an open chain: all local terms and all the interactions between
neighbours -/
noncomputable def chainElt (H : Ham ℂ) (ds : List Nat) (s t : List Nat) : ℂ :=
  ∑ p ∈ Finset.range ds.length, embed1 ds.length p (H.loc p) s t
    + ∑ p ∈ Finset.range (ds.length - 1), embed2 ds.length (ds.getD p 0) p (H.inter p) s t

/-- `ψ(τ)` solves Schrödinger's equation `i dψ/dτ = w H ψ`, where `w = 1` for evolution in real time and `w = -i` for
evolution in imaginary time -/
def Schroedinger (H : Ham ℂ) (ds : List Nat) (w : ℂ) (ψ : ℝ → List Nat → ℂ) : Prop :=
  ∀ τ s, IsCfg ds s → HasDerivAt (fun τ => ψ τ s) (-Complex.I * w * actOp ds (chainElt H ds) (ψ τ) s) τ

/-- norm of a wave function -/
noncomputable def wnorm (ds : List Nat) (φ : List Nat → ℂ) : ℝ := Real.sqrt (sumCfg ds fun s => ‖φ s‖ ^ 2)

/-- distance of two wave functions -/
noncomputable def wdist (ds : List Nat) (φ χ : List Nat → ℂ) : ℝ := wnorm ds fun s => φ s - χ s

end MPS.Order
