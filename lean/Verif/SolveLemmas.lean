import Verif.SolveSpec
import Verif.ObcLemmas4
import Mathlib.Analysis.InnerProductSpace.Projection.Basic
import Mathlib.Analysis.InnerProductSpace.PiL2

/-!
# Normal equations
-/

set_option linter.unusedSectionVars false
set_option linter.unusedSimpArgs false

namespace MPS.Solve
open MPS Tensor Form Minim Obc
variable {K : Type} [RCLike K]

/-- the normal equations always have a solution -/
theorem exists_normal {m n : Nat} (A : Fin m → Fin n → K) (b : Fin m → K) :
    ∃ x : Fin n → K, ∀ i, ∑ j, (∑ σ, star (A σ i) * A σ j) * x j = ∑ σ, star (A σ i) * b σ := by
  classical
  let v : Fin n → EuclideanSpace K (Fin m) := fun i => WithLp.toLp 2 (fun σ => A σ i)
  let B : EuclideanSpace K (Fin m) := WithLp.toLp 2 b
  let S : Submodule K (EuclideanSpace K (Fin m)) := Submodule.span K (Set.range v)
  obtain ⟨x, hx⟩ := (Submodule.mem_span_range_iff_exists_fun K).1 (S.starProjection_apply_mem B)
  refine ⟨x, fun i => ?_⟩
  have h0 : Inner.inner K (v i) (B - S.starProjection B) = 0 :=
    S.sub_starProjection_mem_orthogonal B _ (Submodule.subset_span ⟨i, rfl⟩)
  have hin : ∀ y z : EuclideanSpace K (Fin m), Inner.inner K y z = ∑ σ, star (y σ) * z σ := by
    intro y z
    rw [PiLp.inner_apply]
    exact Finset.sum_congr rfl fun σ _ => by simp [RCLike.inner_apply, mul_comm]
  rw [inner_sub_right, ← hx, sub_eq_zero, inner_sum, hin] at h0
  rw [show ∑ σ, star (A σ i) * b σ = ∑ σ, star (v i σ) * B σ from rfl, h0]
  refine Finset.sum_congr rfl fun j _ => ?_
  rw [inner_smul_right, hin, mul_comm]

/-- the same over configurations -/
theorem exists_normal_cfg {ds : List Nat} (hds : ∀ x ∈ ds, 0 < x) (W : Nat → List Nat → K) (q : List Nat → K) (n : Nat) :
    ∃ x : Nat → K, ∀ i < n, ∑ j ∈ Finset.range n, MPS.inner ds (W i) (W j) * x j = MPS.inner ds (W i) q := by
  obtain ⟨x, hx⟩ := exists_normal (fun (σ : Fin ds.prod) (i : Fin n) => W i (unflat ds σ)) (fun σ => q (unflat ds σ))
  refine ⟨fun j => if h : j < n then x ⟨j, h⟩ else 0, fun i hi => ?_⟩
  have := hx ⟨i, hi⟩
  have e : ∀ f g : List Nat → K, MPS.inner ds f g = ∑ σ : Fin ds.prod, star (f (unflat ds σ)) * g (unflat ds σ) := by
    intro f g
    unfold MPS.inner
    rw [sumCfg_range _ _ hds, Finset.sum_range]
  rw [e, ← this, Finset.sum_range]
  refine Finset.sum_congr rfl fun j _ => ?_
  rw [e]
  simp

end MPS.Solve
