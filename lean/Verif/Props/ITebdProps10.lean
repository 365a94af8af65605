import Verif.Props.ITebdProps3
import Verif.Props.ITebdProps9

/-!
# C92: the energy of an infinite state
-/

set_option linter.unusedSectionVars false
set_option linter.unusedSimpArgs false

namespace MPS.Props
open MPS Tensor ITebd
variable {K : Type} [RCLike K]

theorem winValue_sum (psi : State K) (p : Int) (n : Nat) {ι : Type} (S : Finset ι) (O : ι → List Nat → List Nat → K) :
    winValue psi p n (fun s t => ∑ k ∈ S, O k s t) = ∑ k ∈ S, winValue psi p n (O k) := by
  have hf : winForm psi p n (fun s t => ∑ k ∈ S, O k s t) = ∑ k ∈ S, winForm psi p n (O k) := by
    unfold winForm
    rw [Finset.sum_comm' (s := S) (t := fun _ => Finset.range ((psi.matrix p).dim 0)) (s' := fun _ => S) (t' := Finset.range ((psi.matrix p).dim 0)) (by simp [and_comm])]
    refine Finset.sum_congr rfl fun a _ => ?_
    rw [Finset.sum_comm' (s := S) (t := fun _ => Finset.range ((psi.matrix (p + n)).dim 0)) (s' := fun _ => S) (t' := Finset.range ((psi.matrix (p + n)).dim 0)) (by simp [and_comm])]
    refine Finset.sum_congr rfl fun b _ => ?_
    unfold MPS.inner
    rw [← sumCfg_sum]
    refine sumCfg_congr fun s _ => ?_
    rw [← Finset.mul_sum]
    congr 1
    unfold actOp
    rw [← sumCfg_sum]
    refine sumCfg_congr fun t _ => ?_
    rw [Finset.sum_mul]
  unfold winValue
  rw [hf, Finset.sum_div]

/-- **C92**: the expected value of the sum of `H12` over the `2 n` pairs of neighbours that start in `n` consecutive cells is
`n * energy(psi, H12)` -/
theorem C92_energy (canon : State K → State K) (psi : State K) (h : Ok (usedState canon psi)) {ηl ηr : K}
    (hl : LeftFixed (usedState canon psi) 0 2 ηl) (hr : RightFixed (usedState canon psi) 0 2 ηr) (hl0 : ηl ≠ 0) (hr0 : ηr ≠ 0)
    {H : Tensor K} {d : Nat} (hd : ∀ k, ((usedState canon psi).matrix k).dim 1 = d) (hop : H.dims = [d * d, d * d]) (n : Nat) :
    winValue (usedState canon psi) 0 (2 * (n + 1)) (fun s t => ∑ k ∈ Finset.range (2 * n), widen k 2 (pairElt d H) s t) =
      n * ITebd.energy canon psi H := by
  rw [winValue_sum]
  have key : ∀ j < n, ∀ k : Nat, k = 0 ∨ k = 1 → winValue (usedState canon psi) 0 (2 * (n + 1)) (widen (2 * j + k) 2 (pairElt d H)) = expected12 canon psi H k := by
    intro j hj k hk
    have hop' : H.dims = [((usedState canon psi).matrix k).dim 1 * ((usedState canon psi).matrix (k + 1)).dim 1,
      ((usedState canon psi).matrix k).dim 1 * ((usedState canon psi).matrix (k + 1)).dim 1] := by rw [hd, hd]; exact hop
    have := C84_expected12 canon psi h hl hr hl0 hr0 (Op := H) (k : Int) k (by omega) hop' j (n - j - k)
    rw [hd] at this
    rw [this, winValue_shift _ (p := -(2 * (j : Int))) (q := 0) (by omega)]
    congr 1
    omega
  rw [sum_range_mul, Finset.sum_congr rfl (g := fun _ => ITebd.energy canon psi H), Finset.sum_const, Finset.card_range, nsmul_eq_mul]
  intro j hj
  rw [Finset.sum_range_succ, Finset.sum_range_one]
  have hj := Finset.mem_range.1 hj
  rw [show 0 + 2 * j = 2 * j + 0 by ring, show 1 + 2 * j = 2 * j + 1 by ring, key j hj 0 (Or.inl rfl), key j hj 1 (Or.inr rfl)]
  rfl

/-- C92 is about something: the pairs of spins in the state `(|00⟩ + |11⟩)/√2` -/
theorem C92_example (n : Nat) (H : Tensor ℝ) (hH : H.dims = [2 * 2, 2 * 2]) :
    winValue (bellPairs true) 0 (2 * (n + 1)) (fun s t => ∑ k ∈ Finset.range (2 * n), widen k 2 (pairElt 2 H) s t) =
      n * ITebd.energy id (bellPairs true) H := by
  have hok := bellPairs_ok true
  have hu : usedState id (bellPairs true) = bellPairs true := rfl
  obtain ⟨hr, hl⟩ := bell_canonical
  have hd : ∀ k, ((bellPairs true).matrix k).dim 1 = 2 := by
    intro k; unfold State.matrix; split <;> rfl
  have e2 : (2 : Nat) = 1 + 1 := rfl
  have hl2 : LeftFixed (bellPairs true) 0 2 1 := by
    have := LeftFixed.add hok (hl 0) (hl (0 + (1 : Nat)))
    rwa [one_mul] at this
  have hr2 : RightFixed (bellPairs true) 0 2 1 := by
    have := RightFixed.add hok (hr 0) (hr (0 + (1 : Nat)))
    rwa [one_mul] at this
  exact C92_energy id (bellPairs true) hok hl2 hr2 one_ne_zero one_ne_zero hd hH n

end MPS.Props
