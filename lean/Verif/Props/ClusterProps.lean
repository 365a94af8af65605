import Verif.Props.StatesProps

/-! # C12: `cluster_state` with less than three sites -/

namespace MPS.Props
open MPS Tensor

/-- **C12**: with less than three sites `cluster_state` is the GHZ state: one or two sites in the state `(|0…0⟩ + |1…1⟩)/√2` -/
theorem C12_short (n : Nat) (h0 : 0 < n) (hn : n < 3) :
    ∃ ψ, clusterState n = some ψ ∧ IsMPS (List.replicate n 2) ψ ∧
      ∀ s, IsCfg (List.replicate n 2) s → amp ψ s = if s = List.replicate n 0 ∨ s = List.replicate n 1 then 1 / Real.sqrt 2 else 0 := by
  obtain ⟨ψ, h1, h2, h3⟩ := C11_ghz_partial n false h0 (fun _ => rfl)
  refine ⟨ψ, by rw [clusterState, if_pos hn]; exact h1, h2, fun s hs => ?_⟩
  rw [h3 s hs]
  have hl : s.length = n := by simpa using hs.length_eq
  have hb := hs
  have : n = 1 ∨ n = 2 := by omega
  rcases this with rfl | rfl
  · obtain ⟨a, rfl⟩ := List.length_eq_one_iff.1 hl
    have : a < 2 := by simpa [IsCfg] using hs
    interval_cases a <;> simp [ghzAmp]
  · obtain ⟨a, b, rfl⟩ := List.length_eq_two.1 hl
    have : a < 2 ∧ b < 2 := by simpa [IsCfg] using hs
    obtain ⟨ha, hb⟩ := this
    interval_cases a <;> interval_cases b <;> simp [ghzAmp]

end MPS.Props
