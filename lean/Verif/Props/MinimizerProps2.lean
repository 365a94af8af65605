import Verif.Props.MinimizerProps

/-!
# C54: concrete runs of `minimize`

The Hamiltonian `-1 - Σ_{i,k} |i i⟩⟨k k|` of two spins: its ground state is `(|00⟩ + |11⟩)/√2`, of energy `-3`; no product state
has an energy below `-2`.
-/

set_option linter.unusedSectionVars false
set_option linter.unusedSimpArgs false

namespace MPS.Props
open MPS Tensor Form Minim

/-- the Hamiltonian as a matrix product operator: the bond carries the indices of the first spin -/
def bellH : List (Tensor ℝ) :=
  [⟨[1, 2, 2, 4], fun I => if I.getD 3 0 = 2 * I.getD 1 0 + I.getD 2 0 then 1 else 0⟩,
   ⟨[4, 2, 2, 1], fun I => (if I.getD 0 0 / 2 = I.getD 0 0 % 2 ∧ I.getD 1 0 = I.getD 2 0 then -1 else 0) +
      (if I.getD 0 0 / 2 = I.getD 1 0 ∧ I.getD 0 0 % 2 = I.getD 2 0 then -1 else 0)⟩]

theorem bellH_wf : WFO 1 bellH [2, 2] 1 :=
  .cons rfl (by omega) (by omega) (by omega) (.cons rfl (by omega) (by omega) (by omega) (.nil 1))

theorem cfg22 {s : List Nat} (h : IsCfg [2, 2] s) : ∃ i k, i < 2 ∧ k < 2 ∧ s = [i, k] := by
  cases h with
  | cons h1 h => cases h with
    | cons h2 h => cases h; exact ⟨_, _, h1, h2, rfl⟩

/-- the matrix elements of `-1 - Σ_{i,k} |i i⟩⟨k k|` -/
theorem bellH_elt {i k j l : Nat} (hi : i < 2) (hk : k < 2) (hj : j < 2) (hl : l < 2) : opElt bellH [i, k] [j, l] =
    (if i = j ∧ k = l then -1 else 0) + (if i = k ∧ j = l then -1 else 0) := by
  rw [opElt_of_WFO bellH_wf (by simp [bellH])]
  interval_cases i <;> interval_cases k <;> interval_cases j <;> interval_cases l <;>
    simp [bellH, opPath, dim, Finset.sum_range_succ]

theorem bellH_hermitian : Hermitian [2, 2] bellH := by
  intro s t hs ht
  obtain ⟨i, k, hi, hk, rfl⟩ := cfg22 hs
  obtain ⟨j, l, hj, hl, rfl⟩ := cfg22 ht
  rw [bellH_elt hi hk hj hl, bellH_elt hj hl hi hk, star_trivial]
  interval_cases i <;> interval_cases k <;> interval_cases j <;> interval_cases l <;> simp

theorem bell_norm (φ : List (Tensor ℝ)) : normSq [2, 2] φ = amp φ [0, 0] ^ 2 + amp φ [0, 1] ^ 2 + amp φ [1, 0] ^ 2 + amp φ [1, 1] ^ 2 := by
  simp [normSq, sumCfg_cons, Finset.sum_range_succ]
  ring

theorem bell_expect (φ : List (Tensor ℝ)) : expect [2, 2] φ bellH φ = -normSq [2, 2] φ - (amp φ [0, 0] + amp φ [1, 1]) ^ 2 := by
  rw [bell_norm]
  simp [expect, MPS.inner, actOp, sumCfg_cons, Finset.sum_range_succ, bellH_elt]
  ring

theorem bell_energy (φ : List (Tensor ℝ)) : energyOf [2, 2] bellH φ = -normSq [2, 2] φ - (amp φ [0, 0] + amp φ [1, 1]) ^ 2 := by
  rw [energyOf, bell_expect]; rfl

theorem bellH_nonzero : NonZero [2, 2] bellH :=
  ⟨[0, 0], [0, 0], by simp [IsCfg], by simp [IsCfg], by rw [bellH_elt (by omega) (by omega) (by omega) (by omega)]; norm_num⟩

/-- `|00⟩ + |11⟩` -/
def bellState : List (Tensor ℝ) :=
  [⟨[1, 2, 2], fun I => if I.getD 1 0 = I.getD 2 0 then 1 else 0⟩, ⟨[2, 2, 1], fun I => if I.getD 0 0 = I.getD 1 0 then 1 else 0⟩]

theorem bellState_wf : WF 1 bellState [2, 2] 1 :=
  .cons rfl (by omega) (by omega) (by omega) (.cons rfl (by omega) (by omega) (by omega) (.nil 1))

theorem bellState_amp : amp bellState [0, 0] = 1 ∧ amp bellState [0, 1] = 0 ∧ amp bellState [1, 0] = 0 ∧ amp bellState [1, 1] = 1 := by
  refine ⟨?_, ?_, ?_, ?_⟩ <;> simp [amp, bellState, path, dim, Finset.sum_range_succ]

/-- no state with a bond of size one has an energy below `-2` -/
theorem bell_product {φ : List (Tensor ℝ)} (hw : WF 1 φ [2, 2] 1) (hb : (site φ 0).dim 2 ≤ 1) :
    -2 * normSq [2, 2] φ ≤ energyOf [2, 2] bellH φ := by
  cases hw with
  | @cons _ _ c _ A As _ h1 _ _ hc h =>
  cases h with
  | @cons _ _ c' _ B Bs _ g1 _ _ _ h =>
  cases h
  have hc1 : c = 1 := by
    simp only [site, List.getD_cons_zero] at hb
    rw [dim2_of h1] at hb; omega
  subst hc1
  have e : ∀ i k, amp [A, B] [i, k] = A.get [0, i, 0] * B.get [0, k, 0] := by
    intro i k
    simp [amp, path, dim0_of h1, dim2_of h1, dim2_of g1]
  rw [bell_energy, bell_norm]
  simp only [e]
  nlinarith [sq_nonneg (A.get [0, 0, 0] * B.get [0, 1, 0] - A.get [0, 1, 0] * B.get [0, 0, 0])]

/-- the initial state used below: `|00⟩` -/
def zeroState : List (Tensor ℝ) := [⟨[1, 2, 1], fun I => if I.getD 1 0 = 0 then 1 else 0⟩, ⟨[1, 2, 1], fun I => if I.getD 1 0 = 0 then 1 else 0⟩]

theorem zeroState_wf : WF 1 zeroState [2, 2] 1 :=
  .cons rfl (by omega) (by omega) (by omega) (.cons rfl (by omega) (by omega) (by omega) (.nil 1))

/-- **C54** is violated by the truncation: asked for a state with a bond of size 1, the two-site algorithm returns the energy `-3`
of the state before the truncation, whereas the state returned, like every product state, has no energy below `-2`. -/
theorem C54_energy_violated {svd : Tensor ℝ → SvdRes ℝ} (hg : GoodSvd svd) (eps dflt : ℝ) (hdflt : 0 < dflt) {eigs : Eigs ℝ} (he : GoodEigs eigs)
    (hsol : ∀ A n P, (eigs A n P).ok = true) (o : Opts) (hD : o.Dmax = 1) (hs : 0 < o.sweeps) :
    ∃ out, minimize svd eps dflt eigs bellH zeroState o = some out ∧ out.converged = true ∧ WF 1 out.psi [2, 2] 1 ∧
      out.E = -3 ∧ -2 * normSq [2, 2] out.psi ≤ energyOf [2, 2] bellH out.psi := by
  obtain ⟨out, h1, h2⟩ := C78_returns hg eps dflt he hsol bellH_wf bellH_hermitian bellH_nonzero zeroState_wf (by simp) (Or.inl hdflt) o (by omega)
  obtain ⟨c1, c2, -, -, c3, ⟨p, hp, c4⟩, -⟩ := C78_two_site hg eps dflt he bellH_wf bellH_hermitian zeroState_wf (by simp) (Or.inl hdflt) o (by omega) hs h1 h2
  have hp0 : p = 0 := by
    rcases hp with h | h
    · exact h
    · simpa using h
  subst hp0
  refine ⟨out, h1, h2, c1, le_antisymm ?_ ?_, bell_product c1 (by rw [← hD]; exact c2 0 (by simp))⟩
  · have hl := c1.length
    have := c4 bellState bellState_wf (fun j h1 h2 => by
      simp only [site]
      rw [List.getD_eq_default _ _ (by simp [bellState]; omega), List.getD_eq_default _ _ (by rw [hl]; simp; omega)])
    rw [bell_energy, bell_norm] at this
    obtain ⟨a1, a2, a3, a4⟩ := bellState_amp
    rw [a1, a2, a3, a4] at this
    linarith
  · apply c3
    intro φ _
    rw [bell_energy, bell_norm]
    nlinarith [sq_nonneg (amp φ [0, 0] - amp φ [1, 1]), sq_nonneg (amp φ [0, 1]), sq_nonneg (amp φ [1, 0])]

/-- The hypotheses of C77 are met: with this Hamiltonian the single-site algorithm returns for every number of sweeps, and the number is
the energy of a state with the bond of the initial state. -/
theorem C77_example {svd : Tensor ℝ → SvdRes ℝ} (hg : GoodSvd svd) (eps dflt : ℝ) (hdflt : 0 < dflt) {eigs : Eigs ℝ} (he : GoodEigs eigs)
    (hsol : ∀ A n P, (eigs A n P).ok = true) (o : Opts) (hD : o.Dmax = 0) (hs : 0 < o.sweeps) :
    ∃ out, minimize svd eps dflt eigs bellH zeroState o = some out ∧ out.converged = true ∧
      normSq [2, 2] out.psi = 1 ∧ expect [2, 2] out.psi bellH out.psi = out.E := by
  obtain ⟨out, h1, h2⟩ := C77_returns hg eps dflt he hsol bellH_wf bellH_hermitian bellH_nonzero zeroState_wf (by simp) (Or.inl hdflt) o hD
  obtain ⟨-, c2, c3, -⟩ := C77_single_site hg eps dflt he bellH_wf bellH_hermitian zeroState_wf (by simp) (Or.inl hdflt) o hD hs h1 h2
  exact ⟨out, h1, h2, c2, c3⟩

/-- The hypotheses of C77, C78 and of the violations can be met simultaneously. -/
example : ∃ (svd : Tensor ℝ → SvdRes ℝ) (eigs : Eigs ℝ), GoodSvd svd ∧ GoodEigs eigs ∧ ∀ A n P, (eigs A n P).ok = true := by
  obtain ⟨svd, h⟩ := exists_goodSvd (K := ℝ)
  obtain ⟨eigs, h1, h2⟩ := exists_goodEigs (K := ℝ)
  exact ⟨svd, eigs, h, h1, h2⟩

end MPS.Props
