import Verif.DmrgTrunc2
import Verif.Props.DmrgProps
import Verif.Props.NormalizeProps

/-!
# C125: truncations and energies in single-site DMRG
-/

set_option linter.unusedSectionVars false
set_option linter.unusedSimpArgs false

namespace MPS.Props
open MPS Tensor Form Minim Dmrg
variable {K : Type} [RCLike K]

/-- **C125.**  Single-site DMRG truncates after each step, with the tolerance `τ`, the larger one of `MPS_TRUNCATION_TOLERANCE` and `DBL_EPSILON`.
If the energies of all states of norm one are between `-M` and `M`, then: the squared norm of the state returned is between `1 - τ` and 1; its energy,
divided by its squared norm, is not below the number returned, and is above it by at most `2Mτ/(1-τ)`; in a chain of `N` sites the energy grows from a sweep to the
next by `2MNτ/(1-τ)` at most; and the number returned is above the energy of the canonical form of the initial state by `2MNτ/(1-τ)` for each sweep at most. -/
theorem C125_energies {svd : Tensor K → SvdRes K} (hg : GoodSvd svd) (eps : ℝ) {dflt : ℝ} (hd0 : 0 < dflt) {eigs : Eigs K} (he : GoodEigs eigs)
    (solve : Solve K) {ds : List Nat} {H : Ham K} (hH : HamOk ds H) {M : ℝ} (hM : EnergyBound ds H M) (hτ : max dflt eps < 1)
    (P0 : List (List (Tensor K))) {P : List (Tensor K)} (hw : WF 1 P ds 1)
    (o : Dmrg.Opts) (hs : 0 < o.sweeps) (E0 : ℝ) {out : Dmrg.Out K} (h : Dmrg.minimize svd eps dflt eigs solve o H P0 P 0 E0 = some out) :
    let τ := max dflt eps
    let δ := 2 * M * τ / (1 - τ)
    let c := (canonicalForm svd eps dflt P (-1)).1
    1 - τ ≤ normSq ds out.P ∧ normSq ds out.P ≤ 1 ∧
    out.E ≤ hamEnergy ds H out.P / normSq ds out.P ∧ hamEnergy ds H out.P / normSq ds out.P ≤ out.E + δ ∧
    (∀ j, j + 1 < out.energies.length → out.energies.getD (j + 1) 0 ≤ out.energies.getD j 0 + ds.length * δ) ∧
    (normSq ds c ≠ 0 → out.E ≤ hamEnergy ds H c / normSq ds c + out.energies.length * (ds.length * δ)) := by
  intro τ δ c
  have h2 := hH.two
  unfold Dmrg.minimize at h
  rw [if_neg (by rw [hH.size, hH.opened]; simp; omega)] at h
  split_ifs at h with hl
  obtain ⟨s1, s2, s3, s4, s5⟩ := start_spec hg eps hd0 hH P0 hw
  set d0 := start svd eps dflt H P0 P with hd
  have sp := Dmrg.loop_core (iter := iteration svd eps dflt eigs solve o.svdTolerance H P0 0) (E0 := E0) (d0 := d0)
    (fun es d r hr hi => by
      obtain ⟨c1, -⟩ := single_run hg eps hd0 he solve o.svdTolerance hH P0 s1 hr
      obtain ⟨d', E, e1, -⟩ := single_iteration hg eps hd0 he solve o.svdTolerance hH P0 c1 hi
      exact ⟨d', E, e1⟩)
    o.sweeps 0 0 E0 d0 [] (by simp) rfl rfl Run.nil (fun j hj => by simp at hj) h
  have hne : out.energies ≠ [] := by
    intro hh
    obtain ⟨es, E, E', h1, -⟩ := sp.stop (by rw [hh]; exact hs)
    rw [hh] at h1
    simp at h1
  have hpos := List.length_pos_iff.2 hne
  have hlast : out.energies.getLast hne = out.E := by
    rw [sp.energy, List.getLastD_eq_getLast?, List.getLast?_eq_some_getLast hne]; rfl
  obtain ⟨k1, k2, k3⟩ := run_kept hg eps hd0 he solve o.svdTolerance hH hM hτ P0 s1 sp.ran
  have hk := k1 out.energies.dropLast out.E (by rw [← hlast]; exact (List.dropLast_append_getLast hne).symm)
  rw [← sp.same] at hk
  have hτ0 : 0 < τ := lt_of_lt_of_le hd0 (le_max_left _ _)
  have hn : 0 < normSq ds out.P := lt_of_lt_of_le (by linarith : 0 < 1 - max dflt eps) hk.norm
  have hδ : slack M (max dflt eps) = δ := rfl
  have hδ0 : 0 ≤ δ := by
    have h1 : 0 ≤ M := (abs_nonneg _).trans hk.abs
    have h3 : 0 < 1 - τ := by simp only [τ]; linarith
    simp only [δ]; positivity
  rw [hδ] at k2 k3
  refine ⟨hk.norm, hk.le_one, by rw [le_div_iff₀ hn]; exact hk.low, ?_, k3, fun hc => ?_⟩
  · have hne0 : normSq ds out.P ≠ 0 := hn.ne'
    exact hk.next hτ hτ0.le (by rw [div_mul_cancel₀ _ hne0])
  · have hc0 : 0 < normSq ds c := lt_of_le_of_ne (Minim.normSq_nonneg ds c) (Ne.symm hc)
    have hB := k2 (hamEnergy ds H c / normSq ds c) (fun e he' => by
      rw [s3] at he'
      rw [le_div_iff₀ hc0]; exact he') hpos
    have hall : ∀ j, j < out.energies.length → out.energies.getD j 0 ≤ hamEnergy ds H c / normSq ds c + (j + 1) * (ds.length * δ) := by
      intro j
      induction j with
      | zero =>
        intro _
        refine hB.trans ?_
        have : ((ds.length - 1 : Nat) : ℝ) * δ ≤ ds.length * δ := mul_le_mul_of_nonneg_right (by exact_mod_cast Nat.sub_le _ _) hδ0
        push_cast; linarith
      | succ j ih =>
        intro hj
        have := k3 j hj
        have := ih (by omega)
        push_cast
        linarith
    have := hall (out.energies.length - 1) (by omega)
    have e1 : out.energies.getD (out.energies.length - 1) 0 = out.E := by
      rw [← hlast, List.getD_eq_getElem _ _ (by omega), List.getLast_eq_getElem]
    have e2 : ((out.energies.length - 1 : Nat) : ℝ) + 1 = out.energies.length := by rw [Nat.cast_sub hpos]; simp
    rw [e1, e2] at this
    exact this

/-- **C125** for an initial state in canonical form with respect to the first site, with bonds of dimension `B` at most: the energy returned is compared with that of
the state given by the user. -/
theorem C125_canonical {svd : Tensor K → SvdRes K} (hg : GoodSvd svd) (eps : ℝ) {dflt : ℝ} (hd0 : 0 < dflt) {eigs : Eigs K} (he : GoodEigs eigs)
    (solve : Solve K) {ds : List Nat} {H : Ham K} (hH : HamOk ds H) {M : ℝ} (hM : EnergyBound ds H M) (hτ : max dflt eps < 1)
    (P0 : List (List (Tensor K))) {P : List (Tensor K)} (hc : CanonicalAt ds P 0) {B : Nat} (hb : BondsUpTo B P) (hB : B * max dflt eps < 1)
    (hn : normSq ds P ≠ 0) (o : Dmrg.Opts) (hs : 0 < o.sweeps) (E0 : ℝ) {out : Dmrg.Out K}
    (h : Dmrg.minimize svd eps dflt eigs solve o H P0 P 0 E0 = some out) :
    out.E ≤ hamEnergy ds H P / normSq ds P + out.energies.length * (ds.length * (2 * M * max dflt eps / (1 - max dflt eps))) := by
  have h2 := hH.two
  obtain ⟨-, -, f3⟩ := C118_fixed hg eps hd0 hc (by omega) hb hB
  have e : canonicalForm svd eps dflt P (-1) = canonicalFormAt svd eps dflt P 0 := by simp [canonicalForm]
  obtain ⟨-, -, -, -, -, c6⟩ := C125_energies hg eps hd0 he solve hH hM hτ P0 hc.wf o hs E0 h
  rw [e, normSq_congr f3] at c6
  have := c6 hn
  unfold hamEnergy at this ⊢
  rwa [hamExp_congr f3] at this

/-- C125 is not vacuous: three sweeps for the two-site Ising chain, from a product state -/
example : ∃ (svd : Tensor ℂ → SvdRes ℂ) (eigs : Eigs ℂ) (M : ℝ), GoodSvd svd ∧ GoodEigs eigs ∧ EnergyBound [2, 2] (twoIsing : Ham ℂ) M ∧
    ∀ (solve : Solve ℂ) (E0 : ℝ), ∃ out, Dmrg.minimize svd (1 / 10 ^ 16) (1 / 10 ^ 16) eigs solve ⟨3, 1e-6, 1e-8, 0⟩ twoIsing [] twoZero 0 E0 = some out ∧
      1 - 1 / 10 ^ 16 ≤ normSq [2, 2] out.P ∧ out.E ≤ hamEnergy [2, 2] twoIsing out.P / normSq [2, 2] out.P := by
  obtain ⟨svd, hg⟩ := exists_goodSvd (K := ℂ)
  obtain ⟨eigs, he, hok⟩ := exists_goodEigs (K := ℂ)
  obtain ⟨M, -, hM⟩ := exists_energyBound [2, 2] (twoIsing : Ham ℂ)
  refine ⟨svd, eigs, M, hg, he, hM, fun solve E0 => ?_⟩
  obtain ⟨out, h⟩ := C97_returns svd (1 / 10 ^ 16) (1 / 10 ^ 16) hok solve twoIsing_ok [] twoZero ⟨3, 1e-6, 1e-8, 0⟩ E0
  obtain ⟨c1, -, c3, -⟩ := C125_energies hg (1 / 10 ^ 16) (by norm_num : (0 : ℝ) < 1 / 10 ^ 16) he solve twoIsing_ok hM (by rw [max_self]; norm_num) [] twoZero_wf
    ⟨3, 1e-6, 1e-8, 0⟩ (by simp) E0 h
  rw [max_self] at c1
  exact ⟨out, h, c1, c3⟩

end MPS.Props
