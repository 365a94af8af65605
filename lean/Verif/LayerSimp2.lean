import Verif.LayerSimp

/-! # Whole steps of the default strategy, with `simplify_obc` -/

set_option linter.unusedSectionVars false
set_option linter.unusedSimpArgs false

namespace MPS.Trotter
open MPS Tensor Minim Order Props Obc

/-- distance to a vector of norm one plus the deviation of the norm from one -/
noncomputable def pot (ds : List Nat) (φ ψ : List Nat → ℂ) : ℝ := wdist ds φ ψ + |1 - wnorm ds φ|

theorem wnorm_smul (ds : List Nat) (c : ℝ) (hc : 0 ≤ c) (φ : List Nat → ℂ) : wnorm ds (fun s => (c : ℂ) * φ s) = c * wnorm ds φ := by
  unfold wnorm
  have : (sumCfg ds fun s => ‖(c : ℂ) * φ s‖ ^ 2) = c ^ 2 * sumCfg ds fun s => ‖φ s‖ ^ 2 := by
    rw [← sumCfg_mul_left]
    refine sumCfg_congr fun s _ => ?_
    rw [norm_mul, mul_pow, Complex.norm_real, Real.norm_of_nonneg hc]
  rw [this, Real.sqrt_mul (by positivity), Real.sqrt_sq hc]

/-- division by the norm does not increase the potential; nothing happens to the vector zero -/
theorem pot_normalize (ds : List Nat) {φ ψ χ : List Nat → ℂ} (h1 : wnorm ds φ ≤ 1)
    (h : ∀ s, IsCfg ds s → χ s = ((1 / wnorm ds φ : ℝ) : ℂ) * φ s) : pot ds χ ψ ≤ pot ds φ ψ ∧ wnorm ds χ ≤ 1 := by
  have n0 := wnorm_nonneg ds φ
  have e1 : wnorm ds χ = (1 / wnorm ds φ) * wnorm ds φ := by
    rw [← wnorm_smul ds _ (by positivity)]
    refine wnorm_congr ?_
    funext s
    exact h s.1 s.cfg
  have e2 : wdist ds χ φ ≤ |1 - wnorm ds φ| - |1 - wnorm ds χ| := by
    by_cases hz : wnorm ds φ = 0
    · have hzero : wnorm ds χ = 0 := by rw [e1, hz]; simp
      have := wnorm_add_le ds χ (fun s => ((-1 : ℝ) : ℂ) * φ s)
      have e3 : wnorm ds (fun s => ((-1 : ℝ) : ℂ) * φ s) = wnorm ds φ := by
        unfold wnorm
        congr 1
        exact sumCfg_congr fun s _ => by simp
      rw [e3, hz, hzero] at this
      have e4 : wdist ds χ φ = wnorm ds (fun s => χ s + ((-1 : ℝ) : ℂ) * φ s) := by
        unfold wdist
        congr 1
        funext s; push_cast; ring
      rw [e4, hz, hzero]; simpa using this
    · have hpos : 0 < wnorm ds φ := lt_of_le_of_ne n0 (Ne.symm hz)
      have hone : wnorm ds χ = 1 := by rw [e1]; field_simp
      have hc : 0 ≤ 1 / wnorm ds φ - 1 := by
        rw [sub_nonneg, le_div_iff₀ hpos]; linarith
      have e4 : wdist ds χ φ = (1 / wnorm ds φ - 1) * wnorm ds φ := by
        rw [← wnorm_smul ds _ hc]
        unfold wdist
        refine wnorm_congr ?_
        funext s
        simp only [vec]
        rw [h s.1 s.cfg]; push_cast; ring
      rw [e4, hone, abs_of_nonneg (show 0 ≤ 1 - wnorm ds φ by linarith), sub_self, abs_zero, sub_zero, sub_mul, one_mul, div_mul_cancel₀ _ hz]
  constructor
  · have := wdist_tri ds χ φ ψ
    unfold pot
    linarith
  · rw [e1]
    by_cases hz : wnorm ds φ = 0
    · rw [hz]; simp
    · rw [div_mul_cancel₀ _ hz]

theorem calls_simp {svd : Tensor ℂ → SvdRes ℂ} (hg : GoodSvd svd) (eps : ℝ) {dflt : ℝ} (hd0 : 0 < dflt) (single : Bool) (tolerance : ℝ)
    {expm : Tensor ℂ → Tensor ℂ} (he : GoodExpm expm)
    {H : Ham ℂ} {ds : List Nat} (hH : HamFits H ds) (hh : HamHermitian H ds) (hpos : 0 < ds.length) (dt : ℂ) (U : List Unitary) {D : Nat} (hD : 1 ≤ D)
    {tau : ℝ} (htau : max dflt eps ≤ tau) :
    ∀ (cs : List (Call × Nat × ℂ)),
    (∀ c ∈ cs, c.1.simplify = true ∧ c.1.counted = true ∧ (c.1.D ≤ D ∧ c.1.D ≠ 0 ∨ ds.prod ≤ D ∧ 2 ≤ ds.length) ∧ (c.1.tol < 0 ∨ 0 < c.1.tol) ∧ c.1.tol ≤ tau ∧ c.2.1 ≤ 1 ∧
      (dt * c.2.2).im = 0 ∧ mkUnitary expm H c.2.1 (dt * c.2.2) = some (U.getD c.1.which ⟨0, 0, []⟩)) →
    ∀ (x : Evo × Int) (_ : AtEnd ds x.1.P D),
    let y := (cs.map Prod.fst).foldl (runCall svd eps dflt (obcCall svd eps dflt single tolerance) U) x
    let δ := (2 * ds.length : Nat) * Real.sqrt (tau * D)
    AtEnd ds y.1.P D ∧ x.1.err ≤ y.1.err ∧
      ((∀ c ∈ cs, c.1.normalize = false) → wnorm ds (amp y.1.P) ≤ wnorm ds (amp x.1.P) ∧
        wdist ds (amp y.1.P) (layerSteps expm H ds dt (cs.map Prod.snd) (amp x.1.P)) ≤
          (cs.length * δ + (y.1.err - x.1.err)) * wnorm ds (amp x.1.P)) ∧
      (wnorm ds (amp x.1.P) ≤ 1 → wnorm ds (amp y.1.P) ≤ 1 ∧
        ∀ ψ, pot ds (amp y.1.P) (layerSteps expm H ds dt (cs.map Prod.snd) ψ) ≤ pot ds (amp x.1.P) ψ + 2 * (cs.length * δ + (y.1.err - x.1.err))) := by
  intro cs
  induction cs with
  | nil =>
    intro _ x hx
    refine ⟨hx, le_rfl, fun _ => ⟨le_rfl, ?_⟩, fun h => ⟨h, fun ψ => ?_⟩⟩
    · show wdist ds (amp x.1.P) (amp x.1.P) ≤ _
      rw [wdist_self]; simp
    · show pot ds (amp x.1.P) ψ ≤ _
      simp
  | cons c cs ih =>
    intro hcs x hx
    obtain ⟨c1, c0, c2, c3, c4, c5, c6, c7⟩ := hcs c (by simp)
    have ht : max (effTol dflt c.1.tol) (max dflt eps) ≤ tau := by
      refine max_le ?_ htau
      unfold effTol
      split
      · exact (le_max_left _ _).trans htau
      · exact c4
    obtain ⟨χ, a1, a2, a3, a4, a5⟩ := simp_call hg eps hd0 single tolerance he hH hh hpos dt c.2 c5 c6 c7 x.1 hD hx c2 c.1.tol c3 ht c.1.normalize
    intro y δ
    set r := runCall svd eps dflt (obcCall svd eps dflt single tolerance) U x c.1 with hr
    have hr' : r.1.P = (applyAndSimplify svd eps dflt (obcCall svd eps dflt single tolerance) (U.getD c.1.which ⟨0, 0, []⟩) x.1 c.1.tol c.1.D c.1.normalize).1.P := by
      rw [hr]; unfold runCall
      simp only [c1, if_true]
    have hr2 : r.1.err = (applyAndSimplify svd eps dflt (obcCall svd eps dflt single tolerance) (U.getD c.1.which ⟨0, 0, []⟩) x.1 c.1.tol c.1.D c.1.normalize).1.err := by
      rw [hr]; unfold runCall
      simp only [c1, c0, if_true]
    rw [← hr'] at a1 a5
    rw [← hr2] at a2 a4
    have hyr : y = (cs.map Prod.fst).foldl (runCall svd eps dflt (obcCall svd eps dflt single tolerance) U) r := rfl
    obtain ⟨b1, b2, b3, b4⟩ := ih (fun c hc => hcs c (by simp [hc])) r a1
    rw [← hyr] at b1 b2 b3 b4
    have hreal : ∀ l ∈ cs.map Prod.snd, (dt * l.2).im = 0 := by
      intro l hl
      obtain ⟨c', m, rfl⟩ := List.mem_map.1 hl
      exact (hcs c' (by simp [m])).2.2.2.2.2.2.1
    have e : ∀ φ, layerSteps expm H ds dt ((c :: cs).map Prod.snd) φ = layerSteps expm H ds dt (cs.map Prod.snd) (layerStep expm H ds dt φ c.2) := fun _ => rfl
    have hl1 : ∀ φ χ, wdist ds (layerStep expm H ds dt φ c.2) (layerStep expm H ds dt χ c.2) = wdist ds φ χ :=
      fun φ χ => layerSteps_dist he hH hh dt [c.2] (by simpa using c6) φ χ
    have hl2 : ∀ φ, wnorm ds (layerStep expm H ds dt φ c.2) = wnorm ds φ :=
      fun φ => wnorm_of_inner (layerSteps_norm he hH hh dt [c.2] (by simpa using c6) φ)
    have δ0 : 0 ≤ δ := mul_nonneg (Nat.cast_nonneg _) (Real.sqrt_nonneg _)
    have w0 := wnorm_nonneg ds (amp x.1.P)
    have hlen : (((c :: cs).length : Nat) : ℝ) = cs.length + 1 := by simp
    refine ⟨b1, a2.trans b2, fun hn => ?_, fun h1 => ?_⟩
    · have hrχ : ∀ s, IsCfg ds s → amp r.1.P s = χ s := by
        rcases a5 with h | ⟨h, -⟩
        · exact h
        · rw [hn c (by simp)] at h; cases h
      have e3 : wnorm ds (amp r.1.P) = wnorm ds χ := wnorm_congr (by funext s; exact hrχ s.1 s.cfg)
      obtain ⟨d1, d2⟩ := b3 fun c hc => hn c (by simp [hc])
      rw [e3] at d1 d2
      refine ⟨d1.trans a3, ?_⟩
      rw [e]
      have t := wdist_tri ds (amp y.1.P) (layerSteps expm H ds dt (cs.map Prod.snd) (amp r.1.P))
        (layerSteps expm H ds dt (cs.map Prod.snd) (layerStep expm H ds dt (amp x.1.P) c.2))
      rw [layerSteps_dist he hH hh dt _ hreal, wdist_congr hrχ fun _ _ => rfl] at t
      have q : 0 ≤ (cs.length : ℝ) * δ + (y.1.err - r.1.err) := by
        have := mul_nonneg (Nat.cast_nonneg (α := ℝ) cs.length) δ0
        linarith
      have q2 := mul_le_mul_of_nonneg_left a3 q
      rw [hlen]
      refine t.trans ((add_le_add (d2.trans q2) a4).trans (le_of_eq ?_))
      ring
    · have hχ1 : wnorm ds χ ≤ 1 := a3.trans h1
      have hstep : ∀ ψ, pot ds (amp r.1.P) ψ ≤ pot ds χ ψ ∧ wnorm ds (amp r.1.P) ≤ 1 := by
        intro ψ
        rcases a5 with h | ⟨-, h⟩
        · have e3 : wnorm ds (amp r.1.P) = wnorm ds χ := wnorm_congr (by funext s; exact h s.1 s.cfg)
          unfold pot
          rw [e3, wdist_congr h fun _ _ => rfl]
          exact ⟨le_rfl, hχ1⟩
        · exact pot_normalize ds hχ1 h
      obtain ⟨d1, d2⟩ := b4 (hstep χ).2
      refine ⟨d1, fun ψ => ?_⟩
      rw [e]
      refine (d2 _).trans ?_
      have s1 := (hstep (layerStep expm H ds dt ψ c.2)).1
      have s2 := wdist_tri ds χ (layerStep expm H ds dt (amp x.1.P) c.2) (layerStep expm H ds dt ψ c.2)
      rw [hl1] at s2
      have s3 := wdist_norm ds χ (layerStep expm H ds dt (amp x.1.P) c.2)
      rw [hl2] at s3
      have s4 : |1 - wnorm ds χ| ≤ |1 - wnorm ds (amp x.1.P)| + wdist ds χ (layerStep expm H ds dt (amp x.1.P) c.2) := by
        have := abs_sub_le (1 : ℝ) (wnorm ds (amp x.1.P)) (wnorm ds χ)
        rw [abs_sub_comm (wnorm ds (amp x.1.P))] at this
        linarith
      have q : 0 ≤ δ + (r.1.err - x.1.err) := by linarith
      have s5 : wdist ds χ (layerStep expm H ds dt (amp x.1.P) c.2) ≤ δ + (r.1.err - x.1.err) :=
        a4.trans ((mul_le_mul_of_nonneg_left h1 q).trans (le_of_eq (mul_one _)))
      have e6 : ((c :: cs).length : ℝ) * δ = cs.length * δ + δ := by rw [hlen]; ring
      rw [e6]
      unfold pot at *
      linarith

end MPS.Trotter
