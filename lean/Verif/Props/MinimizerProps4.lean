import Verif.Props.MinimizerProps2

/-!
# C79: the constraint of `minimize(H, &psi, opt, constraint, value)` is ignored by the single-site algorithm
-/

set_option linter.unusedSectionVars false
set_option linter.unusedSimpArgs false

namespace MPS.Props
open MPS Tensor Form Minim
variable {K : Type} [RCLike K]

/-- the object without the constraint -/
def bare (m : Minz K) : Minz K := { m with N := none }

theorem bare_step (svd : Tensor K → SvdRes K) (eps dflt : ℝ) (eigs : Eigs K) (m : Minz K) :
    singleSiteStep svd eps dflt eigs (bare m) = (singleSiteStep svd eps dflt eigs m).map fun r => (bare r.1, r.2) := by
  unfold singleSiteStep
  have e : projectors (bare m) 0 = projectors m 0 := rfl
  rw [e]
  cases projectors m 0 with
  | none => rfl
  | some vs =>
    simp only [Option.bind_some]
    by_cases h1 : (m.H.applyOneSite (site m.psi m.site)).isEmpty = true
    · rw [if_pos (show ((bare m).H.applyOneSite (site (bare m).psi (bare m).site)).isEmpty = true from h1), if_pos h1]; rfl
    · rw [if_neg (show ¬ ((bare m).H.applyOneSite (site (bare m).psi (bare m).site)).isEmpty = true from h1), if_neg h1]
      by_cases h2 : (eigs (applyQform1 (site m.psi m.site).dims m.H vs) (site m.psi m.site).size
        (reshape (site m.psi m.site) [(site m.psi m.site).size])).ok = true
      · rw [if_pos (show (eigs (applyQform1 (site (bare m).psi (bare m).site).dims (bare m).H vs) (site (bare m).psi (bare m).site).size
          (reshape (site (bare m).psi (bare m).site) [(site (bare m).psi (bare m).site).size])).ok = true from h2), if_pos h2]; rfl
      · rw [if_neg (show ¬ (eigs (applyQform1 (site (bare m).psi (bare m).site).dims (bare m).H vs) (site (bare m).psi (bare m).site).size
          (reshape (site (bare m).psi (bare m).site) [(site (bare m).psi (bare m).site).size])).ok = true from h2), if_neg h2]; rfl

theorem bare_right (svd : Tensor K → SvdRes K) (eps dflt : ℝ) (eigs : Eigs K) (fuel k : Nat) (m : Minz K) (E : ℝ) :
    singleRight svd eps dflt eigs fuel k (bare m) E = (singleRight svd eps dflt eigs fuel k m E).map fun r => (bare r.1, r.2) := by
  induction fuel generalizing k m E with
  | zero => rfl
  | succ fuel ih =>
    rw [singleRight, singleRight]
    have e : ({ bare m with site := k } : Minz K) = bare { m with site := k } := rfl
    by_cases h : m.converged = true
    · rw [if_pos h, if_pos (show (bare m).converged = true from h), e, bare_step]
      cases singleSiteStep svd eps dflt eigs { m with site := k } with
      | none => rfl
      | some r => simp only [Option.map_some, Option.bind_some]; exact ih _ _ _
    · rw [if_neg h, if_neg (show ¬ (bare m).converged = true from h)]; rfl

theorem bare_left (svd : Tensor K → SvdRes K) (eps dflt : ℝ) (eigs : Eigs K) (k : Nat) (m : Minz K) (E : ℝ) :
    singleLeft svd eps dflt eigs k (bare m) E = (singleLeft svd eps dflt eigs k m E).map fun r => (bare r.1, r.2) := by
  induction k generalizing m E with
  | zero => rfl
  | succ k ih =>
    rw [singleLeft, singleLeft]
    have e : ({ bare m with site := k } : Minz K) = bare { m with site := k } := rfl
    by_cases h : m.converged = true
    · rw [if_pos h, if_pos (show (bare m).converged = true from h), e, bare_step]
      cases singleSiteStep svd eps dflt eigs { m with site := k } with
      | none => rfl
      | some r => simp only [Option.map_some, Option.bind_some]; exact ih _ _
    · rw [if_neg h, if_neg (show ¬ (bare m).converged = true from h)]; rfl

theorem bare_sweep (svd : Tensor K → SvdRes K) (eps dflt : ℝ) (eigs : Eigs K) (m : Minz K) :
    singleSweep svd eps dflt eigs (bare m) = (singleSweep svd eps dflt eigs m).map fun r => (bare r.1, r.2) := by
  unfold singleSweep
  have e1 : (bare m).step = m.step := rfl
  have e2 : (bare m).psi = m.psi := rfl
  rw [e1, e2, bare_right, bare_left]
  split_ifs <;> simp [Option.map_map, Function.comp_def, bare]

theorem bare_loop (svd : Tensor K → SvdRes K) (eps dflt : ℝ) (eigs : Eigs K) (o : Opts) (fuel i : Nat) (failures : Int) (E : ℝ) (m : Minz K) (es : List ℝ) :
    sweepLoop (singleSweep svd eps dflt eigs) o fuel i failures E (bare m) es = sweepLoop (singleSweep svd eps dflt eigs) o fuel i failures E m es := by
  induction fuel generalizing i failures E m es with
  | zero => rfl
  | succ fuel ih =>
    rw [sweepLoop, sweepLoop, bare_sweep]
    cases singleSweep svd eps dflt eigs m with
    | none => rfl
    | some r =>
      simp only [Option.map_some, Option.bind_some, ih]
      rfl

/-- **C79** is violated by the single-site algorithm: with `opt.Dmax = 0` the constraint and its value make no difference. -/
theorem C79_ignored_violated (svd : Tensor K → SvdRes K) (eps dflt : ℝ) (eigs : Eigs K) (H ψ : List (Tensor K)) (o : Opts) (hD : o.Dmax = 0)
    (constraint : List (Tensor K)) (value : K) {out : Out K}
    (h : minimizeConstrained svd eps dflt eigs H ψ o constraint value [] = some out) : minimize svd eps dflt eigs H ψ o = some out := by
  unfold minimizeConstrained at h
  unfold minimize
  cases hm : Minz.new svd eps dflt H ψ with
  | none => rw [hm] at h; exact absurd h (by simp)
  | some m =>
    rw [hm, Option.bind_some] at h
    obtain ⟨N, -, h2⟩ := Option.bind_eq_some_iff.1 h
    rw [Option.bind_some]
    unfold fullSweep at h2 ⊢
    rw [if_pos hD] at h2 ⊢
    rw [← bare_loop] at h2
    have e : bare m = m := by
      unfold Minz.new at hm
      obtain ⟨f, -, rfl⟩ := Option.map_eq_some_iff.1 hm
      rfl
    have e2 : m.ortho = [] := by
      unfold Minz.new at hm
      obtain ⟨f, -, rfl⟩ := Option.map_eq_some_iff.1 hm
      rfl
    have : bare { m with N := some (N, value), ortho := (([] : List (List (Tensor K))).map fun φ => LForm.new [1] [φ] m.psi 0).reverse } = m := by
      conv_rhs => rw [← e]
      simp [bare, e2]
    rw [← this]
    exact h2

/-- The hypothesis of the previous theorem is met, with the Hamiltonian as constraint and any number as its value, even one which is
not among its eigenvalues `-3`, `-1`: the state returned is the one found without the constraint. -/
theorem C79_ignored_example {svd : Tensor ℝ → SvdRes ℝ} (hg : GoodSvd svd) (eps dflt : ℝ) (hdflt : 0 < dflt) {eigs : Eigs ℝ} (he : GoodEigs eigs)
    (hsol : ∀ A n P, (eigs A n P).ok = true) (o : Opts) (hD : o.Dmax = 0) (value : ℝ) :
    ∃ out, minimizeConstrained svd eps dflt eigs bellH zeroState o bellH value [] = some out ∧ minimize svd eps dflt eigs bellH zeroState o = some out := by
  obtain ⟨out, h1, h2⟩ := C77_returns hg eps dflt he hsol bellH_wf bellH_hermitian bellH_nonzero zeroState_wf (by simp) (Or.inl hdflt) o hD
  have key : minimizeConstrained svd eps dflt eigs bellH zeroState o bellH value [] = some out := by
    unfold minimize at h1
    unfold minimizeConstrained
    obtain ⟨m, m1, m2, m3, m4, m5, m6, m7, m8⟩ := new_spec hg eps dflt bellH_wf zeroState_wf (by simp) (Or.inl hdflt)
    rw [m1, Option.bind_some] at h1 ⊢
    obtain ⟨f, f1, -⟩ := QGood.new (start := 0) bellH_wf m2.wf m2.wf (by simp)
    refine Option.bind_eq_some_iff.2 ⟨f, by convert f1, ?_⟩
    unfold fullSweep at h1 ⊢
    rw [if_pos hD] at h1 ⊢
    rw [← bare_loop]
    rw [← bare_loop] at h1
    rw [← h1]
    congr 1
    simp [bare, m3]
  exact ⟨out, key, C79_ignored_violated svd eps dflt eigs _ _ o hD _ _ key⟩

end MPS.Props
