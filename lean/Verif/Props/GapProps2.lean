import Verif.Props.GapProps
import Verif.Props.ConstraintProps
import Verif.Props.MinimizerProps4

/-!
# C141: `compute_gap` and the constraint of `minimize`
-/

set_option linter.unusedSectionVars false
set_option linter.unusedSimpArgs false

namespace MPS.Props
open MPS Tensor Form Minim
variable {K : Type} [RCLike K]

theorem canonLoopLeft_length (svd : Tensor K → SvdRes K) (eps dflt : ℝ) (k i : Nat) (x : List (Tensor K) × ℝ) :
    (canonLoopLeft svd eps dflt k i x).1.length = x.1.length := by
  induction i generalizing x with
  | zero => rfl
  | succ i ih =>
    rw [canonLoopLeft]
    split_ifs
    · rw [ih]; exact setCanonical_length _ _ _ _ _ _ _ _
    · rfl

theorem canonicalForm_left_length (svd : Tensor K → SvdRes K) (eps dflt : ℝ) (ψ : List (Tensor K)) :
    (canonicalForm svd eps dflt ψ (-1)).1.length = ψ.length := by
  unfold canonicalForm canonicalFormAt eitherForm
  simp [canonLoopRight, canonLoopLeft_length]

theorem two_step_off (svd : Tensor K → SvdRes K) (eps dflt : ℝ) (eigs : Eigs K) (eigs2 : Eigs2 K) (o : Opts) (m : Minz K)
    (h : m.site ≠ m.psi.length / 2) : twoSiteStepG svd eps dflt eigs eigs2 true o m = twoSiteStep svd eps dflt eigs o m := by
  have hs : ∀ vs P, twoSiteSolveG eigs eigs2 true m vs P = twoSiteSolve eigs m vs P := by
    intro vs P
    unfold twoSiteSolveG twoSiteSolve
    rcases hN : m.N with _ | ⟨N, v⟩
    · simp [h]
    · rcases ht : N.twoDiag m.step with _ | aux
      · simp [h, ht]
      · by_cases h0 : (subspaceOf aux v).length = 0
        · have h0' : subspaceOf aux v = [] := List.length_eq_zero_iff.1 h0
          simp [h, ht, h0']
        · have h0' : subspaceOf aux v ≠ [] := fun hh => h0 (by simp [hh])
          simp [h, ht, h0']
  unfold twoSiteStepG twoSiteStep
  simp only [hs]
  rfl

theorem two_step_shape (svd : Tensor K → SvdRes K) (eps dflt : ℝ) (eigs : Eigs K) (o : Opts) {m : Minz K} {r : Minz K × ℝ}
    (h : twoSiteStep svd eps dflt eigs o m = some r) : r.1.psi.length = m.psi.length ∧ r.1.N.isSome = m.N.isSome ∧ r.1.step = m.step := by
  unfold twoSiteStep at h
  obtain ⟨vs, -, h⟩ := Option.bind_eq_some_iff.1 h
  split_ifs at h <;>
  · obtain ⟨s, -, h⟩ := Option.bind_eq_some_iff.1 h
    rcases s with _ | ⟨P, E, ok⟩
    · simp only [Option.some.injEq] at h
      rw [← h]
      exact ⟨rfl, rfl, rfl⟩
    · simp only at h
      split_ifs at h
      · obtain ⟨c, hc, rfl⟩ := Option.map_eq_some_iff.1 h
        refine ⟨?_, by simp [propagate], rfl⟩
        show c.1.length = _
        unfold setCanonical2 at hc
        simp only [Bool.false_eq_true, if_false] at hc
        split_ifs at hc <;>
        · simp only [Option.some.injEq] at hc
          rw [← hc]
          simp
      · simp only [Option.some.injEq] at h
        rw [← h]
        exact ⟨rfl, by simp [propagate], rfl⟩

theorem two_step_stops (svd : Tensor K → SvdRes K) (eps dflt : ℝ) (eigs : Eigs K) {eigs2 : Eigs2 K} (h2 : ∀ A n P, eigs2 A n P = some false)
    (o : Opts) {m : Minz K} (hm : m.site = m.psi.length / 2) (hN : m.N.isSome) {r : Minz K × ℝ}
    (h : twoSiteStep svd eps dflt eigs o m = some r) : ∃ r', twoSiteStepG svd eps dflt eigs eigs2 true o m = some r' ∧ r'.1.converged = false := by
  obtain ⟨⟨N, v⟩, hN⟩ := Option.isSome_iff_exists.1 hN
  unfold twoSiteStep at h
  unfold twoSiteStepG
  obtain ⟨vs, hv, h⟩ := Option.bind_eq_some_iff.1 h
  simp only [hv, Option.bind_some]
  split_ifs at h ⊢ with c1 c2
  all_goals
    obtain ⟨s, hs, -⟩ := Option.bind_eq_some_iff.1 h
    unfold twoSiteSolve at hs
    unfold twoSiteSolveG
    simp only [hN] at hs ⊢
    obtain ⟨aux, ha, -⟩ := Option.map_eq_some_iff.1 hs
    have hmT : m.site = m.psi.length / 2 ∧ True := ⟨hm, trivial⟩
    simp only [if_pos hmT, h2, Option.bind_some, ha]
    by_cases h0 : (subspaceOf aux v).length = 0
    · simp only [if_pos h0, Option.bind_some]
      exact ⟨_, rfl, rfl⟩
    · simp only [if_neg h0, Option.bind_some, Bool.false_eq_true, if_false]
      refine ⟨_, rfl, ?_⟩; simp [propagate]

/-- the sweep to the right ends at the site in the middle if the additional call does not converge there -/
theorem two_right_stops (svd : Tensor K → SvdRes K) (eps dflt : ℝ) (eigs : Eigs K) {eigs2 : Eigs2 K} (h2 : ∀ A n P, eigs2 A n P = some false) (o : Opts)
    (fuel k : Nat) (m : Minz K) (E : ℝ) (hk : k ≤ m.psi.length / 2) (hf : m.psi.length / 2 < k + fuel) (hN : m.N.isSome)
    (h : (twoRight svd eps dflt eigs o fuel k m E).isSome) :
    ∃ r, twoRightG svd eps dflt eigs eigs2 true o fuel k m E = some r ∧ r.1.converged = false := by
  induction fuel generalizing k m E with
  | zero => omega
  | succ fuel ih =>
    rw [twoRight] at h
    rw [twoRightG]
    by_cases hm : m.converged = true
    · rw [if_pos hm] at h ⊢
      cases hs : twoSiteStep svd eps dflt eigs o { m with site := k } with
      | none => rw [hs] at h; exact absurd h (by simp)
      | some r =>
        rw [hs, Option.bind_some] at h
        by_cases hmid : k = m.psi.length / 2
        · obtain ⟨z, z1, z2⟩ := two_step_stops svd eps dflt eigs h2 o (m := { m with site := k }) hmid hN hs
          rw [z1, Option.bind_some]
          cases fuel <;> rw [twoRightG] <;> simp [z2]
        · obtain ⟨l1, l2, -⟩ := two_step_shape svd eps dflt eigs o hs
          simp only at l1 l2
          rw [two_step_off svd eps dflt eigs eigs2 o { m with site := k } hmid, hs, Option.bind_some]
          exact ih (k + 1) r.1 r.2 (by omega) (by omega) (by rw [l2]; exact hN) h
    · rw [if_neg hm] at h ⊢
      exact ⟨_, rfl, by simpa using hm⟩

/-- **C141** is violated by the two-site algorithm with a constraint: the additional call in the subspace of the constraint writes `converged`, too.  If
that call does not converge, the empty state is returned whatever `minimize` does with the option off (on a chain of two sites the site in the middle
is reached by the second sweep only). -/
theorem C141_constrained_violated (svd : Tensor K → SvdRes K) (eps dflt : ℝ) (eigs : Eigs K) {eigs2 : Eigs2 K} (h2 : ∀ A n P, eigs2 A n P = some false)
    {H ψ : List (Tensor K)} (hψ : 2 ≤ ψ.length) (o : Opts) (hD : 0 < o.Dmax) (hs : 2 ≤ o.sweeps) (constraint : List (Tensor K)) (value : K)
    (other : List (List (Tensor K))) {out : Out K} (h : minimizeConstrained svd eps dflt eigs H ψ o constraint value other = some out) :
    ∃ out', minimizeConstrainedG svd eps dflt eigs eigs2 true H ψ o constraint value other = some out' ∧ out'.psi = [] := by
  unfold minimizeConstrained at h
  unfold minimizeConstrainedG
  obtain ⟨m0, hm0, h⟩ := Option.bind_eq_some_iff.1 h
  obtain ⟨N, hN, h⟩ := Option.bind_eq_some_iff.1 h
  rw [hm0, Option.bind_some, hN, Option.bind_some]
  have h0 : 2 ≤ m0.psi.length ∧ m0.step = 1 ∧ m0.converged = true := by
    unfold Minz.new at hm0
    obtain ⟨f, -, rfl⟩ := Option.map_eq_some_iff.1 hm0
    exact ⟨(canonicalForm_left_length svd eps dflt ψ).symm ▸ hψ, rfl, rfl⟩
  obtain ⟨l0, s0, c0⟩ := h0
  generalize hm : ({ m0 with N := some (N, value), ortho := (other.map fun φ => LForm.new [1] [φ] m0.psi 0).reverse } : Minz K) = m at h ⊢
  have hl2 : 2 ≤ m.psi.length := by rw [← hm]; exact l0
  have hst : m.step = 1 := by rw [← hm]; exact s0
  have hc : m.converged = true := by rw [← hm]; exact c0
  have hNs : m.N.isSome = true := by rw [← hm]; rfl
  clear hm hm0 hN
  obtain ⟨n, hn⟩ : ∃ n, o.sweeps = n + 2 := ⟨o.sweeps - 2, by omega⟩
  have hD0 : ¬ o.Dmax = 0 := by omega
  unfold fullSweep at h
  unfold fullSweepG
  rw [if_neg hD0, hn] at h ⊢
  rw [sweepLoop] at h ⊢
  obtain ⟨r1, hr1, h⟩ := Option.bind_eq_some_iff.1 h
  rcases Nat.lt_or_ge 2 m.psi.length with hl3 | hle
  · -- the first sweep comes to the site in the middle
    unfold twoSweep at hr1
    rw [if_neg (by omega), if_pos (by rw [hst]; decide), if_pos (by rw [hst]; decide)] at hr1
    obtain ⟨x, hx, -⟩ := Option.map_eq_some_iff.1 hr1
    obtain ⟨z, z1, z2⟩ := two_right_stops svd eps dflt eigs h2 o (m.psi.length - 1) 0 m 0 (by omega) (by omega) hNs (by rw [hx]; rfl)
    have hsw : twoSweepG svd eps dflt eigs eigs2 true o m = some ({ z.1 with step := -1 }, z.2) := by
      unfold twoSweepG
      rw [if_neg (by omega), if_pos (by rw [hst]; decide), if_pos (by rw [hst]; decide), z1]
      rfl
    rw [hsw, Option.bind_some]
    simp only
    rw [if_pos z2]
    exact ⟨_, rfl, rfl⟩
  -- the first sweep visits only the first site
  have hl : m.psi.length = 2 := by omega
  unfold twoSweep at hr1
  rw [if_neg (by omega), if_pos (by rw [hst]; decide), if_pos (by rw [hst]; decide), hl] at hr1
  obtain ⟨x, hx, hx'⟩ := Option.map_eq_some_iff.1 hr1
  rw [show 2 - 1 = 0 + 1 from rfl, twoRight, if_pos hc] at hx
  obtain ⟨y, hy, hx⟩ := Option.bind_eq_some_iff.1 hx
  rw [twoRight, Option.some.injEq] at hx
  have hyx : y = x := hx
  subst hyx
  obtain ⟨y1, y2, y3⟩ := two_step_shape svd eps dflt eigs o hy
  have hyG : twoSiteStepG svd eps dflt eigs eigs2 true o { m with site := 0 } = some y := by
    rw [two_step_off svd eps dflt eigs eigs2 o { m with site := 0 } (by show 0 ≠ m.psi.length / 2; omega)]
    exact hy
  have hsw : twoSweepG svd eps dflt eigs eigs2 true o m = some r1 := by
    unfold twoSweepG
    rw [if_neg (by omega), if_pos (by rw [hst]; decide), if_pos (by rw [hst]; decide), hl, show 2 - 1 = 0 + 1 from rfl, twoRightG, if_pos hc, hyG,
      Option.bind_some, twoRightG, ← hx']
    rfl
  rw [hsw, Option.bind_some]
  simp only at h ⊢
  by_cases hc1 : r1.1.converged = false
  · rw [if_pos hc1]
    exact ⟨_, rfl, rfl⟩
  · rw [if_neg hc1, if_neg (by simp), if_neg (by simp)] at h ⊢
    rw [sweepLoop] at h ⊢
    obtain ⟨r2, hr2, -⟩ := Option.bind_eq_some_iff.1 h
    have e1 : r1.1.psi.length = 2 := by rw [← hx']; exact y1.trans hl
    have e2 : r1.1.step = -1 := by rw [← hx']
    have e3 : r1.1.N.isSome = true := by rw [← hx']; exact y2.trans hNs
    have e4 : r1.1.converged = true := by simpa using hc1
    have hstep : ¬ r1.1.step > 0 := by rw [e2]; decide
    unfold twoSweep at hr2
    rw [if_neg (by omega), if_neg hstep, if_neg hstep, e1] at hr2
    obtain ⟨x2, hx2, -⟩ := Option.map_eq_some_iff.1 hr2
    rw [show 2 - 1 = 0 + 1 from rfl, twoLeft, if_pos e4] at hx2
    obtain ⟨y2, hy2, -⟩ := Option.bind_eq_some_iff.1 hx2
    obtain ⟨z, z1, z2⟩ := two_step_stops svd eps dflt eigs h2 o (m := { r1.1 with site := 0 + 1 }) (by show 0 + 1 = r1.1.psi.length / 2; omega) e3 hy2
    have hswL : ∃ z', twoSweepG svd eps dflt eigs eigs2 true o r1.1 = some z' ∧ z'.1.converged = false := by
      refine ⟨({ z.1 with step := 1 }, z.2), ?_, z2⟩
      unfold twoSweepG
      rw [if_neg (by omega), if_neg hstep, if_neg hstep, e1, show 2 - 1 = 0 + 1 from rfl, twoLeftG, if_pos e4, z1, Option.bind_some, twoLeftG]
      rfl
    obtain ⟨z', w1, w2⟩ := hswL
    rw [w1, Option.bind_some]
    simp only
    rw [if_pos w2]
    exact ⟨_, rfl, rfl⟩

/-- The hypotheses of `C141_constrained_violated` are met: with the constraint of `C116_example` the program finds the energy `-1` with the option
off, and returns the empty state with it on. -/
theorem C141_constrained_example {svd : Tensor ℝ → SvdRes ℝ} (hg : GoodSvd svd) (eps dflt : ℝ) (hdflt : 0 < dflt) {eigs : Eigs ℝ} (he : GoodEigs eigs)
    (hsol : ∀ A n P, (eigs A n P).ok = true) (o : Opts) (hD : 0 < o.Dmax) (hs : 2 ≤ o.sweeps) :
    (∃ out, minimizeConstrained svd eps dflt eigs bellH zeroState o bellH (-1) [] = some out ∧ out.converged = true ∧ out.E = -1) ∧
    ∃ out, minimizeConstrainedG svd eps dflt eigs (fun _ _ _ => some false) true bellH zeroState o bellH (-1) [] = some out ∧ out.psi = [] := by
  obtain ⟨out, h1, h3⟩ := (C116_example hg eps dflt hdflt he hsol o hD (by omega)).1
  exact ⟨⟨out, h1, h3⟩, C141_constrained_violated svd eps dflt eigs (fun _ _ _ => rfl) (by simp [zeroState]) o hD hs bellH (-1) [] h1⟩

/-- **C141** is violated by the single-site algorithm with a constraint and with states to be orthogonal to, as without them (`C141_lost_violated`):
whatever `minimize` returns with the option off, the empty state is returned with it on if the additional call does not converge. -/
theorem C141_lost_constrained_violated (svd : Tensor K → SvdRes K) (eps dflt : ℝ) (eigs : Eigs K) {eigs2 : Eigs2 K}
    (h2 : ∀ A n P, eigs2 A n P = some false) {H ψ : List (Tensor K)} (hψ : 0 < ψ.length) (o : Opts) (hD : o.Dmax = 0) (hs : 0 < o.sweeps)
    (constraint : List (Tensor K)) (value : K) (other : List (List (Tensor K))) {out : Out K}
    (h : minimizeConstrained svd eps dflt eigs H ψ o constraint value other = some out) :
    ∃ out', minimizeConstrainedG svd eps dflt eigs eigs2 true H ψ o constraint value other = some out' ∧ out'.psi = [] := by
  unfold minimizeConstrained at h
  unfold minimizeConstrainedG
  obtain ⟨m0, hm0, h⟩ := Option.bind_eq_some_iff.1 h
  obtain ⟨N, hN, h⟩ := Option.bind_eq_some_iff.1 h
  rw [hm0, Option.bind_some, hN, Option.bind_some]
  have h0 : 0 < m0.psi.length ∧ m0.step = 1 := by
    unfold Minz.new at hm0
    obtain ⟨f, -, rfl⟩ := Option.map_eq_some_iff.1 hm0
    exact ⟨(canonicalForm_left_length svd eps dflt ψ).symm ▸ hψ, rfl⟩
  obtain ⟨l0, s0⟩ := h0
  generalize hm : ({ m0 with N := some (N, value), ortho := (other.map fun φ => LForm.new [1] [φ] m0.psi 0).reverse } : Minz K) = m at h ⊢
  have hl : 0 < m.psi.length := by rw [← hm]; exact l0
  have hst : m.step = 1 := by rw [← hm]; exact s0
  clear hm hm0 hN
  have hstep : m.step > 0 := by rw [hst]; decide
  obtain ⟨n, hn⟩ : ∃ n, o.sweeps = n + 1 := ⟨o.sweeps - 1, by omega⟩
  unfold fullSweep at h
  unfold fullSweepG
  rw [if_pos hD, hn] at h ⊢
  rw [sweepLoop] at h ⊢
  obtain ⟨r1, hr1, -⟩ := Option.bind_eq_some_iff.1 h
  unfold singleSweep at hr1
  obtain ⟨x, hx, -⟩ := Option.map_eq_some_iff.1 hr1
  rw [if_pos hstep] at hx
  obtain ⟨z, z1, z2⟩ := right_stops svd eps dflt eigs h2 m.psi.length 0 m 0 (by omega) (by omega) (by rw [hx]; rfl)
  have hsw : singleSweepG svd eps dflt eigs eigs2 true m = some ({ z.1 with step := -1 }, z.2) := by
    unfold singleSweepG
    rw [if_pos hstep, if_pos hstep, z1]
    rfl
  rw [hsw, Option.bind_some]
  simp only
  rw [if_pos z2]
  exact ⟨_, rfl, rfl⟩

/-- The hypotheses of `C141_lost_constrained_violated` are met by the chain of `C79_ignored_example`. -/
theorem C141_lost_constrained_example {svd : Tensor ℝ → SvdRes ℝ} (hg : GoodSvd svd) (eps dflt : ℝ) (hdflt : 0 < dflt) {eigs : Eigs ℝ} (he : GoodEigs eigs)
    (hsol : ∀ A n P, (eigs A n P).ok = true) (o : Opts) (hD : o.Dmax = 0) (hs : 0 < o.sweeps) (value : ℝ) :
    (∃ out, minimizeConstrained svd eps dflt eigs bellH zeroState o bellH value [] = some out ∧ normSq [2, 2] out.psi = 1) ∧
    ∃ out, minimizeConstrainedG svd eps dflt eigs (fun _ _ _ => some false) true bellH zeroState o bellH value [] = some out ∧ out.psi = [] := by
  obtain ⟨out, h1, h3⟩ := C79_ignored_example hg eps dflt hdflt he hsol o hD value
  obtain ⟨out', k1, -, k2, -⟩ := C77_example hg eps dflt hdflt he hsol o hD hs
  obtain rfl : out' = out := by rw [h3] at k1; exact (Option.some.inj k1).symm
  exact ⟨⟨out', h1, k2⟩, C141_lost_constrained_violated svd eps dflt eigs (fun _ _ _ => rfl) (by simp [zeroState]) o hD hs bellH value [] h1⟩

end MPS.Props
