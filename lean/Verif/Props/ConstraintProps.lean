import Verif.ConstraintLemmas5
import Verif.Props.MinimizerProps4

/-!
# C116: the two-site algorithm of `minimize(H, &psi, opt, constraint, value)`
-/

set_option linter.unusedSectionVars false
set_option linter.unusedSimpArgs false

namespace MPS.Props
open MPS Tensor Form Minim
variable {K : Type} [RCLike K]

/-- the run of `minimizeConstrained` without states to be orthogonal to -/
theorem constrained_start {svd : Tensor K → SvdRes K} (hg : GoodSvd svd) (eps dflt : ℝ) (eigs : Eigs K)
    {ds : List Nat} {H N ψ : List (Tensor K)} (hH : WFO 1 H ds 1) (hN : WFO 1 N ds 1) (hw : WF 1 ψ ds 1) (hd : 0 < ds.length)
    (ht : TolOk dflt ds ψ) (o : Opts) (v : K) :
    ∃ m : Minz K, minimizeConstrained svd eps dflt eigs H ψ o N v [] = fullSweep svd eps dflt eigs o m ∧
      Cent ds H m (endOf ds.length m.step) ∧ m.ortho = [] ∧ NGood ds N v m (endOf ds.length m.step) ∧ m.converged = true ∧ m.step = 1 ∧
      m.psi = (canonicalForm svd eps dflt ψ (-1)).1 := by
  classical
  obtain ⟨m, m1, m2, m3, m4, m5, m6, m7, m8⟩ := new_spec hg eps dflt hH hw hd ht
  obtain ⟨f, f1, f2⟩ := QGood.new (start := 0) hN m2.wf m2.wf hd
  have hl := m2.wf.length
  refine ⟨{ m with N := some (f, v), ortho := [] }, ?_, ?_, rfl, ?_, m6, m5, m7⟩
  · unfold minimizeConstrained
    rw [m1, Option.bind_some]
    rw [show QForm.new N m.psi m.psi 0 = some f by convert f1, Option.bind_some]
    rfl
  · have : endOf ds.length m.step = 0 := by simp [m5, endOf]
    rw [this]
    exact ⟨m2.lt, m2.wf, m2.q, m2.lo, m2.hi⟩
  · have : endOf ds.length m.step = 0 := by simp [m5, endOf]
    rw [this]
    refine ⟨f, rfl, ?_⟩
    have e : (m.psi.zip m.psi) = m.psi.map dup := by
      induction m.psi with
      | nil => rfl
      | cons x l ih => simp [dup, ih]
    rw [e] at f2
    simpa using f2

/-- **C116.**  The two-site algorithm (`opt.Dmax > 0`) with a constraint, if it succeeds and at least one sweep is allowed: no bond of
the state returned is larger than `Dmax`.  There is a pair of sites at one end of the chain such that the number returned is exactly the
energy of a normalised state `φ`, at a distance of the state returned given by the weight of the singular values dropped by the last
splitting, and `φ` is a combination of those block states in which the expected value of the constraint is `v` up to `1e-6`.  The block
states are orthonormal, and no combination of those allowed has a lower energy. -/
theorem C116_two_site {svd : Tensor K → SvdRes K} (hg : GoodSvd svd) (eps dflt : ℝ) {eigs : Eigs K} (he : GoodEigs eigs)
    {ds : List Nat} {H N ψ : List (Tensor K)} (hH : WFO 1 H ds 1) (hherm : Hermitian ds H) (hN : WFO 1 N ds 1) (hw : WF 1 ψ ds 1)
    (hd : 0 < ds.length) (ht : TolOk dflt ds ψ) (o : Opts) (hD : 0 < o.Dmax) (hs : 0 < o.sweeps) (v : K) {out : Out K}
    (h : minimizeConstrained svd eps dflt eigs H ψ o N v [] = some out) (hok : out.converged = true) :
    WF 1 out.psi ds 1 ∧ (∀ j, j + 1 < ds.length → (site out.psi j).dim 2 ≤ o.Dmax) ∧ 2 ≤ ds.length ∧
    ∃ p, (p = 0 ∨ p + 2 = ds.length) ∧
      (∃ φ c, WF 1 φ ds 1 ∧ normSq ds φ = 1 ∧ expect ds φ H φ = (out.E : K) ∧ distSq ds φ out.psi = out.lost ∧
        IsCombination ds out.psi p c φ ∧ AllowedCoef ds N out.psi p v c) ∧
      (∀ χ c, IsCombination ds out.psi p c χ → AllowedCoef ds N out.psi p v c → out.E * normSq ds χ ≤ energyOf ds H χ) ∧
      ∀ χ c, IsCombination ds out.psi p c χ → normSq ds χ = sumCfg (pairDims out.psi p) fun I => ‖c I‖ ^ 2 := by
  have hd0 : 0 ≤ dflt := by rcases ht with h | h; exact h.le; exact h.1.ge
  obtain ⟨m, m1, m2, m3, m4, m5, m6, m7⟩ := constrained_start hg eps dflt eigs hH hN hw hd ht o v
  rw [m1] at h
  unfold fullSweep at h
  rw [if_neg (by omega)] at h
  have sp := loop_spec h
  obtain ⟨m', r1, r2, r3⟩ := sp.ran hok
  obtain ⟨⟨c1, -, -⟩, c4⟩ := two_sweeps_N hg eps hd0 he hH hherm hN o m2 m3 m4 m5 r1
  have hne : out.energies ≠ [] := by
    intro hh
    have hlt : out.energies.length < o.sweeps := by rw [hh]; exact hs
    obtain ⟨es, E, E', h1, -⟩ := sp.stop hok hlt
    rw [hh] at h1
    simp at h1
  have hE := sp.energy hok
  have hlast : out.energies.getLast hne = out.E := by
    rw [hE, List.getLastD_eq_getLast?, List.getLast?_eq_some_getLast hne]; rfl
  obtain ⟨d1, ψ0, p, dp, d2, d3⟩ := c4 out.energies.dropLast out.E (by rw [← hlast]; exact (List.dropLast_append_getLast hne).symm)
  rw [← r2] at d1 d3
  rw [← r3] at d3
  refine ⟨by rw [r2]; exact c1.wf, fun j hj => d1 j hj hD, ?_, p, dp, d3.before, d3.best, d3.gram⟩
  by_contra hlt
  have hlen := m2.wf.length
  obtain ⟨n, hn⟩ : ∃ n, o.sweeps = n + 1 := ⟨o.sweeps - 1, by omega⟩
  rw [hn, sweepLoop] at h
  unfold twoSweep at h
  rw [if_pos (by omega)] at h
  simp at h

/-- the expected value of an operator in a combination of states -/
theorem expect_combination {ds : List Nat} {ψ φ O : List (Tensor K)} {p : Nat} {c : List Nat → K} (h : IsCombination ds ψ p c φ) :
    expect ds φ O φ = sumCfg (pairDims ψ p) fun I => sumCfg (pairDims ψ p) fun J =>
      star (c I) * c J * expect ds (blockState ψ p I) O (blockState ψ p J) := by
  unfold expect MPS.inner actOp
  have e1 : ∀ s, IsCfg ds s → star (amp φ s) * sumCfg ds (fun t => opElt O s t * amp φ t) =
      sumCfg (pairDims ψ p) fun I => sumCfg (pairDims ψ p) fun J => star (c I) * c J *
        (star (amp (blockState ψ p I) s) * sumCfg ds fun t => opElt O s t * amp (blockState ψ p J) t) := by
    intro s hs
    rw [h s hs, sumCfg_star, ← sumCfg_mul_right]
    refine sumCfg_congr fun I _ => ?_
    rw [sumCfg_congr (F := fun t => opElt O s t * amp φ t) (G := fun t => sumCfg (pairDims ψ p) fun J => c J * (opElt O s t * amp (blockState ψ p J) t))
      (fun t ht => by rw [h t ht, ← sumCfg_mul_left]; exact sumCfg_congr fun J _ => by ring), sumCfg_comm, ← sumCfg_mul_left]
    refine sumCfg_congr fun J _ => ?_
    rw [sumCfg_mul_left, star_mul']
    ring
  rw [sumCfg_congr e1, sumCfg_comm]
  refine sumCfg_congr fun I _ => ?_
  rw [sumCfg_comm]
  exact sumCfg_congr fun J _ => by rw [sumCfg_mul_left]

/-- **C116.**  If the constraint does not couple different block states which are allowed, then its expected value in the state `φ` of
the previous theorem is `v` up to `1e-6`. -/
theorem C116_value {ds : List Nat} {N ψ φ : List (Tensor K)} {p : Nat} {v : K} {c : List Nat → K} (h : IsCombination ds ψ p c φ)
    (hc : AllowedCoef ds N ψ p v c) (hn : (sumCfg (pairDims ψ p) fun I => ‖c I‖ ^ 2) = 1)
    (hsharp : ∀ I J, IsCfg (pairDims ψ p) I → IsCfg (pairDims ψ p) J → I ≠ J → Allowed ds N ψ p v I → Allowed ds N ψ p v J →
      expect ds (blockState ψ p I) N (blockState ψ p J) = 0) : ‖expect ds φ N φ - v‖ ≤ 1 / 10 ^ 6 := by
  classical
  set e : List Nat → K := fun I => expect ds (blockState ψ p I) N (blockState ψ p I) with he
  have h1 : expect ds φ N φ = sumCfg (pairDims ψ p) fun I => ((‖c I‖ ^ 2 : ℝ) : K) * e I := by
    rw [expect_combination h]
    refine sumCfg_congr fun I hI => ?_
    rw [sumCfg_congr (G := fun J => if J = I then star (c I) * c I * e I else 0)]
    · rw [sumCfg_if _ (fun _ => star (c I) * c I * e I) hI]
      congr 1
      rw [RCLike.ofReal_pow, ← RCLike.conj_mul]; rfl
    · intro J hJ
      by_cases hIJ : J = I
      · rw [hIJ]; simp [he]
      · rw [if_neg hIJ]
        by_cases c1 : c I = 0
        · simp [c1]
        by_cases c2 : c J = 0
        · simp [c2]
        rw [hsharp I J hI hJ (Ne.symm hIJ) (hc I hI c1) (hc J hJ c2), mul_zero]
  have h2 : expect ds φ N φ - v = sumCfg (pairDims ψ p) fun I => ((‖c I‖ ^ 2 : ℝ) : K) * (e I - v) := by
    have hv : v = sumCfg (pairDims ψ p) fun I => ((‖c I‖ ^ 2 : ℝ) : K) * v := by
      rw [sumCfg_mul_right]
      have : (sumCfg (pairDims ψ p) fun I => ((‖c I‖ ^ 2 : ℝ) : K)) = ((1 : ℝ) : K) := by
        rw [← hn]; exact (sumCfg_ofReal _ _).symm
      rw [this]; simp
    have hsplit : (sumCfg (pairDims ψ p) fun I => ((‖c I‖ ^ 2 : ℝ) : K) * e I) =
        (sumCfg (pairDims ψ p) fun I => ((‖c I‖ ^ 2 : ℝ) : K) * (e I - v)) + sumCfg (pairDims ψ p) fun I => ((‖c I‖ ^ 2 : ℝ) : K) * v := by
      rw [← sumCfg_add]
      exact sumCfg_congr fun I _ => by ring
    rw [h1, hsplit, ← hv, add_sub_cancel_right]
  have h3 : ∀ (ds : List Nat) (f : List Nat → K) (g : List Nat → ℝ), (∀ I, IsCfg ds I → ‖f I‖ ≤ g I) → ‖sumCfg ds f‖ ≤ sumCfg ds g := by
    intro ds
    induction ds with
    | nil => intro f g hfg; exact hfg [] .nil
    | cons d ds ih =>
      intro f g hfg
      rw [sumCfg_cons, sumCfg_cons]
      refine (norm_sum_le _ _).trans (Finset.sum_le_sum fun i hi => ih _ _ fun I hI => hfg _ (.cons (Finset.mem_range.1 hi) hI))
  rw [h2]
  refine (h3 _ _ (fun I => ‖c I‖ ^ 2 * (1 / 10 ^ 6)) fun I hI => ?_).trans ?_
  · rw [norm_mul, RCLike.norm_ofReal, abs_of_nonneg (by positivity)]
    by_cases c1 : c I = 0
    · simp [c1]
    · exact mul_le_mul_of_nonneg_left (hc I hI c1).le (by positivity)
  · rw [sumCfg_mul_right, hn, one_mul]

/-- **C116.**  A chain of two sites: the state `φ` only has amplitudes in configurations where the diagonal of the constraint is `v` up to
`1e-6`, and no such state has a lower energy. -/
theorem C116_two_sites {svd : Tensor K → SvdRes K} (hg : GoodSvd svd) (eps dflt : ℝ) {eigs : Eigs K} (he : GoodEigs eigs)
    {d d' : Nat} {H N ψ : List (Tensor K)} (hH : WFO 1 H [d, d'] 1) (hherm : Hermitian [d, d'] H) (hN : WFO 1 N [d, d'] 1)
    (hw : WF 1 ψ [d, d'] 1) (ht : TolOk dflt [d, d'] ψ) (o : Opts) (hD : 0 < o.Dmax) (hs : 0 < o.sweeps) (v : K) {out : Out K}
    (h : minimizeConstrained svd eps dflt eigs H ψ o N v [] = some out) (hok : out.converged = true) :
    WF 1 out.psi [d, d'] 1 ∧
    (∃ φ, WF 1 φ [d, d'] 1 ∧ normSq [d, d'] φ = 1 ∧ expect [d, d'] φ H φ = (out.E : K) ∧ distSq [d, d'] φ out.psi = out.lost ∧
      ∀ s, IsCfg [d, d'] s → amp φ s ≠ 0 → ‖opElt N s s - v‖ < 1 / 10 ^ 6) ∧
    ∀ χ, (∀ s, IsCfg [d, d'] s → amp χ s ≠ 0 → ‖opElt N s s - v‖ < 1 / 10 ^ 6) → out.E * normSq [d, d'] χ ≤ energyOf [d, d'] H χ := by
  obtain ⟨w, -, -, p, hp, ⟨φ, c, f1, f2, f3, f4, f5, f6⟩, hbest, -⟩ := C116_two_site hg eps dflt he hH hherm hN hw (by simp) ht o hD hs v h hok
  have hp0 : p = 0 := by
    rcases hp with h | h
    · exact h
    · simpa using h
  subst hp0
  have hdim := (block_two w).1
  have hcfg : ∀ {i j}, i < d → j < d' → IsCfg (pairDims out.psi 0) [0, i, j, 0] := fun hi hj => by
    rw [hdim]; exact .cons Nat.one_pos (.cons hi (.cons hj (.cons Nat.one_pos .nil)))
  refine ⟨w, ⟨φ, f1, f2, f3, f4, fun s hs hne => ?_⟩, fun χ hχ => ?_⟩
  · obtain ⟨i, j, hi, hj, rfl⟩ := cfg_two hs
    rw [(combination_two w c).1 f5 i j hi hj] at hne
    exact (allowed_two w v hi hj).1 (f6 _ (hcfg hi hj) hne)
  · refine hbest χ (fun I => amp χ [I.getD 1 0, I.getD 2 0]) ((combination_two w _).2 fun i j _ _ => rfl) fun I hI hne => ?_
    rw [hdim] at hI
    obtain ⟨x, i, j, y, rfl, hx, hi, hj, hy⟩ := isCfg4 hI
    obtain rfl : x = 0 := by omega
    obtain rfl : y = 0 := by omega
    exact (allowed_two w v hi hj).2 (hχ [i, j] (.cons hi (.cons hj .nil)) hne)

/-- **C116.**  If no block state of the first two sites of the initial state, in canonical form, is allowed, then the program fails: the
caller is left with an empty state and the number `1e28`. -/
theorem C116_no_state {svd : Tensor K → SvdRes K} (hg : GoodSvd svd) (eps dflt : ℝ) (eigs : Eigs K)
    {ds : List Nat} {H N ψ : List (Tensor K)} (hH : WFO 1 H ds 1) (hnz : NonZero ds H) (hN : WFO 1 N ds 1) (hw : WF 1 ψ ds 1)
    (hd : 2 ≤ ds.length) (ht : TolOk dflt ds ψ) (o : Opts) (hD : 0 < o.Dmax) (hs : 0 < o.sweeps) (v : K)
    (hall : ∀ I, IsCfg (pairDims (canonicalForm svd eps dflt ψ (-1)).1 0) I → ¬ Allowed ds N (canonicalForm svd eps dflt ψ (-1)).1 0 v I) :
    ∃ out, minimizeConstrained svd eps dflt eigs H ψ o N v [] = some out ∧ out.converged = false ∧ out.psi = [] ∧ out.E = 10 ^ 28 := by
  obtain ⟨m, m1, m2, m3, m4, m5, m6, m7⟩ := constrained_start hg eps dflt eigs hH hN hw (by omega) ht o v
  have hlen := m2.wf.length
  have e0 : endOf ds.length m.step = 0 := by simp [m6, endOf]
  rw [e0] at m2 m4
  have hst := two_step_fails svd eps dflt eigs hH hnz hN (v := v) o (m := { m with site := 0 }) (k := 0) (p := 0)
    ⟨m2.lt, m2.wf, m2.q, m2.lo, m2.hi⟩ m3 m4 rfl (by simp [pairOf, m6]) (by omega) (Or.inl (by simp [m6])) (by rw [← m7] at hall; exact hall)
  rw [m1]
  unfold fullSweep
  rw [if_neg (by omega)]
  obtain ⟨n, hn⟩ : ∃ n, o.sweeps = n + 1 := ⟨o.sweeps - 1, by omega⟩
  obtain ⟨q, hq⟩ : ∃ q, m.psi.length - 1 = q + 1 := ⟨m.psi.length - 2, by omega⟩
  have hsw : twoSweep svd eps dflt eigs o m = some ({ m with site := 0, converged := false, step := -1 }, 0) := by
    unfold twoSweep
    rw [if_neg (by omega)]
    have hs1 : m.step > 0 := by rw [m6]; decide
    simp only [if_pos hs1]
    rw [hq, twoRight, if_pos m5, hst, Option.bind_some]
    cases q with
    | zero => rfl
    | succ q => rw [twoRight]; rfl
  rw [hn, sweepLoop, hsw, Option.bind_some]
  simp only [if_true]
  exact ⟨_, rfl, rfl, rfl, rfl⟩

/-- **C116.**  A chain of two sites, and a solver which always succeeds: the program returns if and only if some element on the diagonal of
the constraint is `v` up to `1e-6`. -/
theorem C116_returns {svd : Tensor K → SvdRes K} (hg : GoodSvd svd) (eps dflt : ℝ) {eigs : Eigs K} (he : GoodEigs eigs)
    (hsol : ∀ A n P, (eigs A n P).ok = true)
    {d d' : Nat} {H N ψ : List (Tensor K)} (hH : WFO 1 H [d, d'] 1) (hherm : Hermitian [d, d'] H) (hnz : NonZero [d, d'] H)
    (hN : WFO 1 N [d, d'] 1) (hNz : NonZero [d, d'] N)
    (hw : WF 1 ψ [d, d'] 1) (ht : TolOk dflt [d, d'] ψ) (o : Opts) (hD : 0 < o.Dmax) (hs : 0 < o.sweeps) (v : K) :
    ∃ out, minimizeConstrained svd eps dflt eigs H ψ o N v [] = some out ∧
      (out.converged = true ↔ ∃ s, IsCfg [d, d'] s ∧ ‖opElt N s s - v‖ < 1 / 10 ^ 6) := by
  have hd0 : 0 ≤ dflt := by rcases ht with h | h; exact h.le; exact h.1.ge
  obtain ⟨m, m1, m2, m3, m4, m5, m6, m7⟩ := constrained_start hg eps dflt eigs hH hN hw (by simp) ht o v
  by_cases hall : ∃ s, IsCfg [d, d'] s ∧ ‖opElt N s s - v‖ < 1 / 10 ^ 6
  · have hA : ∀ χ, WF 1 χ [d, d'] 1 → ∃ I, IsCfg (pairDims χ 0) I ∧ Allowed [d, d'] N χ 0 v I := by
      intro χ hχ
      obtain ⟨s, hs, hv⟩ := hall
      obtain ⟨i, j, hi, hj, rfl⟩ := cfg_two hs
      refine ⟨[0, i, j, 0], ?_, (allowed_two hχ v hi hj).2 hv⟩
      rw [(block_two hχ).1]
      exact .cons Nat.one_pos (.cons hi (.cons hj (.cons Nat.one_pos .nil)))
    have key : ∃ out, minimizeConstrained svd eps dflt eigs H ψ o N v [] = some out ∧ out.converged = true := by
      rw [m1]
      unfold fullSweep
      rw [if_neg (by omega)]
      refine loop_runs (fun m => Cent [d, d'] H m (endOf 2 m.step) ∧ m.ortho = [] ∧ NGood [d, d'] N v m (endOf 2 m.step) ∧ m.converged = true)
        ?_ o _ _ _ _ _ _ ⟨m2, m3, m4, m5⟩
      rintro m' ⟨i1, i2, i3, i4⟩
      have hlen := i1.wf.length
      simp only [List.length_cons, List.length_nil] at hlen
      have hsw : ∃ m'' E, twoSweep svd eps dflt eigs o m' = some (m'', E) ∧ m''.converged = true := by
        unfold twoSweep
        rw [if_neg (by omega), hlen]
        by_cases hst : m'.step > 0
        · simp only [if_pos hst]
          simp only [endOf, if_pos hst] at i1 i3
          obtain ⟨m'', E, h1, h2⟩ := two_step_runs_N hg eps hd0 he hsol hH hherm hnz hN hNz (v := v) o (m := { m' with site := 0 }) (k := 0) (p := 0)
            ⟨i1.lt, i1.wf, i1.q, i1.lo, i1.hi⟩ i2 i3 rfl (by simp [pairOf, hst]) (by simp) (Or.inl hst) (hA _ i1.wf)
          rw [show (0 + 1 + 1 - 1 : Nat) = 0 + 1 from rfl, twoRight, if_pos i4, h1, Option.bind_some]
          exact ⟨_, _, rfl, h2⟩
        · simp only [if_neg hst]
          simp only [endOf, if_neg hst] at i1 i3
          obtain ⟨m'', E, h1, h2⟩ := two_step_runs_N hg eps hd0 he hsol hH hherm hnz hN hNz (v := v) o (m := { m' with site := 1 }) (k := 1) (p := 0)
            ⟨i1.lt, i1.wf, i1.q, i1.lo, i1.hi⟩ i2 i3 rfl (by simp [pairOf, hst]) (by simp) (Or.inr (le_refl 1)) (hA _ i1.wf)
          rw [show (0 + 1 + 1 - 1 : Nat) = 0 + 1 from rfl, twoLeft, if_pos i4]
          rw [show (0 + 1 : Nat) = 1 from rfl, h1, Option.bind_some]
          exact ⟨_, _, rfl, h2⟩
      obtain ⟨m'', E, r1, r2⟩ := hsw
      obtain ⟨s1, s2, s3, -⟩ := two_sweep_N hg eps hd0 he hH hherm hN o i1 i2 i3 i4 r1 r2
      exact ⟨m'', E, r1, r2, s1, s2, s3, r2⟩
    obtain ⟨out, k1, k2⟩ := key
    exact ⟨out, k1, by rw [k2]; exact ⟨fun _ => hall, fun _ => rfl⟩⟩
  · have hw' : WF 1 (canonicalForm svd eps dflt ψ (-1)).1 [d, d'] 1 := by rw [← m7]; exact m2.wf
    obtain ⟨out, k1, k2, -⟩ := C116_no_state hg eps dflt eigs hH hnz hN hw (by simp) ht o hD hs v (fun I hI hA => by
      rw [(block_two hw').1] at hI
      obtain ⟨x, i, j, y, rfl, hx, hi, hj, hy⟩ := isCfg4 hI
      obtain rfl : x = 0 := by omega
      obtain rfl : y = 0 := by omega
      exact hall ⟨[i, j], .cons hi (.cons hj .nil), (allowed_two hw' v hi hj).1 hA⟩)
    exact ⟨out, k1, by rw [k2]; exact ⟨fun h => by simp at h, fun h => absurd h hall⟩⟩

/-- a concrete run: the Hamiltonian `-1 - Σ_{i,k} |i i⟩⟨k k|` of two spins, which is also the constraint -/
theorem bell_constrained {svd : Tensor ℝ → SvdRes ℝ} (hg : GoodSvd svd) (eps dflt : ℝ) (hdflt : 0 < dflt) {eigs : Eigs ℝ} (he : GoodEigs eigs)
    (hsol : ∀ A n P, (eigs A n P).ok = true) (o : Opts) (hD : 0 < o.Dmax) (hs : 0 < o.sweeps) (v : ℝ) :
    ∃ out, minimizeConstrained svd eps dflt eigs bellH zeroState o bellH v [] = some out ∧
      (v = -1 → out.converged = true ∧ out.E = -1) ∧ (v = -2 → out.converged = true ∧ out.E = -3) ∧
      (v = 5 → out.converged = false ∧ out.psi = []) := by
  obtain ⟨out, h1, h2⟩ := C116_returns hg eps dflt he hsol bellH_wf bellH_hermitian bellH_nonzero bellH_wf bellH_nonzero zeroState_wf
    (Or.inl hdflt) o hD hs v
  have hdiag : ∀ i k, i < 2 → k < 2 → opElt bellH [i, k] [i, k] = if i = k then -2 else -1 := by
    intro i k hi hk
    rw [bellH_elt hi hk hi hk]
    by_cases h : i = k
    · simp [h]; norm_num
    · simp [h]
  refine ⟨out, h1, ?_, ?_, ?_⟩
  · rintro rfl
    have hc : out.converged = true := h2.2 ⟨[0, 1], .cons (by omega) (.cons (by omega) .nil), by rw [hdiag 0 1 (by omega) (by omega)]; norm_num⟩
    refine ⟨hc, ?_⟩
    obtain ⟨w, ⟨φ, f1, f2, f3, -, f5⟩, hbest⟩ := C116_two_sites hg eps dflt he bellH_wf bellH_hermitian bellH_wf zeroState_wf (Or.inl hdflt) o hD hs (-1) h1 hc
    have z : ∀ i, i < 2 → amp φ [i, i] = 0 := by
      intro i hi
      by_contra hne
      have := f5 [i, i] (.cons hi (.cons hi .nil)) hne
      rw [hdiag i i hi hi, if_pos rfl] at this
      norm_num at this
    rw [bell_expect, f2, z 0 (by omega), z 1 (by omega)] at f3
    have : (out.E : ℝ) = -1 - (0 + 0) ^ 2 := f3.symm
    rw [this]; norm_num
  · rintro rfl
    have hc : out.converged = true := h2.2 ⟨[0, 0], .cons (by omega) (.cons (by omega) .nil), by rw [hdiag 0 0 (by omega) (by omega)]; norm_num⟩
    refine ⟨hc, ?_⟩
    obtain ⟨w, ⟨φ, f1, f2, f3, -, f5⟩, hbest⟩ := C116_two_sites hg eps dflt he bellH_wf bellH_hermitian bellH_wf zeroState_wf (Or.inl hdflt) o hD hs (-2) h1 hc
    obtain ⟨a1, a2, a3, a4⟩ := bellState_amp
    have b := hbest bellState (by
      intro s hs' hne
      obtain ⟨i, k, hi, hk, rfl⟩ := cfg22 hs'
      rw [hdiag i k hi hk]
      by_cases h : i = k
      · rw [if_pos h]; norm_num
      · exfalso
        interval_cases i <;> interval_cases k <;> simp_all)
    rw [bell_energy, bell_norm, a1, a2, a3, a4] at b
    rw [bell_expect, f2] at f3
    have e : (out.E : ℝ) = -1 - (amp φ [0, 0] + amp φ [1, 1]) ^ 2 := f3.symm
    rw [bell_norm] at f2
    apply le_antisymm
    · linarith
    · rw [e]
      nlinarith [sq_nonneg (amp φ [0, 0] - amp φ [1, 1]), sq_nonneg (amp φ [0, 1]), sq_nonneg (amp φ [1, 0])]
  · rintro rfl
    have hc : out.converged = false := by
      by_contra hne
      obtain ⟨s, hs', hv⟩ := h2.1 (by simpa using hne)
      obtain ⟨i, k, hi, hk, rfl⟩ := cfg22 hs'
      rw [hdiag i k hi hk] at hv
      by_cases h : i = k
      · rw [if_pos h] at hv; norm_num at hv
      · rw [if_neg h] at hv; norm_num at hv
    refine ⟨hc, ?_⟩
    unfold minimizeConstrained at h1
    obtain ⟨m, -, h3⟩ := Option.bind_eq_some_iff.1 h1
    obtain ⟨N, -, h4⟩ := Option.bind_eq_some_iff.1 h3
    exact ((loop_spec h4).failed hc).1

/-- **C79** is violated by the two-site algorithm as well, if the constraint is not diagonal: asked for the lowest energy among the
states with `⟨H⟩ = -2`, it returns the energy `-3`. -/
theorem C79_two_site_violated {svd : Tensor ℝ → SvdRes ℝ} (hg : GoodSvd svd) (eps dflt : ℝ) (hdflt : 0 < dflt) {eigs : Eigs ℝ} (he : GoodEigs eigs)
    (hsol : ∀ A n P, (eigs A n P).ok = true) (o : Opts) (hD : 0 < o.Dmax) (hs : 0 < o.sweeps) :
    ∃ out, minimizeConstrained svd eps dflt eigs bellH zeroState o bellH (-2) [] = some out ∧ out.converged = true ∧ out.E = -3 := by
  obtain ⟨out, h1, -, h2, -⟩ := bell_constrained hg eps dflt hdflt he hsol o hD hs (-2)
  exact ⟨out, h1, h2 rfl⟩

/-- The hypotheses of C116 are met: with the value `-1` the program finds the lowest energy `-1` of the states `|01⟩`, `|10⟩`, although the
Hamiltonian has the eigenvalue `-3`; with the value `5` it fails. -/
theorem C116_example {svd : Tensor ℝ → SvdRes ℝ} (hg : GoodSvd svd) (eps dflt : ℝ) (hdflt : 0 < dflt) {eigs : Eigs ℝ} (he : GoodEigs eigs)
    (hsol : ∀ A n P, (eigs A n P).ok = true) (o : Opts) (hD : 0 < o.Dmax) (hs : 0 < o.sweeps) :
    (∃ out, minimizeConstrained svd eps dflt eigs bellH zeroState o bellH (-1) [] = some out ∧ out.converged = true ∧ out.E = -1) ∧
    ∃ out, minimizeConstrained svd eps dflt eigs bellH zeroState o bellH 5 [] = some out ∧ out.converged = false ∧ out.psi = [] := by
  obtain ⟨out, h1, h2, -⟩ := bell_constrained hg eps dflt hdflt he hsol o hD hs (-1)
  obtain ⟨out', k1, -, -, k2⟩ := bell_constrained hg eps dflt hdflt he hsol o hD hs 5
  exact ⟨⟨out, h1, h2 rfl⟩, out', k1, k2 rfl⟩

end MPS.Props
