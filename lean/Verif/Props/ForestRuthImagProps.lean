import Verif.Props.ImagTimeProps
import Verif.Props.NormalizeProps

/-!
# C136: `ForestRuthSolver` in imaginary time
-/

set_option linter.unusedSectionVars false
set_option linter.unusedSimpArgs false

namespace MPS.Props
open MPS Tensor Trotter Order Minim
open scoped Matrix.Norms.Operator Matrix

/-- two qubits with the energy 3 if the second one is 0, from the interaction, and 2 if it is 1, from its local term -/
noncomputable def frHam : Ham ℂ where
  size := 2
  dim _ := 2
  loc p := ⟨[2, 2], fun i => if p = 1 ∧ i.getD 0 0 = 1 ∧ i.getD 1 0 = 1 then 2 else 0⟩
  inter _ := ⟨[4, 4], fun i => if i.getD 0 0 = i.getD 1 0 ∧ i.getD 0 0 < 2 then 3 else 0⟩
  depth _ := 1
  left _ _ := ⟨[2, 2], fun i => if i.getD 0 0 = i.getD 1 0 then 1 else 0⟩
  right _ _ := ⟨[2, 2], fun i => if i.getD 0 0 = 0 ∧ i.getD 1 0 = 0 then 3 else 0⟩
  periodic := false

theorem frHam_fits : HamFits frHam [2, 2] := by
  refine ⟨rfl, fun p hp => ?_, fun p hp => ?_, fun p hp => ?_⟩
  all_goals (simp at hp; try interval_cases p) <;> simp_all [frHam]

theorem frHam_hermitian : HamHermitian frHam [2, 2] := by
  refine ⟨fun p hp x y hx hy => ?_, fun p hp x y hx hy => ?_⟩
  · simp only [frHam]
    simp at hp hx hy
    interval_cases p <;> simp at hx hy <;> interval_cases x <;> interval_cases y <;> simp
  · simp only [frHam]
    by_cases h : x = y
    · subst h; by_cases h2 : x < 2 <;> simp [h2]
    · simp [h, Ne.symm h]

theorem frHam_terms : HamTerms frHam [2, 2] False := by
  refine ⟨rfl, fun k hk => Or.inr (frHam_fits.loc k hk), fun k n hk hn => ?_, fun k n hk hn => ?_, False.elim, False.elim⟩
  · obtain rfl : k = 0 := by simp at hk; omega
    rfl
  · obtain rfl : k = 0 := by simp at hk; omega
    rfl

theorem frHam_splits : Splits frHam [2, 2] := by
  intro k hk i i' j j' hi hi' hj hj'
  obtain rfl : k = 0 := by simp at hk; omega
  simp at hi hi' hj hj'
  interval_cases i <;> interval_cases i' <;> interval_cases j <;> interval_cases j' <;> simp [frHam]

theorem frHam_gen0 (s t : List Nat) : genElt [2, 2] 0 (layerGen frHam 0) s t = embed2 2 2 0 (layerGen frHam 0 0) s t := by
  simp [genElt, Finset.sum_filter, Finset.sum_range_succ, PairAt, Single]

theorem frHam_gen1 (s t : List Nat) : genElt [2, 2] 1 (layerGen frHam 1) s t =
    embed1 2 0 (layerGen frHam 1 0) s t + embed1 2 1 (layerGen frHam 1 1) s t := by
  simp [genElt, Finset.sum_filter, Finset.sum_range_succ, PairAt, Single]

theorem frHam_layer0 (x y : Nat) : (layerGen frHam 0 0).get [x, y] = (if x = y ∧ x < 2 then 3 else 0) +
    (if x % 2 = y % 2 then (if x / 2 = 1 ∧ y / 2 = 1 then 1 else 0) else 0) := by
  simp [layerGen, PairAt, frHam, add, kron2, kron, eye, smul, Tensor.dim]

theorem frHam_layer1 (p x y : Nat) : (layerGen frHam 1 p).get [x, y] = if p = 1 ∧ x = 1 ∧ y = 1 then 1 else 0 := by
  have : ¬ PairAt frHam.size 1 p := by simp [PairAt, frHam]; omega
  rw [layerGen, if_neg this]
  simp [frHam, smul]

/-- the generators of the two layers -/
theorem frHam_gen : genMat frHam [2, 2] 0 = Matrix.diagonal (fun s => if s.1.getD 1 0 = 0 then (3 : ℂ) else 1) ∧
    genMat frHam [2, 2] 1 = Matrix.diagonal (fun s => if s.1.getD 1 0 = 0 then (0 : ℂ) else 1) := by
  constructor
  all_goals
    ext ⟨s, hs⟩ ⟨t, ht⟩
    have hs' := hs
    have ht' := ht
    simp [cfgs] at hs' ht'
    obtain ⟨a, b, ⟨ha, hb⟩, rfl⟩ := hs'
    obtain ⟨c, d, ⟨hc, hd⟩, rfl⟩ := ht'
    simp only [genMat, opMat, Matrix.of_apply, frHam_gen0, frHam_gen1, embed1, embed2, frHam_layer0, frHam_layer1, Matrix.diagonal_apply, Subtype.mk.injEq]
    interval_cases a <;> interval_cases b <;> interval_cases c <;> interval_cases d <;> simp [Finset.prod_range_succ]

theorem diag_mulVec {n : Type} [Fintype n] [DecidableEq n] (z : ℂ) (d v : n → ℂ) (i : n) :
    (NormedSpace.exp (z • Matrix.diagonal d) *ᵥ v) i = Complex.exp (z * d i) * v i := by
  rw [← Matrix.diagonal_smul, Matrix.exp_diagonal, Matrix.mulVec_diagonal]
  rw [Pi.coe_exp, Complex.exp_eq_exp_ℂ]
  rfl

/-- one layer in imaginary time -/
theorem layer_imag {H : Ham ℂ} {ds : List Nat} (hH : HamFits H ds) {k : Nat} {g : Cfg ds → ℂ} (hg : genMat H ds k = Matrix.diagonal g) {τ : ℝ} (h0 : 0 ≤ τ)
    (c : ℝ) (φ : List Nat → ℂ) (s : Cfg ds) :
    vec ds (layerStep matrixExp H ds (-Complex.I * τ) φ (k, (c : ℂ))) s = Complex.exp (((-(|c| * τ) : ℝ) : ℂ) * g s) * vec ds φ s := by
  have hz : (⟨-|(-Complex.I * (τ : ℂ) * ((k, (c : ℂ)) : Nat × ℂ).2).im|, -(-Complex.I * (τ : ℂ) * ((k, (c : ℂ)) : Nat × ℂ).2).re⟩ : ℂ) = ((-(|c| * τ) : ℝ) : ℂ) := by
    apply Complex.ext
    · simp [abs_mul, abs_of_nonneg h0, mul_comm]
    · simp
  rw [layerStep_vec hH _ _ _ hz, hg, diag_mulVec]

/-- one step of the solver in imaginary time -/
theorem fr_step {τ : ℝ} (h0 : 0 ≤ τ) (φ : List Nat → ℂ) (s : Cfg [2, 2]) :
    vec [2, 2] (layerSteps matrixExp frHam [2, 2] (-Complex.I * τ) stepsFR φ) s =
      (Real.exp (-(5.10724315175796 * τ)) * (if s.1.getD 1 0 = 0 then 1 else Real.exp (-τ)) : ℝ) * vec [2, 2] φ s := by
  rw [stepsFR_theta]
  simp only [layerSteps, List.foldl_cons, List.foldl_nil]
  rw [layer_imag frHam_fits frHam_gen.1 h0, layer_imag frHam_fits frHam_gen.2 h0, layer_imag frHam_fits frHam_gen.1 h0, layer_imag frHam_fits frHam_gen.2 h0,
    layer_imag frHam_fits frHam_gen.1 h0, layer_imag frHam_fits frHam_gen.2 h0, layer_imag frHam_fits frHam_gen.1 h0]
  simp only [← mul_assoc, ← Complex.exp_add]
  congr 1
  have a1 : |theta / 2| = theta / 2 := abs_of_pos (by unfold theta; norm_num)
  have a2 : |theta| = theta := abs_of_pos (by unfold theta; norm_num)
  have a3 : |(1 - theta) / 2| = (theta - 1) / 2 := by rw [abs_of_neg (by unfold theta; norm_num)]; ring
  have a4 : |1 - 2 * theta| = 2 * theta - 1 := by rw [abs_of_neg (by unfold theta; norm_num)]; ring
  rw [a1, a2, a3, a4]
  split_ifs
  · rw [mul_one, Complex.ofReal_exp]
    congr 1
    unfold theta; push_cast; ring
  · rw [← Real.exp_add, Complex.ofReal_exp]
    congr 1
    unfold theta; push_cast; ring

/-- on two qubits nothing is dropped -/
theorem calls_exact {svd : Tensor ℂ → SvdRes ℂ} (hg : GoodSvd svd) {eps : ℝ} (he : eps < 1) {dflt : ℝ} (hd0 : 0 < dflt)
    (simplifyObc : List (Tensor ℂ) → Int → Nat → Bool → Nat → List (Tensor ℂ) × ℝ) (U : List Unitary) : ∀ (cs : List Call),
    (∀ c ∈ cs, (c.tol < 0 ∨ 0 < c.tol) ∧ ((c.simplify = true ∧ 2 ≤ c.D) ∨ (c.simplify = false ∧ c.D = 0 ∧ c.normalize = false)) ∧
      ∃ k : Nat, Fits (U.getD c.which ⟨0, 0, []⟩) [2, 2] k) →
    ∀ (x : Evo × Int), WF 1 x.1.P [2, 2] 1 →
    let y := cs.foldl (runCall svd eps dflt simplifyObc U) x
    WF 1 y.1.P [2, 2] 1 ∧ y.1.err = x.1.err ∧ y.1.hidden = x.1.hidden
  | [], _, x, hx => ⟨hx, rfl, rfl⟩
  | c :: cs, hc, x, hx => by
    obtain ⟨h1, h2, k, h4⟩ := hc c (by simp)
    obtain ⟨a1, a2, a3, -⟩ := call_two hg he hd0 simplifyObc U x c h4 hx h1 h2
    obtain ⟨b1, b2, b3⟩ := calls_exact hg he hd0 simplifyObc U cs (fun c h => hc c (by simp [h])) _ a1
    exact ⟨b1, b2.trans a2, b3.trans a3⟩

/-- the factor by which one step multiplies an amplitude -/
noncomputable def frFactor (τ : ℝ) (s : List Nat) : ℝ := Real.exp (-(5.10724315175796 * τ)) * (if s.getD 1 0 = 0 then 1 else Real.exp (-τ))

theorem wf_mps {P : List (Tensor ℂ)} (hP : WF 1 P [2, 2] 1) : IsMPS [2, 2] P :=
  ⟨by intro hh; have := hP.length; rw [hh] at this; simp at this, 1, hP⟩

/-- the runs of the solver -/
theorem fr_run {svd : Tensor ℂ → SvdRes ℂ} (hg : GoodSvd svd) {eps : ℝ} (he : eps < 1) {dflt : ℝ} (hd0 : 0 < dflt)
    (simplifyObc : List (Tensor ℂ) → Int → Nat → Bool → Nat → List (Tensor ℂ) × ℝ) {τ : ℝ} (h0 : 0 ≤ τ) :
    ∃ U, forestRuth.unitaries matrixExp frHam (-Complex.I * τ) = some U ∧ ∀ P, WF 1 P [2, 2] 1 → ∃ Q, Q 0 = P ∧
      (∀ n, Run svd eps dflt simplifyObc forestRuth U .doNotTruncate n Q) ∧
      ∀ n, IsMPS [2, 2] (Q n) ∧ ∀ s, IsCfg [2, 2] s → amp (Q n) s = ((frFactor τ s ^ n : ℝ) : ℂ) * amp P s := by
  obtain ⟨U, hU, hfit⟩ := unitaries_fit forestRuth (by simp [forestRuth]) exists_goodExpm.dims frHam_fits (-Complex.I * τ)
  refine ⟨U, hU, fun P hP => ?_⟩
  obtain ⟨U', e1, hst⟩ := (C59_forest_ruth hg eps hd0).2 simplifyObc matrixExp exists_goodExpm.dims frHam [2, 2] frHam_fits (-Complex.I * τ)
  obtain rfl : U = U' := by rw [hU] at e1; simpa using e1
  have key : ∀ R : { R : List (Tensor ℂ) // WF 1 R [2, 2] 1 }, ∃ R' : { R : List (Tensor ℂ) // WF 1 R [2, 2] 1 }, ∃ y s',
      oneStep svd eps dflt simplifyObc forestRuth U .doNotTruncate false 0 R.1 0 = some (y, s') ∧ y.err = 0 ∧ y.hidden = 0 ∧ R'.1 = y.P ∧
      ∀ s, IsCfg [2, 2] s → amp R'.1 s = frFactor τ s * amp R.1 s := by
    rintro ⟨R, hR⟩
    obtain ⟨y, s', g1, -, -, -, g5⟩ := hst R (wf_mps hR) 0 0 (fun h => absurd rfl h)
    have hx := calls_exact hg he hd0 simplifyObc U (forestRuth.calls .doNotTruncate false 0) (by
      intro c hc
      have h1 : (c.tol < 0 ∨ 0 < c.tol) ∧ (c.simplify = false ∧ c.D = 0 ∧ c.normalize = false) ∧ c.which < forestRuth.layers.length := by
        simp only [forestRuth, List.mem_cons, List.not_mem_nil, or_false] at hc
        rcases hc with rfl | rfl | rfl | rfl | rfl | rfl | rfl <;> simp [defaultTol, forestRuth]
      obtain ⟨k, -, -, -, hk⟩ := hfit c.which h1.2.2
      exact ⟨h1.1, Or.inr h1.2.1, k, hk⟩) (⟨R, 0, 0⟩, 0) hR
    unfold oneStep at g1
    rw [if_neg (by rintro ⟨-, h⟩; exact h rfl)] at g1
    have g1' := Option.some.inj g1
    dsimp only at hx
    rw [g1'] at hx
    obtain ⟨x1, x2, x3⟩ := hx
    refine ⟨⟨y.P, x1⟩, y, s', by unfold oneStep; rw [if_neg (by rintro ⟨-, h⟩; exact h rfl)]; exact g1, x2, x3, rfl, fun s hs => ?_⟩
    have := fr_step h0 (amp R) ⟨s, mem_cfgs.2 hs⟩
    rw [g5 x2 x3 s hs]
    exact this
  choose f y s' h1 h2 h3 h4 h5 using key
  refine ⟨fun i => (f^[i] ⟨P, hP⟩).1, rfl, fun n i _ => ⟨0, 0, y _, s' _, fun h => absurd rfl h, h1 _, h2 _, h3 _, ?_⟩, fun n => ⟨wf_mps (f^[n] ⟨P, hP⟩).2, ?_⟩⟩
  · beta_reduce
    rw [Function.iterate_succ_apply', h4]
  · induction n with
    | zero => intro s _; simp
    | succ n ih =>
      intro s hs
      beta_reduce at ih ⊢
      rw [Function.iterate_succ_apply', h5 _ s hs, ih s hs]
      push_cast; ring

/-- the Hamiltonian is diagonal -/
theorem frHam_act (φ : List Nat → ℂ) (s : List Nat) (hs : IsCfg [2, 2] s) :
    actOp [2, 2] (chainElt frHam [2, 2]) φ s = (if s.getD 1 0 = 0 then 3 else 2) * φ s := by
  have h1 : hamMat frHam [2, 2] = Matrix.diagonal (fun s => if s.1.getD 1 0 = 0 then (3 : ℂ) else 2) := by
    rw [← gen_sum frHam_fits, frHam_gen.1, frHam_gen.2, Matrix.diagonal_add]
    congr 1
    funext s
    split_ifs <;> norm_num
  have h2 : vec [2, 2] (actOp [2, 2] (chainElt frHam [2, 2]) φ) = hamMat frHam [2, 2] *ᵥ vec [2, 2] φ := vec_actOp _ _ _
  rw [h1] at h2
  have h3 := congrFun h2 ⟨s, mem_cfgs.2 hs⟩
  rw [Matrix.mulVec_diagonal] at h3
  exact h3

/-- the energy of a state whose amplitudes are `u` or `v`, as the second qubit is 0 or 1 -/
theorem frHam_energy {P : List (Tensor ℂ)} (hP : IsMPS [2, 2] P) {u v : ℝ} (h : ∀ s, IsCfg [2, 2] s → amp P s = ((if s.getD 1 0 = 0 then u else v : ℝ) : ℂ)) :
    normSq [2, 2] P = 2 * u ^ 2 + 2 * v ^ 2 ∧ ∃ e, energy P frHam = some e ∧ e.re = 6 * u ^ 2 + 4 * v ^ 2 := by
  have hc : ∀ a b, a < 2 → b < 2 → IsCfg [2, 2] [a, b] := fun a b ha hb => by simp [IsCfg, ha, hb]
  refine ⟨?_, _, energy_chain frHam_fits frHam_terms rfl frHam_splits hP, ?_⟩
  · simp [normSq, sumCfg, Finset.sum_range_succ, h, hc]
    ring
  · simp [MPS.inner, sumCfg, Finset.sum_range_succ, h, hc, frHam_act, ← Complex.ofReal_mul]
    ring

/-- both qubits in the state `|0⟩ + |1⟩` -/
noncomputable def plusPlus : List (Tensor ℂ) := [⟨[1, 2, 1], fun _ => 1⟩, ⟨[1, 2, 1], fun _ => 1⟩]

theorem plusPlus_wf : WF 1 plusPlus [2, 2] 1 :=
  WF.cons rfl Nat.one_pos (by decide) Nat.one_pos (WF.cons rfl Nat.one_pos (by decide) Nat.one_pos (WF.nil 1))

theorem plusPlus_amp (s : List Nat) (hs : IsCfg [2, 2] s) : amp plusPlus s = 1 := by
  have hs' := mem_cfgs.2 hs
  simp [cfgs] at hs'
  obtain ⟨a, b, ⟨ha, hb⟩, rfl⟩ := hs'
  simp [plusPlus, amp, path, Tensor.dim]

/-- **C136** is violated: with the Hamiltonian `frHam` and the time step `-iτ`, `ForestRuthSolver` without truncation raises the energy of the state `plusPlus`
in every step, from `5/2` towards `3`, while that of the ground state is `2`. -/
theorem C136_violated {svd : Tensor ℂ → SvdRes ℂ} (hg : GoodSvd svd) {eps : ℝ} (he : eps < 1) {dflt : ℝ} (hd0 : 0 < dflt)
    (simplifyObc : List (Tensor ℂ) → Int → Nat → Bool → Nat → List (Tensor ℂ) × ℝ) :
    HamFits frHam [2, 2] ∧ HamHermitian frHam [2, 2] ∧ HamTerms frHam [2, 2] False ∧ frHam.periodic = false ∧ Splits frHam [2, 2] ∧
    (∃ g, Eigenvector frHam [2, 2] 2 g ∧ (1 / 2 : ℝ) * (wnorm [2, 2] g ^ 2 * normSq [2, 2] plusPlus) ≤ ‖MPS.inner [2, 2] g (amp plusPlus)‖ ^ 2) ∧
    ∀ τ : ℝ, 0 ≤ τ → ∃ U, forestRuth.unitaries matrixExp frHam (-Complex.I * τ) = some U ∧ ∃ Q, Q 0 = plusPlus ∧ ∀ n : Nat,
      Run svd eps dflt simplifyObc forestRuth U .doNotTruncate n Q ∧ normSq [2, 2] (Q n) ≠ 0 ∧ ∃ e, energy (Q n) frHam = some e ∧
        e.re / normSq [2, 2] (Q n) = 3 - 1 / (1 + Real.exp (2 * (n * τ))) := by
  refine ⟨frHam_fits, frHam_hermitian, frHam_terms, rfl, frHam_splits, ⟨fun s => if s.getD 1 0 = 0 then 0 else 1, ⟨?_, ?_⟩, ?_⟩, fun τ h0 => ?_⟩
  · unfold wnorm
    refine (Real.sqrt_pos.2 ?_).ne'
    simp [sumCfg, Finset.sum_range_succ]
  · intro s hs
    rw [frHam_act _ s hs]
    beta_reduce
    by_cases h : s.getD 1 0 = 0
    · rw [if_pos h, if_pos h, mul_zero, mul_zero]
    · rw [if_neg h, if_neg h]; push_cast; rfl
  · have hc : ∀ a b, a < 2 → b < 2 → IsCfg [2, 2] [a, b] := fun a b ha hb => by simp [IsCfg, ha, hb]
    rw [wnorm, Real.sq_sqrt (by simp [sumCfg, Finset.sum_range_succ])]
    simp [sumCfg, Finset.sum_range_succ, normSq, MPS.inner, plusPlus_amp, hc]
    norm_num
  · obtain ⟨U, hU, h⟩ := fr_run hg he hd0 simplifyObc h0
    obtain ⟨Q, q1, q2, q3⟩ := h plusPlus plusPlus_wf
    refine ⟨U, hU, Q, q1, fun n => ?_⟩
    obtain ⟨a1, a2⟩ := q3 n
    set u := Real.exp (-(5.10724315175796 * τ)) ^ n with hu
    have pu : 0 < u := by positivity
    have hv : (Real.exp (-(5.10724315175796 * τ)) * Real.exp (-τ)) ^ n = u * Real.exp (-(n * τ)) := by
      rw [mul_pow, ← Real.exp_nat_mul (-τ) n]; congr 2; ring
    obtain ⟨e1, e, e2, e3⟩ := frHam_energy a1 (u := u) (v := u * Real.exp (-(n * τ))) (by
      intro s hs
      rw [a2 s hs, plusPlus_amp s hs, mul_one, frFactor]
      split_ifs
      · rw [mul_one]
      · rw [hv])
    have hx : Real.exp (2 * (n * τ)) * Real.exp (-(n * τ)) ^ 2 = 1 := by
      rw [← Real.exp_nat_mul, ← Real.exp_add, ← Real.exp_zero]; congr 1; push_cast; ring
    refine ⟨q2 n, by rw [e1]; positivity, e, e2, ?_⟩
    rw [e1, e3]
    have px := Real.exp_pos (2 * (n * τ))
    generalize Real.exp (2 * (n * τ)) = x at *
    generalize Real.exp (-(n * τ)) = y at *
    have hy : y ^ 2 = 1 / x := by field_simp; linarith
    rw [mul_pow, hy]
    field_simp
    ring

/-- **C136** is violated: what C134 says of `Trotter2Solver`, with the same or a larger order, does not hold for `ForestRuthSolver` -/
theorem C136_descends_violated {svd : Tensor ℂ → SvdRes ℂ} (hg : GoodSvd svd) {eps : ℝ} (he : eps < 1) {dflt : ℝ} (hd0 : 0 < dflt)
    (simplifyObc : List (Tensor ℂ) → Int → Nat → Bool → Nat → List (Tensor ℂ) × ℝ) :
    ¬ ∃ C δ : ℝ, 0 < δ ∧ EnergyDescends svd eps dflt simplifyObc forestRuth .doNotTruncate frHam [2, 2] δ fun τ => C * τ ^ 2 := by
  rintro ⟨C, δ, hδ, h⟩
  obtain ⟨-, -, -, -, -, -, hv⟩ := C136_violated hg he hd0 simplifyObc
  obtain ⟨n, hn⟩ := exists_nat_gt (max (1 / δ) (4 * |C|))
  have n1 : 1 / δ < n := (le_max_left _ _).trans_lt hn
  have n2 : 4 * |C| < n := (le_max_right _ _).trans_lt hn
  have pn : (0 : ℝ) < n := lt_trans (by positivity) n1
  have hτ : 1 / (n : ℝ) < δ := by
    rw [div_lt_iff₀ hδ] at n1
    rw [div_lt_iff₀ pn]; linarith
  obtain ⟨U, hU, Q, q0, hq⟩ := hv (1 / n) (by positivity)
  obtain ⟨U', hU', hd⟩ := h (1 / n) (by positivity) hτ
  obtain rfl : U = U' := by rw [hU] at hU'; simpa using hU'
  obtain ⟨r0, m0, e0, g0, k0⟩ := hq 0
  obtain ⟨r1, m1, e1, g1, k1⟩ := hq n
  obtain ⟨-, a0, a1, b0, b1, hb⟩ := hd n Q (by rw [q0]; exact wf_mps plusPlus_wf) m0 r1
  rw [g0] at b0
  rw [g1] at b1
  cases b0
  cases b1
  rw [k0, k1] at hb
  have x1 : (n : ℝ) * (1 / n) = 1 := by field_simp
  have x2 : (n : ℝ) * (C * (1 / n) ^ 2) = C / n := by field_simp
  rw [x1, x2] at hb
  have x3 : C / n < 1 / 4 := by
    rw [div_lt_iff₀ pn]
    linarith [le_abs_self C]
  have x4 : (3 : ℝ) ≤ Real.exp (2 * 1) := by linarith [Real.add_one_le_exp (2 * 1 : ℝ)]
  have x5 : 1 / (1 + Real.exp (2 * 1)) ≤ 1 / 4 := one_div_le_one_div_of_le (by norm_num) (by linarith)
  simp only [Nat.cast_zero, zero_mul, mul_zero, Real.exp_zero] at hb
  norm_num at hb x5 x3
  linarith

/-- **C136** is violated: what C135 says of the other solvers does not hold for `ForestRuthSolver` -/
theorem C136_ground_state_violated {svd : Tensor ℂ → SvdRes ℂ} (hg : GoodSvd svd) {eps : ℝ} (he : eps < 1) {dflt : ℝ} (hd0 : 0 < dflt)
    (simplifyObc : List (Tensor ℂ) → Int → Nat → Bool → Nat → List (Tensor ℂ) × ℝ) :
    ¬ FindsEigenvalue svd eps dflt simplifyObc forestRuth .doNotTruncate frHam [2, 2] := by
  intro h
  obtain ⟨-, -, -, -, -, ⟨g, hg1, hg2⟩, hv⟩ := C136_violated hg he hd0 simplifyObc
  obtain ⟨T₀, h1⟩ := h 2 g hg1 (1 / 2) (1 / 4) (by norm_num) (by norm_num)
  obtain ⟨δ, hδ, h2⟩ := h1 (max T₀ 1) (le_max_left _ _)
  set T := max T₀ 1 with hT
  have pT : 0 < T := lt_of_lt_of_le one_pos (le_max_right _ _)
  obtain ⟨n, hn⟩ := exists_nat_gt (T / δ)
  have pn : (0 : ℝ) < n := lt_trans (by positivity) hn
  have hτ : T / n < δ := by
    rw [div_lt_iff₀ hδ] at hn
    rw [div_lt_iff₀ pn]; linarith
  obtain ⟨U, hU, Q, q0, hq⟩ := hv (T / n) (by positivity)
  obtain ⟨U', hU', hd⟩ := h2 (T / n) (by positivity) hτ
  obtain rfl : U = U' := by rw [hU] at hU'; simpa using hU'
  obtain ⟨r0, m0, -⟩ := hq 0
  obtain ⟨r1, m1, e1, g1, k1⟩ := hq n
  obtain ⟨-, e, b1, hb⟩ := hd n Q (by field_simp) (by rw [q0]; exact wf_mps plusPlus_wf) m0 (by rw [q0]; exact hg2) r1
  rw [g1] at b1
  cases b1
  rw [k1] at hb
  have x4 : (1 : ℝ) ≤ Real.exp (2 * (n * (T / n))) := Real.one_le_exp (by positivity)
  have x5 : 1 / (1 + Real.exp (2 * (n * (T / n)))) ≤ 1 / 2 := one_div_le_one_div_of_le (by norm_num) (by linarith)
  linarith

/-- **C136**, the part which holds: in imaginary time each layer is applied for the absolute value of its duration. So the step is the one wanted when
no duration is negative. -/
theorem C136_layers_partial (expm : Tensor ℂ → Tensor ℂ) (H : Ham ℂ) (ds : List Nat) (τ : ℝ) (φ : List Nat → ℂ) :
    layerSteps expm H ds (-Complex.I * τ) stepsFR φ = layerSteps expm H ds (-Complex.I * τ)
      [(0, 0.67560359597983), (1, 1.35120719195966), (0, 0.17560359597983), (1, 1.70241438391932), (0, 0.17560359597983),
        (1, 1.35120719195966), (0, 0.67560359597983)] φ := by
  have key : ∀ (k : Nat) (c : ℝ) (φ : List Nat → ℂ), layerStep expm H ds (-Complex.I * τ) φ (k, ((-c : ℝ) : ℂ)) =
      layerStep expm H ds (-Complex.I * τ) φ (k, ((c : ℝ) : ℂ)) := by
    intro k c φ
    unfold layerStep
    have : (⟨-|(-Complex.I * (τ : ℂ) * ((-c : ℝ) : ℂ)).im|, -(-Complex.I * (τ : ℂ) * ((-c : ℝ) : ℂ)).re⟩ : ℂ) =
        ⟨-|(-Complex.I * (τ : ℂ) * ((c : ℝ) : ℂ)).im|, -(-Complex.I * (τ : ℂ) * ((c : ℝ) : ℂ)).re⟩ := by
      apply Complex.ext <;> simp
    simp only [this]
  have e1 : (-0.17560359597983 : ℂ) = ((-0.17560359597983 : ℝ) : ℂ) := by push_cast; norm_num
  have e2 : (-1.70241438391932 : ℂ) = ((-1.70241438391932 : ℝ) : ℂ) := by push_cast; norm_num
  have e3 : (0.17560359597983 : ℂ) = ((0.17560359597983 : ℝ) : ℂ) := by push_cast; norm_num
  have e4 : (1.70241438391932 : ℂ) = ((1.70241438391932 : ℝ) : ℂ) := by push_cast; norm_num
  simp only [layerSteps, stepsFR, List.foldl_cons, List.foldl_nil]
  rw [e1, e2, key, key, key, ← e3, ← e4]

end MPS.Props
