import Verif.ImagTime2
import Mathlib.Analysis.InnerProductSpace.Rayleigh
import Verif.Props.ObservableProps

/-!
# C134: evolution in imaginary time lowers the energy

`Trotter2Solver` and `Trotter3Solver` with the time step `-iτ`.
-/

set_option linter.unusedSectionVars false
set_option linter.unusedSimpArgs false

namespace MPS.Props
open MPS Tensor Trotter Order Minim Matrix

theorem energy_step {H : Ham ℂ} {ds : List Nat} (hh : HamHermitian H ds) {ls : List (Nat × ℂ)} {p : Nat} (hp : 1 ≤ p) {C δ : ℝ} (hC : 0 ≤ C) (hδ : 0 < δ)
    (hb : ∀ dt : ℂ, dt.im ≤ 0 → ‖dt‖ < δ → ∀ φ χ, Exact H ds dt φ χ →
      wdist ds (layerSteps matrixExp H ds dt ls φ) χ ≤ C * ‖dt‖ ^ p * wnorm ds φ) :
    ∃ C' δ' : ℝ, 0 ≤ C' ∧ 0 < δ' ∧ ∀ τ : ℝ, 0 ≤ τ → τ < δ' → ∀ φ, wnorm ds φ ≠ 0 →
      wnorm ds (layerSteps matrixExp H ds (-Complex.I * τ) ls φ) ≠ 0 ∧
      ray H ds (layerSteps matrixExp H ds (-Complex.I * τ) ls φ) ≤ ray H ds φ + C' * τ ^ p := by
  obtain ⟨B, β, hB, hβ, hs⟩ := exact_small H ds
  refine ⟨24 * ‖hamL H ds‖ * C, min (min δ β) (min 1 (min (1 / (4 * (C + 1))) (1 / (2 * (B + 1))))), by positivity, by positivity, ?_⟩
  intro τ h0 hτ φ hφ
  obtain ⟨⟨t1, t2⟩, t3, t4, t5⟩ : (τ < δ ∧ τ < β) ∧ τ < 1 ∧ τ < 1 / (4 * (C + 1)) ∧ τ < 1 / (2 * (B + 1)) := by
    simpa only [lt_min_iff] using hτ
  have hn : ‖-Complex.I * (τ : ℂ)‖ = τ := by simp [abs_of_nonneg h0]
  obtain ⟨ψ, hψ, hi⟩ := schroedinger_exists H ds (-Complex.I) φ
  have v0 : vec ds (ψ 0) = vec ds φ := funext fun s => hi s.1 s.cfg
  have hex := exact_of_schroedinger (φ := φ) (dt := -Complex.I * τ) hψ 0 τ rfl hi
  rw [zero_add] at hex
  have d1 := hb (-Complex.I * τ) (by simp [h0]) (by rwa [hn]) φ (ψ τ) hex
  have d2 := hs (-Complex.I * τ) (by rwa [hn]) φ (ψ τ) hex
  rw [hn] at d1 d2
  have r0 : ray H ds (ψ 0) = ray H ds φ := by rw [ray_euclid, ray_euclid, v0]
  have anti := ray_exact hh hψ (by rwa [wnorm_congr v0]) h0
  beta_reduce at anti
  rw [r0] at anti
  have pφ : 0 < wnorm ds φ := lt_of_le_of_ne (wnorm_nonneg _ _) (Ne.symm hφ)
  have hτp : τ ^ p ≤ τ := by
    calc τ ^ p ≤ τ ^ 1 := pow_le_pow_of_le_one h0 t3.le hp
      _ = τ := pow_one τ
  rw [lt_div_iff₀ (by positivity)] at t4 t5
  have hη : C * τ ^ p ≤ 1 / 4 := by
    have := mul_le_mul_of_nonneg_left hτp hC
    nlinarith
  have hv : wnorm ds φ / 2 ≤ wnorm ds (ψ τ) := by
    have a := wdist_norm ds (ψ τ) φ
    have b := (abs_le.1 (a.trans d2)).1
    nlinarith
  rw [wnorm_euclid, wnorm_euclid] at hv
  have hd : ‖WithLp.toLp 2 (vec ds (layerSteps matrixExp H ds (-Complex.I * τ) ls φ)) - WithLp.toLp 2 (vec ds (ψ τ))‖
      ≤ C * τ ^ p * ‖WithLp.toLp 2 (vec ds φ)‖ := by
    unfold wdist at d1
    rw [wnorm_euclid, wnorm_euclid] at d1
    exact d1
  obtain ⟨e1, e2⟩ := ray_step (hamL H ds) (norm_pos_iff.1 (by rw [← wnorm_euclid]; exact pφ)) hv hd hη
  rw [← ray_euclid, ← ray_euclid] at e2
  refine ⟨by rw [wnorm_euclid]; exact norm_ne_zero_iff.2 e1, ?_⟩
  nlinarith

/-- For every `τ` between zero and `δ` the solver with the time step `-iτ` can be created, and in every run of `n` steps in which no singular
values are dropped, from a state which does not vanish: no state vanishes, and the energy `⟨P|H|P⟩/⟨P|P⟩` of the last state, with
`⟨P|H|P⟩` as returned by `expected(P, H, t)`, is not larger than that of the first plus `n bound τ`. -/
def EnergyDescends (svd : Tensor ℂ → SvdRes ℂ) (eps dflt : ℝ)
    (simplifyObc : List (Tensor ℂ) → Int → Nat → Bool → Nat → List (Tensor ℂ) × ℝ) (S : Solver) (strategy : Strategy) (H : Ham ℂ)
    (ds : List Nat) (δ : ℝ) (bound : ℝ → ℝ) : Prop :=
  ∀ τ : ℝ, 0 ≤ τ → τ < δ → ∃ U, S.unitaries matrixExp H (-Complex.I * τ) = some U ∧
    ∀ (n : Nat) (Q : Nat → List (Tensor ℂ)), IsMPS ds (Q 0) → normSq ds (Q 0) ≠ 0 → Run svd eps dflt simplifyObc S U strategy n Q →
      normSq ds (Q n) ≠ 0 ∧ ∃ e₀ e, energy (Q 0) H = some e₀ ∧ energy (Q n) H = some e ∧
        e.re / normSq ds (Q n) ≤ e₀.re / normSq ds (Q 0) + n * bound τ

theorem energyDescends_of {svd : Tensor ℂ → SvdRes ℂ} {eps dflt : ℝ}
    (simplifyObc : List (Tensor ℂ) → Int → Nat → Bool → Nat → List (Tensor ℂ) × ℝ) {S : Solver} {strategy : Strategy} {ls : List (Nat × ℂ)}
    (h : StepIs svd eps dflt S strategy ls) {H : Ham ℂ} {ds : List Nat} (hH : HamFits H ds)
    (hT : HamTerms H ds False) (hper : H.periodic = false) (hS : Splits H ds) {p : Nat} {C δ : ℝ}
    (hb : ∀ τ : ℝ, 0 ≤ τ → τ < δ → ∀ φ, wnorm ds φ ≠ 0 →
      wnorm ds (layerSteps matrixExp H ds (-Complex.I * τ) ls φ) ≠ 0 ∧
      ray H ds (layerSteps matrixExp H ds (-Complex.I * τ) ls φ) ≤ ray H ds φ + C * τ ^ p) :
    EnergyDescends svd eps dflt simplifyObc S strategy H ds δ fun τ => C * τ ^ p := by
  intro τ h0 hτ
  obtain ⟨U, h1, h2⟩ := h simplifyObc matrixExp exists_goodExpm.dims H ds hH (-Complex.I * τ)
  refine ⟨U, h1, fun n Q hQ hN hr => ?_⟩
  have hw : ∀ P : List (Tensor ℂ), wnorm ds (amp P) ^ 2 = normSq ds P := by
    intro P
    rw [wnorm_sq, Real.sq_sqrt]
    have : normSq ds P = ∑ s : Cfg ds, ‖amp P s.1‖ ^ 2 := sumCfg_cfg ds _
    rw [this]; positivity
  have main : ∀ m ≤ n, IsMPS ds (Q m) ∧ wnorm ds (amp (Q m)) ≠ 0 ∧ ray H ds (amp (Q m)) ≤ ray H ds (amp (Q 0)) + m * (C * τ ^ p) := by
    intro m
    induction m with
    | zero =>
      refine fun _ => ⟨hQ, fun e => hN ?_, by simp⟩
      rw [← hw, e]; simp
    | succ m ih =>
      intro hm
      obtain ⟨i1, i2, i3⟩ := ih (by omega)
      obtain ⟨sense, Dmax, y, sense', c1, c2, c3, c4, c5⟩ := hr m (by omega)
      obtain ⟨y', s', g1, g2, -, -, g5⟩ := h2 (Q m) i1 sense Dmax c1
      rw [c2] at g1
      cases g1
      obtain ⟨b1, b2⟩ := hb τ h0 hτ (amp (Q m)) i2
      have e : vec ds (amp (Q (m + 1))) = vec ds (layerSteps matrixExp H ds (-Complex.I * τ) ls (amp (Q m))) := by
        funext s
        simp only [Order.vec]
        rw [c5]; exact g5 c3 c4 s.1 s.cfg
      refine ⟨by rw [c5]; exact g2, by rw [wnorm_congr e]; exact b1, ?_⟩
      have e2 : ray H ds (amp (Q (m + 1))) = ray H ds (layerSteps matrixExp H ds (-Complex.I * τ) ls (amp (Q m))) := by
        rw [ray_euclid, ray_euclid, e]
      rw [e2]
      push_cast
      linarith
  obtain ⟨m1, m2, m3⟩ := main n le_rfl
  refine ⟨fun e => m2 ?_, _, _, energy_chain hH hT hper hS hQ, energy_chain hH hT hper hS m1, ?_⟩
  · rw [wnorm_sq, e, Real.sqrt_zero]
  · simpa only [ray, hw] using m3

/-- **C134**: evolution in imaginary time with a Hermitian Hamiltonian of an open chain lowers the energy, up to an error of second order in
the time step with `Trotter2Solver` and of third order with `Trotter3Solver` -/
theorem C134_descends {svd : Tensor ℂ → SvdRes ℂ} (hg : GoodSvd svd) {eps : ℝ} (heps : 0 < eps) {dflt : ℝ} (hd0 : 0 < dflt)
    (simplifyObc : List (Tensor ℂ) → Int → Nat → Bool → Nat → List (Tensor ℂ) × ℝ) {H : Ham ℂ} {ds : List Nat} (hH : HamFits H ds)
    (hh : HamHermitian H ds) (hT : HamTerms H ds False) (hper : H.periodic = false) (hS : Splits H ds)
    (strategy : Strategy) (hst : strategy = .eachUnitary ∨ strategy = .doNotTruncate) :
    (∃ C δ : ℝ, 0 < δ ∧ EnergyDescends svd eps dflt simplifyObc (trotter2 eps) strategy H ds δ fun τ => C * τ ^ 2) ∧
    (∃ C δ : ℝ, 0 < δ ∧ EnergyDescends svd eps dflt simplifyObc (trotter3 eps) strategy H ds δ fun τ => C * τ ^ 3) := by
  obtain ⟨C2, δ2, c2, d2, h2⟩ := local2 hH
  obtain ⟨C3, δ3, c3, d3, h3⟩ := local3 hH
  obtain ⟨C, δ, -, hδ, h⟩ := energy_step hh (ls := steps2) (p := 2) (by omega) c2 d2 h2
  obtain ⟨C', δ', -, hδ', h'⟩ := energy_step hh (ls := steps3) (p := 3) (by omega) c3 d3 h3
  refine ⟨⟨C, δ, hδ, ?_⟩, ⟨C', δ', hδ', ?_⟩⟩
  · rcases hst with rfl | rfl
    · exact energyDescends_of simplifyObc (C59_trotter2 hg heps hd0).1 hH hT hper hS h
    · exact energyDescends_of simplifyObc (C59_trotter2 hg heps hd0).2 hH hT hper hS h
  · rcases hst with rfl | rfl
    · exact energyDescends_of simplifyObc (C59_trotter3 hg heps hd0).1 hH hT hper hS h'
    · exact energyDescends_of simplifyObc (C59_trotter3 hg heps hd0).2 hH hT hper hS h'

/-! ### C135 -/

/-- `g` is an eigenvector of the Hamiltonian with eigenvalue `E` -/
def Eigenvector (H : Ham ℂ) (ds : List Nat) (E : ℝ) (g : List Nat → ℂ) : Prop :=
  wnorm ds g ≠ 0 ∧ ∀ s, IsCfg ds s → actOp ds (chainElt H ds) g s = E * g s

/-- For every eigenvector `g` with eigenvalue `E`, accuracy `ε` and overlap `c`: if the total imaginary time `T = nτ` is long enough and then the
time step `τ` is short enough, every run of `n` steps in which no singular values are dropped, from a state whose squared overlap with `g` is
at least the fraction `c`, ends in a state which does not vanish and has the energy `E + ε` at most. -/
def FindsEigenvalue (svd : Tensor ℂ → SvdRes ℂ) (eps dflt : ℝ)
    (simplifyObc : List (Tensor ℂ) → Int → Nat → Bool → Nat → List (Tensor ℂ) × ℝ) (S : Solver) (strategy : Strategy) (H : Ham ℂ)
    (ds : List Nat) : Prop :=
  ∀ (E : ℝ) (g : List Nat → ℂ), Eigenvector H ds E g → ∀ c ε : ℝ, 0 < c → 0 < ε →
  ∃ T₀ : ℝ, ∀ T, T₀ ≤ T → ∃ δ : ℝ, 0 < δ ∧ ∀ τ : ℝ, 0 < τ → τ < δ → ∃ U, S.unitaries matrixExp H (-Complex.I * τ) = some U ∧
    ∀ (n : Nat) (Q : Nat → List (Tensor ℂ)), n * τ = T → IsMPS ds (Q 0) → normSq ds (Q 0) ≠ 0 →
      c * (wnorm ds g ^ 2 * normSq ds (Q 0)) ≤ ‖MPS.inner ds g (amp (Q 0))‖ ^ 2 →
      Run svd eps dflt simplifyObc S U strategy n Q →
      normSq ds (Q n) ≠ 0 ∧ ∃ e, energy (Q n) H = some e ∧ e.re / normSq ds (Q n) ≤ E + ε

theorem normSq_wnorm (ds : List Nat) (P : List (Tensor ℂ)) : wnorm ds (amp P) ^ 2 = normSq ds P := by
  rw [wnorm_sq, Real.sq_sqrt]
  have : normSq ds P = ∑ s : Cfg ds, ‖amp P s.1‖ ^ 2 := sumCfg_cfg ds _
  rw [this]; positivity

theorem findsEigenvalue_of {svd : Tensor ℂ → SvdRes ℂ} {eps dflt : ℝ}
    (simplifyObc : List (Tensor ℂ) → Int → Nat → Bool → Nat → List (Tensor ℂ) × ℝ) {S : Solver} {strategy : Strategy} {ls : List (Nat × ℂ)}
    (h : StepIs svd eps dflt S strategy ls) {H : Ham ℂ} {ds : List Nat} (hH : HamFits H ds) (hh : HamHermitian H ds)
    (hT : HamTerms H ds False) (hper : H.periodic = false) (hS : Splits H ds) {m : Nat} (hm : 1 ≤ m)
    (hb : ∀ T : ℝ, ∃ C δ : ℝ, 0 < δ ∧ RunError svd eps dflt simplifyObc S strategy H ds δ (fun dt => dt.im ≤ 0) (fun dt n => n * ‖dt‖ ≤ T)
      fun dt _ => C * ‖dt‖ ^ m) : FindsEigenvalue svd eps dflt simplifyObc S strategy H ds := by
  intro E g hg c ε hc hε
  refine ⟨max 1 (-Real.log c / ε), fun T hT0 => ?_⟩
  have hT1 : 1 ≤ T := (le_max_left _ _).trans hT0
  have hT2 : -Real.log c / ε ≤ T := (le_max_right _ _).trans hT0
  obtain ⟨C, δ, hδ, hrun⟩ := hb T
  set κ := Real.sqrt (c * Real.exp (-(2 * E * T))) with hκ
  have pκ : 0 < κ := Real.sqrt_pos.2 (by positivity)
  set B := |C| / κ with hB
  have pB : 0 ≤ B := by positivity
  refine ⟨min δ (min 1 (min (1 / (4 * (B + 1))) (ε / (48 * (‖hamL H ds‖ + 1) * (B + 1))))), by positivity, fun τ h0 hτ => ?_⟩
  obtain ⟨t1, t2, t3, t4⟩ : τ < δ ∧ τ < 1 ∧ τ < 1 / (4 * (B + 1)) ∧ τ < ε / (48 * (‖hamL H ds‖ + 1) * (B + 1)) := by
    simpa only [lt_min_iff] using hτ
  have hn : ‖-Complex.I * (τ : ℂ)‖ = τ := by simp [abs_of_pos h0]
  obtain ⟨U, u1, hr⟩ := hrun (-Complex.I * τ) (by simp [h0.le]) (by rwa [hn])
  refine ⟨U, u1, fun n Q hnT hQ hN ho hR => ?_⟩
  obtain ⟨ψ, hψ, hi⟩ := schroedinger_exists H ds (-Complex.I) (amp (Q 0))
  have v0 : vec ds (ψ 0) = vec ds (amp (Q 0)) := funext fun s => hi s.1 s.cfg
  have d := hr n (by beta_reduce; rw [hn, hnT]) Q hQ hR (-Complex.I) τ ψ hψ rfl hi
  beta_reduce at d
  rw [hn] at d
  simp only [hnT] at d
  have hmps : IsMPS ds (Q n) := by
    obtain ⟨U', e1, h2⟩ := h simplifyObc matrixExp exists_goodExpm.dims H ds hH (-Complex.I * τ)
    obtain rfl : U = U' := by rw [u1] at e1; simpa using e1
    have : ∀ i ≤ n, IsMPS ds (Q i) := by
      intro i
      induction i with
      | zero => intro _; exact hQ
      | succ i ih =>
        intro hi
        obtain ⟨sense, Dmax, y, sense', c1, c2, c3, c4, c5⟩ := hR i (by omega)
        obtain ⟨y', s', g1, g2, -⟩ := h2 (Q i) (ih (by omega)) sense Dmax c1
        rw [c2] at g1
        cases g1
        rw [c5]; exact g2
    exact this n le_rfl
  have w0 : wnorm ds (ψ 0) ≠ 0 := by
    rw [wnorm_congr v0]
    intro e
    rw [← normSq_wnorm, e] at hN
    simp at hN
  have hg1 : (WithLp.toLp 2 (vec ds g) : EuclideanSpace ℂ (Cfg ds)) ≠ 0 := by
    intro e
    exact hg.1 (by rw [wnorm_euclid, e, norm_zero])
  have hg2 : hamL H ds (WithLp.toLp 2 (vec ds g)) = (E : ℂ) • WithLp.toLp 2 (vec ds g) := by
    rw [hamL_vec]
    ext s
    simpa [Order.vec] using hg.2 s.1 s.cfg
  obtain ⟨f1, f2⟩ := flow_ray (hamL_symm hh) (flow_deriv hψ) (flow_ne_zero hψ w0) hg1 hg2 hc
    (by rw [v0, ← wnorm_euclid, ← wnorm_euclid, ← inner_euclid, normSq_wnorm]; exact ho) (lt_of_lt_of_le one_pos hT1)
  rw [v0, ← wnorm_euclid] at f1
  have px : 0 < wnorm ds (amp (Q 0)) := lt_of_le_of_ne (wnorm_nonneg _ _) (by rw [← wnorm_congr v0]; exact Ne.symm w0)
  have f3 : κ * wnorm ds (amp (Q 0)) ≤ ‖(WithLp.toLp 2 (vec ds (ψ T)) : EuclideanSpace ℂ (Cfg ds))‖ := by
    refine le_of_sq_le_sq ?_ (norm_nonneg _)
    rw [mul_pow, hκ, Real.sq_sqrt (by positivity)]
    exact f1
  set v : EuclideanSpace ℂ (Cfg ds) := WithLp.toLp 2 (vec ds (ψ T)) with hv
  have hvne : v ≠ 0 := flow_ne_zero hψ w0 T
  have hτm : τ ^ m ≤ τ := by
    calc τ ^ m ≤ τ ^ 1 := pow_le_pow_of_le_one h0.le t2.le hm
      _ = τ := pow_one τ
  have hd : ‖(WithLp.toLp 2 (vec ds (amp (Q n))) : EuclideanSpace ℂ (Cfg ds)) - v‖ ≤ B * τ * ‖v‖ := by
    unfold wdist at d
    rw [wnorm_euclid] at d
    refine le_trans d ?_
    calc C * τ ^ m * wnorm ds (amp (Q 0)) ≤ |C| * τ * wnorm ds (amp (Q 0)) := by
          gcongr
          exact le_abs_self C
      _ = B * τ * (κ * wnorm ds (amp (Q 0))) := by rw [hB]; field_simp
      _ ≤ B * τ * ‖v‖ := by gcongr
  have hη : B * τ ≤ 1 / 4 := by
    rw [lt_div_iff₀ (by positivity)] at t3
    nlinarith
  obtain ⟨e1, e2⟩ := ray_step (hamL H ds) hvne (by linarith [norm_nonneg v]) hd hη
  refine ⟨fun e => e1 ?_, _, energy_chain hH hT hper hS hmps, ?_⟩
  · rw [← normSq_wnorm, wnorm_euclid] at e
    exact norm_eq_zero.1 (by simpa using e)
  · rw [← ray_euclid] at e2
    have e3 : ray H ds (amp (Q n)) = (MPS.inner ds (amp (Q n)) (actOp ds (chainElt H ds) (amp (Q n)))).re / normSq ds (Q n) := by
      rw [ray, normSq_wnorm]
    rw [← e3]
    have e4 : -(Real.log c / (2 * T)) ≤ ε / 2 := by
      rw [div_le_iff₀ hε] at hT2
      rw [← neg_div, div_le_iff₀ (by positivity)]
      nlinarith
    have e5 : 24 * ‖hamL H ds‖ * (B * τ) ≤ ε / 2 := by
      rw [lt_div_iff₀ (by positivity)] at t4
      have l0 := norm_nonneg (hamL H ds)
      have : ‖hamL H ds‖ * B * τ ≤ (‖hamL H ds‖ + 1) * (B + 1) * τ := by gcongr <;> linarith
      nlinarith
    unfold rq at f2
    linarith

/-- `E` is the energy of the ground state: an eigenvalue, and no eigenvalue is lower -/
def GroundEnergy (H : Ham ℂ) (ds : List Nat) (E : ℝ) : Prop :=
  (∃ g, Eigenvector H ds E g) ∧ ∀ E' g, Eigenvector H ds E' g → E ≤ E'

/-- a vector, as a function of the configurations -/
noncomputable def ofVec {ds : List Nat} (x : EuclideanSpace ℂ (Cfg ds)) (s : List Nat) : ℂ :=
  open Classical in if h : s ∈ cfgs ds then x ⟨s, h⟩ else 0

theorem vec_ofVec {ds : List Nat} (x : EuclideanSpace ℂ (Cfg ds)) : (WithLp.toLp 2 (Order.vec ds (ofVec x)) : EuclideanSpace ℂ (Cfg ds)) = x := by
  ext s
  simp [Order.vec, ofVec, s.2]

theorem eigenvector_of {H : Ham ℂ} {ds : List Nat} {E : ℝ} {x : EuclideanSpace ℂ (Cfg ds)} (hx : x ≠ 0) (h : hamL H ds x = (E : ℂ) • x) :
    Eigenvector H ds E (ofVec x) := by
  refine ⟨fun e => hx ?_, fun s hs => ?_⟩
  · rw [wnorm_euclid, vec_ofVec] at e
    exact norm_eq_zero.1 e
  · have h1 := hamL_vec H ds (ofVec x)
    rw [vec_ofVec, h] at h1
    have h2 := congrArg (fun v : EuclideanSpace ℂ (Cfg ds) => v ⟨s, mem_cfgs.2 hs⟩) h1
    have h3 : ofVec x s = x ⟨s, mem_cfgs.2 hs⟩ := by simp [ofVec, mem_cfgs.2 hs]
    rw [h3]
    simpa [Order.vec] using h2.symm

/-- the smallest value of the Rayleigh quotient is an eigenvalue -/
theorem ground_exists {H : Ham ℂ} {ds : List Nat} (hh : HamHermitian H ds) {φ : List Nat → ℂ} (hφ : wnorm ds φ ≠ 0) :
    ∃ E g, Eigenvector H ds E g ∧ ∀ χ, wnorm ds χ ≠ 0 → E ≤ ray H ds χ := by
  have hne : (WithLp.toLp 2 (Order.vec ds φ) : EuclideanSpace ℂ (Cfg ds)) ≠ 0 := by
    intro e
    exact hφ (by rw [wnorm_euclid, e, norm_zero])
  have : Nontrivial (EuclideanSpace ℂ (Cfg ds)) := ⟨⟨_, _, hne⟩⟩
  have hs : (hamL H ds).toLinearMap.IsSymmetric := fun x y => hamL_symm hh x y
  obtain ⟨x, hx⟩ := hs.hasEigenvalue_iInf_of_finiteDimensional.exists_hasEigenvector
  refine ⟨_, _, eigenvector_of hx.2 hx.apply_eq_smul, fun χ hχ => ?_⟩
  have hne' : (WithLp.toLp 2 (Order.vec ds χ) : EuclideanSpace ℂ (Cfg ds)) ≠ 0 := by
    intro e
    exact hχ (by rw [wnorm_euclid, e, norm_zero])
  have hb : BddBelow (Set.range fun y : { y : EuclideanSpace ℂ (Cfg ds) // y ≠ 0 } =>
      RCLike.re (Inner.inner ℂ ((hamL H ds).toLinearMap y) (y : EuclideanSpace ℂ (Cfg ds)) : ℂ) / ‖(y : EuclideanSpace ℂ (Cfg ds))‖ ^ 2) := by
    refine ⟨-‖hamL H ds‖, ?_⟩
    rintro _ ⟨y, rfl⟩
    have py : 0 < ‖(y : EuclideanSpace ℂ (Cfg ds))‖ := norm_pos_iff.2 y.2
    beta_reduce
    rw [le_div_iff₀ (by positivity)]
    have h1 := RCLike.abs_re_le_norm (Inner.inner ℂ ((hamL H ds) y) (y : EuclideanSpace ℂ (Cfg ds)) : ℂ)
    have h2 := norm_inner_le_norm (𝕜 := ℂ) ((hamL H ds) y) (y : EuclideanSpace ℂ (Cfg ds))
    have h3 := (hamL H ds).le_opNorm y
    have h4 : ‖(hamL H ds) y‖ * ‖(y : EuclideanSpace ℂ (Cfg ds))‖ ≤ ‖hamL H ds‖ * ‖(y : EuclideanSpace ℂ (Cfg ds))‖ * ‖(y : EuclideanSpace ℂ (Cfg ds))‖ := by gcongr
    have h5 := neg_le_of_abs_le ((h1.trans h2).trans h4)
    calc _ = -(‖hamL H ds‖ * ‖(y : EuclideanSpace ℂ (Cfg ds))‖ * ‖(y : EuclideanSpace ℂ (Cfg ds))‖) := by ring
      _ ≤ _ := h5
  refine (ciInf_le hb ⟨_, hne'⟩).trans (le_of_eq ?_)
  rw [ray_euclid]
  simp only [ContinuousLinearMap.coe_coe]
  rw [hamL_symm hh]
  rfl

/-- **C135**: imaginary time evolution with a Hermitian Hamiltonian of an open chain finds the energy of the ground state: it comes as close to it
from above as wanted, and never gets below it. -/
theorem C135_ground_state {svd : Tensor ℂ → SvdRes ℂ} (hg : GoodSvd svd) {eps : ℝ} (heps : 0 < eps) {dflt : ℝ} (hd0 : 0 < dflt)
    (simplifyObc : List (Tensor ℂ) → Int → Nat → Bool → Nat → List (Tensor ℂ) × ℝ) {H : Ham ℂ} {ds : List Nat} (hH : HamFits H ds)
    (hh : HamHermitian H ds) (hT : HamTerms H ds False) (hper : H.periodic = false) (hS : Splits H ds)
    (strategy : Strategy) (hst : strategy = .eachUnitary ∨ strategy = .doNotTruncate) :
    FindsEigenvalue svd eps dflt simplifyObc (trotter2 eps) strategy H ds ∧ FindsEigenvalue svd eps dflt simplifyObc (trotter3 eps) strategy H ds ∧
    ∀ P, IsMPS ds P → normSq ds P ≠ 0 → ∃ E e, GroundEnergy H ds E ∧ energy P H = some e ∧ E ≤ e.re / normSq ds P := by
  refine ⟨?_, ?_, fun P hP hN => ?_⟩
  · have hb : ∀ T : ℝ, ∃ C δ : ℝ, 0 < δ ∧ RunError svd eps dflt simplifyObc (trotter2 eps) strategy H ds δ (fun dt => dt.im ≤ 0)
        (fun dt n => n * ‖dt‖ ≤ T) fun dt _ => C * ‖dt‖ ^ 1 := by
      intro T
      simpa only [pow_one] using C113_trotter2 hg heps hd0 simplifyObc hH strategy hst T
    rcases hst with rfl | rfl
    · exact findsEigenvalue_of simplifyObc (C59_trotter2 hg heps hd0).1 hH hh hT hper hS le_rfl hb
    · exact findsEigenvalue_of simplifyObc (C59_trotter2 hg heps hd0).2 hH hh hT hper hS le_rfl hb
  · have hb := C113_trotter3 hg heps hd0 simplifyObc hH strategy hst
    rcases hst with rfl | rfl
    · exact findsEigenvalue_of simplifyObc (C59_trotter3 hg heps hd0).1 hH hh hT hper hS (by omega) hb
    · exact findsEigenvalue_of simplifyObc (C59_trotter3 hg heps hd0).2 hH hh hT hper hS (by omega) hb
  · have hw : wnorm ds (amp P) ≠ 0 := fun e => hN (by rw [← normSq_wnorm, e]; simp)
    obtain ⟨E, g, h1, h2⟩ := ground_exists hh hw
    refine ⟨E, _, ⟨⟨g, h1⟩, fun E' g' h' => ?_⟩, energy_chain hH hT hper hS hP, ?_⟩
    · have h3 := h2 g' h'.1
      have pg : 0 < ‖(WithLp.toLp 2 (Order.vec ds g') : EuclideanSpace ℂ (Cfg ds))‖ := by
        rw [← wnorm_euclid]; exact lt_of_le_of_ne (wnorm_nonneg _ _) (Ne.symm h'.1)
      have h4 : hamL H ds (WithLp.toLp 2 (Order.vec ds g')) = (E' : ℂ) • WithLp.toLp 2 (Order.vec ds g') := by
        rw [hamL_vec]
        ext s
        simpa [Order.vec] using h'.2 s.1 s.cfg
      rw [ray_euclid, h4, inner_smul_right, inner_self_eq_norm_sq_to_K] at h3
      have h5 : ((E' : ℂ) * ((‖(WithLp.toLp 2 (Order.vec ds g') : EuclideanSpace ℂ (Cfg ds))‖ : ℝ) : ℂ) ^ 2).re =
          E' * ‖(WithLp.toLp 2 (Order.vec ds g') : EuclideanSpace ℂ (Cfg ds))‖ ^ 2 := by
        rw [← Complex.ofReal_pow, ← Complex.ofReal_mul, Complex.ofReal_re]
      refine h3.trans (le_of_eq ?_)
      rw [div_eq_iff (by positivity)]
      exact h5
    · have := h2 (amp P) hw
      rwa [ray, normSq_wnorm] at this

/-- one spin with the energies `0` and `1` -/
noncomputable def oneSpin : Ham ℂ :=
  ⟨1, fun _ => 2, fun _ => ⟨[2, 2], fun i => if i.getD 0 0 = i.getD 1 0 then i.getD 0 0 else 0⟩, fun _ => Tensor.empty, fun _ => 0,
    fun _ _ => Tensor.empty, fun _ _ => Tensor.empty, false⟩

/-- the hypotheses are met by `oneSpin` and its runs of every length, and (without the runs) by `pairHamSplit`, as shown for C133 -/
example : HamFits oneSpin [2] ∧ HamHermitian oneSpin [2] ∧ HamTerms oneSpin [2] False ∧ oneSpin.periodic = false ∧ Splits oneSpin [2] ∧
    Eigenvector oneSpin [2] 0 (fun s => if s.getD 0 0 = 0 then 1 else 0) ∧
    ∀ (svd : Tensor ℂ → SvdRes ℂ) (eps dflt : ℝ) (simplifyObc : List (Tensor ℂ) → Int → Nat → Bool → Nat → List (Tensor ℂ) × ℝ)
      (dt : ℂ), ∃ U, (trotter2 eps).unitaries matrixExp oneSpin dt = some U ∧
      ∀ (A : Tensor ℂ) (n : Nat), ∃ Q, Q 0 = [A] ∧ Run svd eps dflt simplifyObc (trotter2 eps) U .doNotTruncate n Q := by
  refine ⟨⟨rfl, ?_, ?_, ?_⟩, ⟨?_, ?_⟩, ⟨rfl, ?_, ?_, ?_, False.elim, False.elim⟩, rfl, ?_, ⟨?_, ?_⟩, ?_⟩
  · intro p hp; obtain rfl : p = 0 := by simp at hp; omega
    rfl
  · intro p hp; obtain rfl : p = 0 := by simp at hp; omega
    rfl
  · intro p hp; simp at hp
  · intro p _ x y _ _
    by_cases h : x = y <;> simp [oneSpin, h, eq_comm]
  · intro p hp; simp at hp
  · intro p hp; obtain rfl : p = 0 := by simp at hp; omega
    exact Or.inr rfl
  · intro p n hp; simp at hp
  · intro p n hp; simp at hp
  · intro p hp; simp at hp
  · unfold wnorm
    refine (Real.sqrt_pos.2 ?_).ne'
    simp [sumCfg, Finset.sum_range_succ]
  · intro s hs
    simp [actOp, chainElt, sumCfg, embed1, oneSpin]
  · intro svd eps dflt simplifyObc dt
    have key : ∃ U, (trotter2 eps).unitaries matrixExp oneSpin dt = some U ∧ ∀ A : Tensor ℂ, ∃ y s,
        oneStep svd eps dflt simplifyObc (trotter2 eps) U .doNotTruncate false 1 [A] 0 = some (y, s) ∧
        y.err = 0 ∧ y.hidden = 0 ∧ ∃ B, [B] = y.P := by
      have hH : oneSpin.size = 1 := rfl
      refine ⟨_, by simp [Solver.unitaries, trotter2, mkUnitary]; rfl, fun A => ⟨_, _, by simp [oneStep]; rfl, ?_, ?_, ?_⟩⟩
      · simp [runCall, trotter2, Trotter.apply, hH, layerEnd, loopUp, loopDown, applyOne]
      · simp [runCall, trotter2, Trotter.apply, hH, layerEnd, loopUp, loopDown, applyOne]
      · simp [runCall, trotter2, Trotter.apply, hH, layerEnd, loopUp, loopDown, applyOne]
    obtain ⟨U, hU, key⟩ := key
    refine ⟨U, hU, fun A n => ?_⟩
    choose y s h1 h2 h3 f h4 using key
    exact ⟨fun i => [f^[i] A], rfl, fun i _ => ⟨1, 0, y _, s _, fun h => absurd rfl h, h1 _, h2 _, h3 _, by
      rw [← h4]; beta_reduce; rw [Function.iterate_succ_apply']⟩⟩

end MPS.Props
