import Verif.Props.ComplexTruncProps
import Verif.Props.ImagTimeProps

/-!
# C140: the ground state, with truncation

C135 is about runs in which no singular value is dropped.  Here the solvers truncate after each gate, with `Dmax > 0`.
-/

set_option linter.unusedSectionVars false
set_option linter.unusedSimpArgs false

namespace MPS.Props
open MPS Tensor Trotter Order Minim Matrix

/-- For every eigenvector `g` with eigenvalue `E`, accuracy `ε` and overlap `c`: if the total imaginary time `T = nτ` is long enough, then the time step
`τ` short enough and the truncation errors small enough (for all values of the tolerances: the sum over the steps of the square roots of the errors reported, plus the norms times the
square root of the tolerance, is at most `η` times the initial norm), every run of `n` steps with `TRUNCATE_EACH_UNITARY`, whatever the values of `Dmax`,
from a state in canonical form whose squared overlap with `g` is at least the fraction `c`, ends in a state which does not vanish and has the energy
`E + ε` at most. -/
def FindsEigenvalueTruncated (S : ℝ → Solver) (H : Ham ℂ) (ds : List Nat) : Prop :=
  ∀ (E : ℝ) (g : List Nat → ℂ), Eigenvector H ds E g → ∀ c ε : ℝ, 0 < c → 0 < ε →
  ∃ T₀ : ℝ, ∀ T, T₀ ≤ T → ∃ δ η : ℝ, 0 < δ ∧ 0 < η ∧
    ∀ (svd : Tensor ℂ → SvdRes ℂ) (eps dflt : ℝ) (single : Bool) (tolerance : ℝ), GoodSvd svd → SortedSvd svd → 0 < dflt → max dflt eps < 1 →
    ∀ τ : ℝ, 0 < τ → τ < δ → ∃ U, (S eps).unitaries matrixExp H (-Complex.I * τ) = some U ∧
    ∀ (n : Nat) (Q : Nat → List (Tensor ℂ)) (sense : Nat → Int) (err : Nat → ℝ), n * τ = T → ReadyFor ds (Q 0) (sense 0) → normSq ds (Q 0) ≠ 0 →
      c * (wnorm ds g ^ 2 * normSq ds (Q 0)) ≤ ‖MPS.inner ds g (amp (Q 0))‖ ^ 2 →
      TruncatingRun svd eps dflt single tolerance (S eps) U false n Q sense err →
      ∑ i ∈ Finset.range n, (Real.sqrt (err i) + Real.sqrt (normSq ds (Q i)) * Real.sqrt (max dflt eps)) ≤ η * Real.sqrt (normSq ds (Q 0)) →
      normSq ds (Q n) ≠ 0 ∧ ∃ e, energy (Q n) H = some e ∧ e.re / normSq ds (Q n) ≤ E + ε

theorem sqrt_normSq (ds : List Nat) (P : List (Tensor ℂ)) : Real.sqrt (normSq ds P) = wnorm ds (amp P) := by
  rw [← normSq_wnorm, Real.sqrt_sq (wnorm_nonneg _ _)]

open scoped Matrix.Norms.Operator in
/-- growth of the exact solution -/
theorem flow_le {H : Ham ℂ} {ds : List Nat} (hH : HamFits H ds) {w : ℂ} {τ : ℝ} {dt : ℂ} {ψ : ℝ → List Nat → ℂ} (hψ : Schroedinger H ds w ψ)
    (hw : w * τ = dt) {T : ℝ} (m : Nat) (hm : m * ‖dt‖ ≤ T) :
    wnorm ds (ψ (m * τ)) ≤ Real.sqrt (Fintype.card (Cfg ds)) * Real.exp (T * rate H ds) * wnorm ds (ψ 0) := by
  have r0 : 0 ≤ rate H ds := by unfold rate; positivity
  have key : ∀ m : Nat, ‖vec ds (ψ (m * τ))‖ ≤ Real.exp (m * (‖dt‖ * rate H ds)) * ‖vec ds (ψ 0)‖ := by
    intro m
    induction m with
    | zero => simp
    | succ m ih =>
      have e := exact_run hψ hw m
      have e' : vec ds (ψ ((m + 1 : Nat) * τ)) = NormedSpace.exp ((-Complex.I * dt) • hamMat H ds) *ᵥ vec ds (ψ (m * τ)) := e
      rw [e']
      have h1 := exact_le hH (-Complex.I * dt)
      rw [norm_rot] at h1
      refine (Matrix.linfty_opNorm_mulVec _ _).trans ((mul_le_mul h1 ih (norm_nonneg _) (Real.exp_pos _).le).trans (le_of_eq ?_))
      rw [← mul_assoc, ← Real.exp_add]
      congr 2
      push_cast; ring
  refine (wnorm_le_vec ds _).trans ?_
  rw [mul_assoc]
  refine mul_le_mul_of_nonneg_left ((key m).trans ?_) (Real.sqrt_nonneg _)
  refine mul_le_mul (Real.exp_le_exp.2 ?_) (vec_le_wnorm ds _) (norm_nonneg _) (Real.exp_pos _).le
  rw [← mul_assoc]
  exact mul_le_mul_of_nonneg_right hm r0

set_option maxHeartbeats 1000000 in
theorem findsTruncated_of {S : ℝ → Solver} {ls : List (Nat × ℂ)}
    {H : Ham ℂ} {ds : List Nat} (hH : HamFits H ds) (hh : HamHermitian H ds)
    (hT : HamTerms H ds False) (hper : H.periodic = false) (hS : Splits H ds) {K : ℝ}
    (hst' : ∀ (svd : Tensor ℂ → SvdRes ℂ) (eps dflt : ℝ) (single : Bool) (tolerance : ℝ), GoodSvd svd → SortedSvd svd → 0 < dflt → max dflt eps < 1 →
      StepTruncatedComplex svd eps dflt single tolerance (S eps) ls H ds 1 K) {p : Nat} (hp : 2 ≤ p)
    (hb : ∀ T : ℝ, ∃ C δ : ℝ, 0 < δ ∧
      ∀ (svd : Tensor ℂ → SvdRes ℂ) (eps dflt : ℝ) (single : Bool) (tolerance : ℝ), GoodSvd svd → SortedSvd svd → 0 < dflt → max dflt eps < 1 →
        RunTruncatedComplex svd eps dflt single tolerance (S eps) H ds T δ C p) :
    FindsEigenvalueTruncated S H ds := by
  intro E g hg c ε hc hε
  refine ⟨max 1 (-Real.log c / ε), fun T hT0 => ?_⟩
  have hT1 : 1 ≤ T := (le_max_left _ _).trans hT0
  have hT2 : -Real.log c / ε ≤ T := (le_max_right _ _).trans hT0
  have pT : 0 < T := lt_of_lt_of_le one_pos hT1
  obtain ⟨C, δ, hδ, hrun'⟩ := hb T
  set κ := Real.sqrt (c * Real.exp (-(2 * E * T))) with hκ
  have pκ : 0 < κ := Real.sqrt_pos.2 (by positivity)
  set B := |C| / κ with hB
  have pB : 0 ≤ B := by positivity
  set G := Real.sqrt (Fintype.card (Cfg ds)) * Real.exp (T * rate H ds) with hG
  have pG : 0 ≤ G := by positivity
  set M := 2 * (G + |C| + 1) with hM
  have pM : 0 < M := by positivity
  set θ := min (1 / 4) (ε / (48 * (‖hamL H ds‖ + 1))) / (B + 1) with hθ
  have pθ : 0 < θ := by positivity
  refine ⟨min (min δ 1) (min (1 / (2 * (|C| + 1) * T)) (θ / (2 * M * T))), min 1 (θ / 2), by positivity, by positivity,
    fun svd eps dflt single tolerance hgs hsort hd0 hm τ h0 hτ => ?_⟩
  have hrun := hrun' svd eps dflt single tolerance hgs hsort hd0 hm
  have hst := hst' svd eps dflt single tolerance hgs hsort hd0 hm
  obtain ⟨⟨t1, t2⟩, t3, t4⟩ : (τ < δ ∧ τ < 1) ∧ τ < 1 / (2 * (|C| + 1) * T) ∧ τ < θ / (2 * M * T) := by
    simpa only [lt_min_iff] using hτ
  set η := min 1 (θ / 2) with hη
  have hη1 : η ≤ 1 := min_le_left _ _
  have hη2 : η ≤ θ / 2 := min_le_right _ _
  have pη : 0 < η := by positivity
  have hn : ‖-Complex.I * (τ : ℂ)‖ = τ := by simp [abs_of_pos h0]
  obtain ⟨U, u1, hr⟩ := hrun (-Complex.I * τ) (by simp [h0.le]) (by rwa [hn])
  obtain ⟨U', u2, hstep⟩ := hst (-Complex.I * τ) (by rw [hn]; exact t2.le)
  obtain rfl : U = U' := by rw [u1] at u2; simpa using u2
  refine ⟨U, u1, fun n Q sense err hnT hQ hN ho hR hsm => ?_⟩
  have hready : ∀ i ≤ n, ReadyFor ds (Q i) (sense i) := by
    intro i
    induction i with
    | zero => intro _; exact hQ
    | succ i ih =>
      intro hi
      obtain ⟨Dmax, y, c1, -, c3, c4, c5⟩ := hR i (by omega)
      obtain ⟨y', s', e1, e2, -⟩ := hstep (Q i) (sense i) Dmax (ih (by omega)) c1
      rw [c3] at e1
      cases e1
      rw [c4]; exact e2
  have hmps : IsMPS ds (Q n) := ⟨(hready n le_rfl).nonempty, 1, (hready n le_rfl).wf⟩
  obtain ⟨ψ, hψ, hi⟩ := schroedinger_exists H ds (-Complex.I) (amp (Q 0))
  have v0 : vec ds (ψ 0) = vec ds (amp (Q 0)) := funext fun s => hi s.1 s.cfg
  set w := fun i => wnorm ds (amp (Q i)) with hw
  have w0 : ∀ i, 0 ≤ w i := fun i => wnorm_nonneg _ _
  have hψ0 : wnorm ds (ψ 0) = w 0 := wnorm_congr v0
  have px : 0 < w 0 := by
    refine lt_of_le_of_ne (w0 0) (fun e => hN ?_)
    rw [← normSq_wnorm]
    show w 0 ^ 2 = 0
    rw [← e]; simp
  simp only [sqrt_normSq] at hsm
  have hdist : ∀ m ≤ n, wdist ds (amp (Q m)) (ψ (m * τ)) ≤ |C| * ((∑ i ∈ Finset.range m, w i) * τ ^ p + η * w 0) := by
    intro m hm
    have hmT : (m : ℝ) * ‖-Complex.I * (τ : ℂ)‖ ≤ T := by
      rw [hn, ← hnT]
      have : (m : ℝ) ≤ n := by exact_mod_cast hm
      gcongr
    have d := hr m Q sense err hmT hQ (fun i hi => hR i (by omega)) (-Complex.I) τ ψ hψ rfl hi
    rw [hn] at d
    have hs : ∑ i ∈ Finset.range m, (Real.sqrt (err i) + w i * Real.sqrt (max dflt eps)) ≤ η * w 0 := by
      refine le_trans (Finset.sum_le_sum_of_subset_of_nonneg (Finset.range_mono hm) fun i _ _ => ?_) hsm
      have := w0 i
      positivity
    have e : ∑ i ∈ Finset.range m, (wnorm ds (amp (Q i)) * (τ ^ p + Real.sqrt (max dflt eps)) + Real.sqrt (err i)) =
        (∑ i ∈ Finset.range m, w i) * τ ^ p + ∑ i ∈ Finset.range m, (Real.sqrt (err i) + w i * Real.sqrt (max dflt eps)) := by
      rw [Finset.sum_mul, ← Finset.sum_add_distrib]
      exact Finset.sum_congr rfl fun i _ => by simp only [hw]; ring
    rw [e] at d
    have s0 : 0 ≤ (∑ i ∈ Finset.range m, w i) * τ ^ p + ∑ i ∈ Finset.range m, (Real.sqrt (err i) + w i * Real.sqrt (max dflt eps)) := by
      refine add_nonneg (mul_nonneg (Finset.sum_nonneg fun i _ => w0 i) (by positivity)) (Finset.sum_nonneg fun i _ => ?_)
      have := w0 i
      positivity
    calc _ ≤ _ := d
      _ ≤ |C| * _ := mul_le_mul_of_nonneg_right (le_abs_self C) s0
      _ ≤ _ := mul_le_mul_of_nonneg_left (by linarith) (abs_nonneg C)
  have hτp : τ ^ p ≤ τ ^ 2 := pow_le_pow_of_le_one h0.le t2.le hp
  have hsum : ∀ m ≤ n, (∀ i < m, w i ≤ M * w 0) → (∑ i ∈ Finset.range m, w i) * τ ^ p ≤ M * w 0 * (T * τ) := by
    intro m hm h
    have h1 : ∑ i ∈ Finset.range m, w i ≤ m * (M * w 0) := by
      refine (Finset.sum_le_sum fun i hi => h i (Finset.mem_range.1 hi)).trans ?_
      simp
    have h2 : (m : ℝ) * τ ≤ T := by
      rw [← hnT]
      have : (m : ℝ) ≤ n := by exact_mod_cast hm
      gcongr
    calc _ ≤ m * (M * w 0) * τ ^ 2 := by gcongr
      _ = M * w 0 * (m * τ * τ) := by ring
      _ ≤ _ := by gcongr
  have hCt : |C| * (T * τ) ≤ 1 / 2 := by
    rw [lt_div_iff₀ (by positivity)] at t3
    have := abs_nonneg C
    have hTt : 0 < T * τ := by positivity
    nlinarith
  have hgrow : ∀ m, m ≤ n → w m ≤ M * w 0 := by
    intro m
    induction m using Nat.strong_induction_on with
    | _ m ih =>
      intro hm
      have h1 := hsum m hm fun i hi => ih i hi (by omega)
      have h2 := hdist m hm
      have h3 : wnorm ds (ψ (m * τ)) ≤ G * w 0 := by
        have hmT : (m : ℝ) * ‖-Complex.I * (τ : ℂ)‖ ≤ T := by
          rw [hn, ← hnT]
          have : (m : ℝ) ≤ n := by exact_mod_cast hm
          gcongr
        have := flow_le hH hψ (τ := τ) rfl m hmT
        rw [hψ0] at this
        exact this
      have h4 : w m ≤ wdist ds (amp (Q m)) (ψ (m * τ)) + wnorm ds (ψ (m * τ)) := by
        show wnorm ds (amp (Q m)) ≤ _
        unfold wdist
        rw [wnorm_euclid, wnorm_euclid, wnorm_euclid]
        have : (WithLp.toLp 2 (vec ds (amp (Q m))) : EuclideanSpace ℂ (Cfg ds)) =
            WithLp.toLp 2 (vec ds fun s => amp (Q m) s - ψ (m * τ) s) + WithLp.toLp 2 (vec ds (ψ (m * τ))) := by
          ext s; simp [Order.vec]
        rw [this]
        exact norm_add_le _ _
      have h5 : |C| * ((∑ i ∈ Finset.range m, w i) * τ ^ p + η * w 0) ≤ M / 2 * w 0 + |C| * w 0 := by
        calc _ ≤ |C| * (M * w 0 * (T * τ) + 1 * w 0) := by gcongr
          _ = (|C| * (T * τ)) * (M * w 0) + |C| * w 0 := by ring
          _ ≤ 1 / 2 * (M * w 0) + |C| * w 0 := by gcongr
          _ = _ := by ring
      have : M / 2 * w 0 + |C| * w 0 + G * w 0 + w 0 = M * w 0 := by rw [hM]; ring
      linarith
  have d := hdist n le_rfl
  have dsum := hsum n le_rfl fun i hi => hgrow i (by omega)
  rw [hnT] at d
  have hg1 : (WithLp.toLp 2 (vec ds g) : EuclideanSpace ℂ (Cfg ds)) ≠ 0 := by
    intro e
    exact hg.1 (by rw [wnorm_euclid, e, norm_zero])
  have hg2 : hamL H ds (WithLp.toLp 2 (vec ds g)) = (E : ℂ) • WithLp.toLp 2 (vec ds g) := by
    rw [hamL_vec]
    ext s
    simpa [Order.vec] using hg.2 s.1 s.cfg
  have hψne : wnorm ds (ψ 0) ≠ 0 := by rw [hψ0]; exact px.ne'
  obtain ⟨f1, f2⟩ := flow_ray (hamL_symm hh) (flow_deriv hψ) (flow_ne_zero hψ hψne) hg1 hg2 hc
    (by rw [v0, ← wnorm_euclid, ← wnorm_euclid, ← inner_euclid, normSq_wnorm]; exact ho) pT
  rw [v0, ← wnorm_euclid] at f1
  have f3 : κ * w 0 ≤ ‖(WithLp.toLp 2 (vec ds (ψ T)) : EuclideanSpace ℂ (Cfg ds))‖ := by
    refine le_of_sq_le_sq ?_ (norm_nonneg _)
    rw [mul_pow, hκ, Real.sq_sqrt (by positivity)]
    exact f1
  set v : EuclideanSpace ℂ (Cfg ds) := WithLp.toLp 2 (vec ds (ψ T)) with hv
  have hvne : v ≠ 0 := flow_ne_zero hψ hψne T
  set ζ := M * (T * τ) + η with hζ
  have pζ : 0 < ζ := by positivity
  have hζθ : ζ ≤ θ := by
    rw [lt_div_iff₀ (by positivity)] at t4
    have : M * (T * τ) ≤ θ / 2 := by
      have e : τ * (2 * M * T) = 2 * (M * (T * τ)) := by ring
      rw [e] at t4
      linarith
    linarith
  have hd : ‖(WithLp.toLp 2 (vec ds (amp (Q n))) : EuclideanSpace ℂ (Cfg ds)) - v‖ ≤ B * ζ * ‖v‖ := by
    unfold wdist at d
    rw [wnorm_euclid] at d
    refine le_trans d ?_
    calc |C| * ((∑ i ∈ Finset.range n, w i) * τ ^ p + η * w 0) ≤ |C| * (M * w 0 * (T * τ) + η * w 0) := by gcongr
      _ = B * ζ * (κ * w 0) := by rw [hB, hζ]; field_simp
      _ ≤ B * ζ * ‖v‖ := by gcongr
  have hBζ : B * ζ ≤ min (1 / 4) (ε / (48 * (‖hamL H ds‖ + 1))) := by
    have h1 : (B + 1) * θ = min (1 / 4) (ε / (48 * (‖hamL H ds‖ + 1))) := by rw [hθ]; field_simp
    rw [← h1]
    exact mul_le_mul (by linarith) hζθ pζ.le (by positivity)
  obtain ⟨e1, e2⟩ := ray_step (hamL H ds) hvne (by linarith [norm_nonneg v]) hd (hBζ.trans (min_le_left _ _))
  refine ⟨fun e => e1 ?_, _, energy_chain hH hT hper hS hmps, ?_⟩
  · rw [← normSq_wnorm, wnorm_euclid] at e
    exact norm_eq_zero.1 (by simpa using e)
  · rw [← ray_euclid] at e2
    have e3 : ray H ds (amp (Q n)) = (MPS.inner ds (amp (Q n)) (actOp ds (chainElt H ds) (amp (Q n)))).re / normSq ds (Q n) := by
      rw [ray, normSq_wnorm]
    rw [← e3]
    have e4 : -(Real.log c / (2 * T)) ≤ ε / 2 := by
      rw [div_le_iff₀ hε] at hT2
      rw [← neg_div, div_le_iff₀ (by positivity)]
      nlinarith
    have e5 : 24 * ‖hamL H ds‖ * (B * ζ) ≤ ε / 2 := by
      have l0 := norm_nonneg (hamL H ds)
      have h1 : B * ζ ≤ ε / (48 * (‖hamL H ds‖ + 1)) := hBζ.trans (min_le_right _ _)
      rw [le_div_iff₀ (by positivity)] at h1
      have : 0 ≤ B * ζ := by positivity
      nlinarith
    unfold rq at f2
    linarith

/-- **C140**: imaginary time evolution with truncation finds the energy of the ground state, as long as the truncation errors are small -/
theorem C140_ground_state {H : Ham ℂ} {ds : List Nat} (hH : HamFits H ds)
    (hh : HamHermitian H ds) (hT : HamTerms H ds False) (hper : H.periodic = false) (hS : Splits H ds) :
    FindsEigenvalueTruncated trotter2 H ds ∧ FindsEigenvalueTruncated trotter3 H ds := by
  obtain ⟨K, hK, h⟩ := C138_step hH zero_le_one
  refine ⟨findsTruncated_of (ls := steps2) (K := K) hH hh hT hper hS (fun svd eps dflt single tolerance h1 h2 h3 h4 => (h svd eps dflt single tolerance h1 h2 h3 h4).1)
      (p := 2) le_rfl fun T => ?_,
    findsTruncated_of (ls := steps3) (K := K) hH hh hT hper hS (fun svd eps dflt single tolerance h1 h2 h3 h4 => (h svd eps dflt single tolerance h1 h2 h3 h4).2.1)
      (p := 3) (by omega) fun T => ?_⟩
  all_goals obtain ⟨C, δ, hδ, hr⟩ := C138_run hH T
  · exact ⟨C, δ, hδ, fun svd eps dflt single tolerance h1 h2 h3 h4 => (hr svd eps dflt single tolerance h1 h2 h3 h4).1⟩
  · exact ⟨C, δ, hδ, fun svd eps dflt single tolerance h1 h2 h3 h4 => (hr svd eps dflt single tolerance h1 h2 h3 h4).2⟩

end MPS.Props
