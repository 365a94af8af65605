import Verif.ImagTrunc4
import Verif.Props.ImagTimeProps
import Verif.Props.NormalizeProps

/-!
# C137: what truncation does to the energy in imaginary time

`Trotter2Solver` and `Trotter3Solver` with the time step `-iτ`, truncating after each gate, with and without normalisation.
-/

set_option linter.unusedSectionVars false
set_option linter.unusedSimpArgs false

namespace MPS.Props
open MPS Tensor Trotter Order Minim Matrix

theorem ray_le {E : Type} [NormedAddCommGroup E] [InnerProductSpace ℂ E] (L : E →L[ℂ] E) {u : E} (hu : u ≠ 0) :
    |(Inner.inner ℂ u (L u) : ℂ).re / ‖u‖ ^ 2| ≤ ‖L‖ := by
  have pu := norm_pos_iff.2 hu
  rw [abs_div, abs_of_pos (show 0 < ‖u‖ ^ 2 by positivity), div_le_iff₀ (by positivity)]
  refine (Complex.abs_re_le_norm _).trans ((norm_inner_le_norm _ _).trans ?_)
  have := mul_le_mul_of_nonneg_left (L.le_opNorm u) (norm_nonneg u)
  nlinarith

/-- the energy of a state `u` which is near the one obtained with the layers -/
theorem energy_near {H : Ham ℂ} {ds : List Nat} (hh : HamHermitian H ds) {ls : List (Nat × ℂ)} {p : Nat} {C δ : ℝ} (hC : 0 ≤ C) (hδ : 0 < δ)
    (hb : ∀ dt : ℂ, dt.im ≤ 0 → ‖dt‖ < δ → ∀ φ χ, Exact H ds dt φ χ →
      wdist ds (layerSteps matrixExp H ds dt ls φ) χ ≤ C * ‖dt‖ ^ p * wnorm ds φ) :
    ∃ C' δ' : ℝ, 0 ≤ C' ∧ 0 < δ' ∧ ∀ τ : ℝ, 0 ≤ τ → τ < δ' → ∀ (φ u : List Nat → ℂ) (η : ℝ), wnorm ds φ ≠ 0 → wnorm ds u ≠ 0 → 0 ≤ η →
      wdist ds u (layerSteps matrixExp H ds (-Complex.I * τ) ls φ) ≤ η * wnorm ds φ →
      ray H ds u ≤ ray H ds φ + C' * (τ ^ p + η) := by
  obtain ⟨B, β, hB, hβ, hs⟩ := exact_small H ds
  refine ⟨24 * ‖hamL H ds‖ * (C + 1), min (min δ β) (1 / (2 * (B + 1))), by positivity, by positivity, ?_⟩
  intro τ h0 hτ φ u η hφ hu hη hdist
  obtain ⟨⟨t1, t2⟩, t5⟩ : (τ < δ ∧ τ < β) ∧ τ < 1 / (2 * (B + 1)) := by
    simpa only [lt_min_iff] using hτ
  have hn : ‖-Complex.I * (τ : ℂ)‖ = τ := by simp [abs_of_nonneg h0]
  obtain ⟨ψ, hψ, hi⟩ := schroedinger_exists H ds (-Complex.I) φ
  have v0 : vec ds (ψ 0) = vec ds φ := funext fun s => hi s.1 s.cfg
  have hex := exact_of_schroedinger (φ := φ) (dt := -Complex.I * τ) hψ 0 τ rfl hi
  rw [zero_add] at hex
  have d1 := hb (-Complex.I * τ) (by simp [h0]) (by rwa [hn]) φ (ψ τ) hex
  have d2 := hs (-Complex.I * τ) (by rwa [hn]) φ (ψ τ) hex
  rw [hn] at d1 d2
  have r0 : ray H ds (ψ 0) = ray H ds φ := by rw [ray_euclid, ray_euclid, v0]
  have anti := ray_exact hh hψ (by rwa [wnorm_congr v0]) h0
  beta_reduce at anti
  rw [r0] at anti
  have pφ : 0 < wnorm ds φ := lt_of_le_of_ne (wnorm_nonneg _ _) (Ne.symm hφ)
  have pτ : 0 ≤ τ ^ p := by positivity
  rw [lt_div_iff₀ (by positivity)] at t5
  have hv : wnorm ds φ / 2 ≤ wnorm ds (ψ τ) := by
    have a := wdist_norm ds (ψ τ) φ
    have b := (abs_le.1 (a.trans d2)).1
    nlinarith
  have d3 : wdist ds u (ψ τ) ≤ (C * τ ^ p + η) * wnorm ds φ := by
    refine (wdist_tri ds u (layerSteps matrixExp H ds (-Complex.I * τ) ls φ) (ψ τ)).trans ?_
    linarith
  have hL := norm_nonneg (hamL H ds)
  have up : (C * τ ^ p + η) ≤ (C + 1) * (τ ^ p + η) := by nlinarith
  have up' : 24 * ‖hamL H ds‖ * (C * τ ^ p + η) ≤ 24 * ‖hamL H ds‖ * (C + 1) * (τ ^ p + η) := by
    rw [mul_assoc _ (C + 1)]; gcongr
  have nu : WithLp.toLp 2 (vec ds u) ≠ 0 := by rw [← norm_ne_zero_iff, ← wnorm_euclid]; exact hu
  have nφ : WithLp.toLp 2 (vec ds φ) ≠ 0 := by rw [← norm_ne_zero_iff, ← wnorm_euclid]; exact hφ
  by_cases hsm : C * τ ^ p + η ≤ 1 / 4
  · rw [wnorm_euclid, wnorm_euclid] at hv
    unfold wdist at d3
    rw [wnorm_euclid, wnorm_euclid] at d3
    obtain ⟨-, e2⟩ := ray_step (hamL H ds) nφ hv (u := WithLp.toLp 2 (vec ds u)) d3 hsm
    rw [← ray_euclid, ← ray_euclid] at e2
    linarith
  · have a := (abs_le.1 (ray_le (hamL H ds) nu)).2
    have b := (abs_le.1 (ray_le (hamL H ds) nφ)).1
    rw [← ray_euclid] at a b
    have : 24 * ‖hamL H ds‖ * (1 / 4) ≤ 24 * ‖hamL H ds‖ * (C * τ ^ p + η) := by
      have := (not_le.1 hsm).le
      gcongr
    linarith

/-- one step with truncation -/
theorem imag_step {H : Ham ℂ} {ds : List Nat} (hH : HamFits H ds) {r : ℝ} (hr0 : 0 ≤ r) (ls : List (Nat × ℂ)) (hlr : ∀ l ∈ ls, ‖l.2‖ ≤ 2) :
    ∃ K : ℝ, 0 ≤ K ∧ ∀ {svd : Tensor ℂ → SvdRes ℂ} (_ : GoodSvd svd) (eps : ℝ) {dflt : ℝ} (_ : 0 < dflt) (_ : SortedSvd svd)
      (_ : max dflt eps < 1) (S : Solver) (_ : ∀ l ∈ S.layers, l.1 = 0 ∨ l.1 = 1)
      (_ : ∀ Dmax, ls = (S.calls .eachUnitary false Dmax).map fun c =>
        ((S.layers.getD c.which (0, 0)).1.toNat, (S.layers.getD c.which (0, 0)).2))
      (_ : ∀ Dmax, ∀ c ∈ S.calls .eachUnitary false Dmax, c.simplify = false ∧ c.normalize = false ∧ c.counted = true ∧ c.D = Dmax ∧
        c.tol < 0 ∧ c.which < S.layers.length)
      (simplifyObc : List (Tensor ℂ) → Int → Nat → Bool → Nat → List (Tensor ℂ) × ℝ) (dt : ℂ), ‖dt‖ ≤ r → ∃ U, S.unitaries matrixExp H dt = some U ∧
      ∀ (P : List (Tensor ℂ)) (sense : Int) (Dmax : Nat), ReadyFor ds P sense → Dmax ≠ 0 →
      ∃ y sense', oneStep svd eps dflt simplifyObc S U .eachUnitary false sense P Dmax = some (y, sense') ∧ ReadyFor ds y.P sense' ∧
        0 ≤ y.err ∧ 0 ≤ y.hidden ∧ wdist ds (amp y.P) (layerSteps matrixExp H ds dt ls (amp P)) ≤ K * Real.sqrt (y.err + y.hidden) ∧
        y.hidden ≤ K * (max dflt eps * normSq ds P) ∧ (wnorm ds (amp P) ≠ 0 → wnorm ds (amp y.P) ≠ 0) ∧
        (ds.prod ≤ Dmax → y.err ≤ K * (max dflt eps * normSq ds P)) ∧ wnorm ds (amp y.P) ≤ K * wnorm ds (amp P) := by
  obtain ⟨g, hg1, hgb⟩ := gates_bound hH (r * 2)
  obtain ⟨g', hg1', hlb⟩ := layer_bound hH (r * 2)
  set G := max (g ^ ds.length) g' with hG
  have hgG : g ^ ds.length ≤ G := le_max_left _ _
  have hG1 : 1 ≤ G := hg1'.trans (le_max_right _ _)
  have hlb' : ∀ (dt : ℂ) (l : Nat × ℂ), l.1 ≤ 1 → ‖dt * l.2‖ ≤ r * 2 → ∀ φ, wnorm ds (layerStep matrixExp H ds dt φ l) ≤ G * wnorm ds φ :=
    fun dt l h1 h2 φ => (hlb dt l h1 h2 φ).trans (mul_le_mul_of_nonneg_right (le_max_right _ _) (wnorm_nonneg ds φ))
  set M := ls.length with hM
  refine ⟨max (max (G ^ M * Real.sqrt (M * ds.length : Nat)) ((M * ds.length : Nat) * (G ^ M) ^ 2)) (G ^ M), le_max_of_le_right (by positivity), fun {svd} hg eps {dflt} hd0 hsort hm S hl hls hc simplifyObc dt hdt => ?_⟩
  have hmk : ∀ l ∈ S.layers, ∃ W, mkUnitary matrixExp H l.1 (dt * l.2) = some W := by
    intro l hl'
    have : ∃ k : Nat, k ≤ 1 ∧ l.1 = k := by
      rcases hl l hl' with h | h
      · exact ⟨0, by omega, by simpa using h⟩
      · exact ⟨1, by omega, by simpa using h⟩
    obtain ⟨k, hk, e⟩ := this
    obtain ⟨W, hW, -⟩ := mkUnitary_fits exists_goodExpm.dims hH k hk (dt * l.2)
    exact ⟨W, by rw [e]; exact hW⟩
  have hU : ∀ ll : List (Int × ℂ), (∀ l ∈ ll, ∃ W, mkUnitary matrixExp H l.1 (dt * l.2) = some W) →
      ∃ U, ll.mapM (fun l => mkUnitary matrixExp H l.1 (dt * l.2)) = some U ∧ ∀ i, i < ll.length →
        mkUnitary matrixExp H (ll.getD i (0, 0)).1 (dt * (ll.getD i (0, 0)).2) = some (U.getD i ⟨0, 0, []⟩) := by
    intro ll
    induction ll with
    | nil => intro _; exact ⟨[], rfl, fun i hi => by simp at hi⟩
    | cons l ll ih =>
      intro h
      obtain ⟨W, hW⟩ := h l (by simp)
      obtain ⟨U, u1, u2⟩ := ih fun l hl => h l (by simp [hl])
      refine ⟨W :: U, by simp [List.mapM_cons, hW, u1], fun i hi => ?_⟩
      cases i with
      | zero => simpa using hW
      | succ i => simpa using u2 i (by simpa using hi)
  obtain ⟨U, u1, u2⟩ := hU S.layers hmk
  refine ⟨U, u1, fun P sense Dmax hP hD => ?_⟩
  obtain ⟨hP, hpos⟩ := ready_iff.1 hP
  have h := calls_doneB hg eps hd0 hsort hm simplifyObc hH hpos hg1 hgG hgb hlb' dt U (E := ds.prod ≤ Dmax)
    ((S.calls .eachUnitary false Dmax).map fun c => (c, (S.layers.getD c.which (0, 0)).1.toNat, (S.layers.getD c.which (0, 0)).2))
    (by
      intro c hcm
      obtain ⟨c', m, rfl⟩ := List.mem_map.1 hcm
      obtain ⟨h1, h2, h2', h2'', h3, h4⟩ := hc Dmax c' m
      have h5 := u2 c'.which h4
      have hmem : S.layers.getD c'.which (0, 0) ∈ S.layers := by
        rw [List.getD_eq_getElem _ _ h4]; exact List.getElem_mem h4
      have h6 := hl _ hmem
      have h7 : ‖(S.layers.getD c'.which (0, 0)).2‖ ≤ 2 := by
        refine hlr ((S.layers.getD c'.which (0, 0)).1.toNat, (S.layers.getD c'.which (0, 0)).2) ?_
        rw [hls Dmax]; exact List.mem_map.2 ⟨c', m, rfl⟩
      refine ⟨h1, h2, h2', by rw [h2'']; exact hD, Or.inl h3, by simp only; omega, by
        rw [norm_mul]; exact mul_le_mul hdt h7 (norm_nonneg _) hr0, ?_, fun hE => ⟨by rw [h2'']; exact hE, by
          unfold effTol; rw [if_pos h3]; exact le_max_left _ _⟩⟩
      rw [← h5]
      simp only
      rw [Int.toNat_of_nonneg (by omega)])
    ⟨P, 0, 0⟩ sense hP
  simp only [List.map_map, Function.comp_def, List.map_id', List.length_map] at h
  have hlen : (S.calls .eachUnitary false Dmax).length = M := by
    rw [hM]
    conv_rhs => rw [hls Dmax]
    simp
  rw [← hls Dmax, hlen] at h
  unfold oneStep
  rw [if_neg (by tauto)]
  have h5 := h.dist
  have h6 := h.small
  simp only [Evo.tot, add_zero, sub_zero, zero_add] at h5 h6
  refine ⟨_, _, rfl, ready_iff.2 ⟨h.cent, hpos⟩, h.err, h.hidden, h5.trans ?_, h6.trans ?_, h.alive, fun hE => ?_,
    h.norm.trans (mul_le_mul_of_nonneg_right (le_max_right _ _) (wnorm_nonneg _ _))⟩
  · rw [Real.sqrt_mul (Nat.cast_nonneg _), ← mul_assoc]
    exact mul_le_mul_of_nonneg_right ((le_max_left _ _).trans (le_max_left _ _)) (Real.sqrt_nonneg _)
  · rw [mul_pow, wnorm_normSq]
    have t0 : 0 ≤ max dflt eps := hd0.le.trans (le_max_left _ _)
    have n0 : 0 ≤ normSq ds P := sumCfg_nonneg _ _ fun _ _ => by positivity
    calc _ = ((M * ds.length : Nat) * (G ^ M) ^ 2) * (max dflt eps * normSq ds P) := by ring
      _ ≤ _ := mul_le_mul_of_nonneg_right ((le_max_right _ _).trans (le_max_left _ _)) (by positivity)
  · refine (h.keeps hE).trans ?_
    rw [zero_add, mul_pow, wnorm_normSq]
    have t0 : 0 ≤ max dflt eps := hd0.le.trans (le_max_left _ _)
    have n0 : 0 ≤ normSq ds P := sumCfg_nonneg _ _ fun _ _ => by positivity
    calc _ = ((M * ds.length : Nat) * (G ^ M) ^ 2) * (max dflt eps * normSq ds P) := by ring
      _ ≤ _ := mul_le_mul_of_nonneg_right ((le_max_right _ _).trans (le_max_left _ _)) (by positivity)

/-- `Q 0, …, Q n` are the states of `n` consecutive steps of one solver which truncates after each gate and keeps at most `Dmax` singular
values (`Dmax` may differ from step to step), `sense i` its member `sense` before the step `i`, and `err i` the error reported by that step.
When the states are normalised, `Dmax` must not be so large that the tolerances could drop all singular values (C117). -/
def TruncatingRun (svd : Tensor ℂ → SvdRes ℂ) (eps dflt : ℝ) (single : Bool) (tolerance : ℝ) (S : Solver) (U : List Unitary) (normalize : Bool)
    (n : Nat) (Q : Nat → List (Tensor ℂ)) (sense : Nat → Int) (err : Nat → ℝ) : Prop :=
  ∀ i, i < n → ∃ (Dmax : Nat) (y : Evo), 0 < Dmax ∧ (normalize = true → Dmax * max dflt eps < 1) ∧
    oneStep svd eps dflt (obcCall svd eps dflt single tolerance) S U .eachUnitary normalize (sense i) (Q i) Dmax = some (y, sense (i + 1)) ∧
    Q (i + 1) = y.P ∧ err i = y.err

/-- For all imaginary time steps shorter than `δ` and all runs from a state which is ready for the solver and does not vanish: no state of the run
vanishes, and the energy per norm of the last state exceeds that of the first one at most by the sum over the steps of `C` times: `τ ^ p`, the
square root of the error reported by the step relative to the squared norm, and the square root of the tolerance. -/
def EnergyTruncated (svd : Tensor ℂ → SvdRes ℂ) (eps dflt : ℝ) (single : Bool) (tolerance : ℝ) (S : Solver) (normalize : Bool) (H : Ham ℂ)
    (ds : List Nat) (δ C : ℝ) (p : Nat) : Prop :=
  ∀ τ : ℝ, 0 ≤ τ → τ < δ → ∃ U, S.unitaries matrixExp H (-Complex.I * τ) = some U ∧
    ∀ (n : Nat) (Q : Nat → List (Tensor ℂ)) (sense : Nat → Int) (err : Nat → ℝ), ReadyFor ds (Q 0) (sense 0) → normSq ds (Q 0) ≠ 0 →
      TruncatingRun svd eps dflt single tolerance S U normalize n Q sense err →
      normSq ds (Q n) ≠ 0 ∧ ∃ e₀ e, energy (Q 0) H = some e₀ ∧ energy (Q n) H = some e ∧
        e.re / normSq ds (Q n) ≤ e₀.re / normSq ds (Q 0)
          + ∑ i ∈ Finset.range n, C * (τ ^ p + Real.sqrt (err i / normSq ds (Q i)) + Real.sqrt (max dflt eps))

theorem ray_scale (H : Ham ℂ) (ds : List Nat) {φ χ : List Nat → ℂ} {c : ℝ} (hc : c ≠ 0) (h : ∀ s, IsCfg ds s → χ s = (c : ℂ) * φ s) :
    ray H ds χ = ray H ds φ := by
  have e : WithLp.toLp 2 (vec ds χ) = (c : ℂ) • WithLp.toLp 2 (vec ds φ) := by
    ext s; exact h s.1 s.cfg
  rw [ray_euclid, ray_euclid, e, map_smul, inner_smul_left, inner_smul_right, norm_smul, ← mul_assoc]
  have : (starRingEnd ℂ (c : ℂ)) * (c : ℂ) = ((c ^ 2 : ℝ) : ℂ) := by rw [Complex.conj_ofReal]; push_cast; ring
  rw [this, Complex.re_ofReal_mul, mul_pow, Complex.norm_real, Real.norm_eq_abs, sq_abs]
  exact mul_div_mul_left _ _ (by positivity)

theorem energyTruncated_of {ls : List (Nat × ℂ)} (hlr : ∀ l ∈ ls, ‖l.2‖ ≤ 2)
    {H : Ham ℂ} {ds : List Nat} (hH : HamFits H ds) (hh : HamHermitian H ds)
    (hT : HamTerms H ds False) (hper : H.periodic = false) (hS : Splits H ds) (h2 : 2 ≤ ds.length) {p : Nat} {C δ : ℝ}
    (hC : 0 ≤ C) (hδ : 0 < δ)
    (hb : ∀ dt : ℂ, dt.im ≤ 0 → ‖dt‖ < δ → ∀ φ χ, Exact H ds dt φ χ →
      wdist ds (layerSteps matrixExp H ds dt ls φ) χ ≤ C * ‖dt‖ ^ p * wnorm ds φ) :
    ∃ C' δ' : ℝ, 0 < δ' ∧ ∀ {svd : Tensor ℂ → SvdRes ℂ} (_ : GoodSvd svd) (_ : SortedSvd svd) {eps dflt : ℝ} (_ : 0 < dflt)
      (_ : max dflt eps < 1) (single : Bool) (tolerance : ℝ) {S : Solver} (_ : ∀ l ∈ S.layers, l.1 = 0 ∨ l.1 = 1)
      (_ : ∀ Dmax, ls = (S.calls .eachUnitary false Dmax).map fun c =>
        ((S.layers.getD c.which (0, 0)).1.toNat, (S.layers.getD c.which (0, 0)).2))
      (_ : ∀ Dmax, ∀ c ∈ S.calls .eachUnitary false Dmax, c.simplify = false ∧ c.normalize = false ∧ c.counted = true ∧ c.D = Dmax ∧
        c.tol < 0 ∧ c.which < S.layers.length)
      (_ : NormalizesEachUnitary svd eps dflt S) (normalize : Bool),
      EnergyTruncated svd eps dflt single tolerance S normalize H ds δ' C' p := by
  obtain ⟨C1, δ1, c1, d1, he⟩ := energy_near hh (ls := ls) (p := p) hC hδ hb
  obtain ⟨K, hK, hst'⟩ := imag_step hH zero_le_one ls hlr
  refine ⟨C1 * (1 + K + K * Real.sqrt K), min δ1 1, by positivity,
    fun {svd} hg hsort {eps dflt} hd0 hm single tolerance {S} hl hls hc hn normalize τ h0 hτ => ?_⟩
  have hst := hst' hg eps hd0 hsort hm S hl hls hc (obcCall svd eps dflt single tolerance)
  obtain ⟨t1, t2⟩ := lt_min_iff.1 hτ
  have hnτ : ‖-Complex.I * (τ : ℂ)‖ = τ := by simp [abs_of_nonneg h0]
  obtain ⟨U, hU, hs⟩ := hst (-Complex.I * τ) (by rw [hnτ]; exact t2.le)
  refine ⟨U, hU, fun n Q sense err hQ hN hr => ?_⟩
  have m0 : 0 ≤ max dflt eps := hd0.le.trans (le_max_left _ _)
  have one : ∀ (P : List (Tensor ℂ)) (s : Int) (Dmax : Nat), ReadyFor ds P s → wnorm ds (amp P) ≠ 0 → Dmax ≠ 0 →
      ∃ x s', oneStep svd eps dflt (obcCall svd eps dflt single tolerance) S U .eachUnitary false s P Dmax = some (x, s') ∧ ReadyFor ds x.P s' ∧
        wnorm ds (amp x.P) ≠ 0 ∧ ray H ds (amp x.P) ≤ ray H ds (amp P)
          + C1 * (1 + K + K * Real.sqrt K) * (τ ^ p + Real.sqrt (x.err / normSq ds P) + Real.sqrt (max dflt eps)) := by
    intro P s Dmax hP hw hD
    obtain ⟨x, s', e1, e2, e3, e4, e5, e6, e7, -, -⟩ := hs P s Dmax hP hD
    refine ⟨x, s', e1, e2, e7 hw, ?_⟩
    have pw : 0 < wnorm ds (amp P) := lt_of_le_of_ne (wnorm_nonneg _ _) (Ne.symm hw)
    have hx : Real.sqrt (x.err + x.hidden) ≤ (Real.sqrt (x.err / normSq ds P) + Real.sqrt K * Real.sqrt (max dflt eps)) * wnorm ds (amp P) := by
      rw [← normSq_wnorm] at e6 ⊢
      rw [Real.sqrt_div e3, Real.sqrt_sq pw.le, add_mul, div_mul_cancel₀ _ hw]
      refine (show Real.sqrt (x.err + x.hidden) ≤ Real.sqrt x.err + Real.sqrt x.hidden from
        Real.sqrt_le_iff.2 ⟨by positivity, by nlinarith [Real.sq_sqrt e3, Real.sq_sqrt e4, Real.sqrt_nonneg x.err, Real.sqrt_nonneg x.hidden]⟩).trans (add_le_add le_rfl ?_)
      refine (Real.sqrt_le_sqrt e6).trans (le_of_eq ?_)
      rw [Real.sqrt_mul hK, Real.sqrt_mul m0, Real.sqrt_sq pw.le]; ring
    have q1 := Real.sqrt_nonneg (x.err / normSq ds P)
    have q2 := Real.sqrt_nonneg (max dflt eps)
    have q3 := Real.sqrt_nonneg K
    have := he τ h0 t1 (amp P) (amp x.P) (K * (Real.sqrt (x.err / normSq ds P) + Real.sqrt K * Real.sqrt (max dflt eps))) hw (e7 hw) (by positivity)
      (e5.trans (by rw [mul_assoc]; gcongr))
    refine this.trans ?_
    have pτ : 0 ≤ τ ^ p := by positivity
    rw [mul_assoc C1]
    have : τ ^ p + K * (Real.sqrt (x.err / normSq ds P) + Real.sqrt K * Real.sqrt (max dflt eps))
        ≤ (1 + K + K * Real.sqrt K) * (τ ^ p + Real.sqrt (x.err / normSq ds P) + Real.sqrt (max dflt eps)) := by
      have a1 : 0 ≤ K * τ ^ p := by positivity
      have a2 : 0 ≤ K * Real.sqrt K * τ ^ p := by positivity
      have a3 : 0 ≤ K * Real.sqrt K * Real.sqrt (x.err / normSq ds P) := by positivity
      have a4 : 0 ≤ K * Real.sqrt (max dflt eps) := by positivity
      nlinarith
    gcongr
  have main : ∀ m ≤ n, ReadyFor ds (Q m) (sense m) ∧ wnorm ds (amp (Q m)) ≠ 0 ∧ ray H ds (amp (Q m)) ≤ ray H ds (amp (Q 0))
      + ∑ i ∈ Finset.range m, C1 * (1 + K + K * Real.sqrt K) * (τ ^ p + Real.sqrt (err i / normSq ds (Q i)) + Real.sqrt (max dflt eps)) := by
    intro m
    induction m with
    | zero =>
      refine fun _ => ⟨hQ, fun e => hN ?_, by simp⟩
      rw [← normSq_wnorm, e]; simp
    | succ m ih =>
      intro hmn
      obtain ⟨i1, i2, i3⟩ := ih (by omega)
      obtain ⟨Dmax, y, r1, r2, r3, r4, r5⟩ := hr m (by omega)
      obtain ⟨x, s', x1, x2, x3, x4⟩ := one (Q m) (sense m) Dmax i1 i2 (by omega)
      rw [Finset.sum_range_succ, r4, r5]
      cases normalize with
      | false =>
        rw [x1] at r3
        cases r3
        exact ⟨x2, x3, by linarith⟩
      | true =>
        obtain ⟨U', u1, u2⟩ := hn single tolerance matrixExp exists_goodExpm.dims H ds hH h2 (-Complex.I * τ)
        rw [hU] at u1
        cases u1
        obtain ⟨x', y', s'', n1, n2, n3, n4, n5, n6, n7⟩ := u2 (Q m) i1.wf (sense m) Dmax r1 (r2 rfl)
        rw [x1] at n1
        cases n1
        rw [r3] at n2
        cases n2
        have nz : norm2 x.P ≠ 0 := by rw [C03_norm2 ⟨x2.nonempty, 1, n3⟩]; exact x3
        obtain ⟨k1, k2⟩ := n7 nz
        refine ⟨n5, ?_, ?_⟩
        · intro h
          rw [wnorm_zero_iff] at h
          apply x3
          rw [wnorm_zero_iff]
          intro s hs
          have := k2 s hs
          rw [h s hs] at this
          rcases mul_eq_zero.1 this.symm with h' | h'
          · exact absurd (by simpa using h') nz
          · exact h'
        · rw [ray_scale H ds (one_div_ne_zero nz) k2, n6]
          linarith
  obtain ⟨m1, m2, m3⟩ := main n le_rfl
  refine ⟨fun h => m2 ?_, _, _, energy_chain hH hT hper hS ⟨hQ.nonempty, 1, hQ.wf⟩, energy_chain hH hT hper hS ⟨m1.nonempty, 1, m1.wf⟩, ?_⟩
  · rw [← sq_eq_zero_iff, wnorm_normSq, h]
  · rw [← normSq_wnorm, ← normSq_wnorm]
    exact m3

/-- **C137**: evolution in imaginary time with a Hermitian Hamiltonian of an open chain, truncating after each gate, with or without normalisation:
the energy grows at most by the errors of second (`Trotter2Solver`) or third order (`Trotter3Solver`) in the time step, plus the contribution of
the truncation errors which the solver reports and of the tolerance with which it drops singular values without reporting them.  The constants
depend on the Hamiltonian only, not on the tolerances. -/
theorem C137_truncated {H : Ham ℂ} {ds : List Nat} (hH : HamFits H ds)
    (hh : HamHermitian H ds) (hT : HamTerms H ds False) (hper : H.periodic = false) (hS : Splits H ds) (h2 : 2 ≤ ds.length) :
    ∃ C δ : ℝ, 0 < δ ∧ ∀ (svd : Tensor ℂ → SvdRes ℂ) (eps dflt : ℝ) (single : Bool) (tolerance : ℝ) (normalize : Bool),
      GoodSvd svd → SortedSvd svd → 0 < eps → 0 < dflt → max dflt eps < 1 →
      EnergyTruncated svd eps dflt single tolerance (trotter2 eps) normalize H ds δ C 2 ∧
      EnergyTruncated svd eps dflt single tolerance (trotter3 eps) normalize H ds δ C 3 := by
  obtain ⟨C2, δ2, c2, d2, l2⟩ := local2 hH
  obtain ⟨C3, δ3, c3, d3, l3⟩ := local3 hH
  obtain ⟨A2, e2, p2, h2'⟩ := energyTruncated_of (ls := steps2)
    (by intro l hl; simp [steps2] at hl; rcases hl with rfl | rfl <;> norm_num) hH hh hT hper hS h2 c2 d2 l2
  obtain ⟨A3, e3, p3, h3'⟩ := energyTruncated_of (ls := steps3)
    (by intro l hl; simp [steps3] at hl; rcases hl with rfl | rfl | rfl <;> norm_num) hH hh hT hper hS h2 c3 d3 l3
  have mono : ∀ {svd : Tensor ℂ → SvdRes ℂ} {eps dflt : ℝ} {single : Bool} {tolerance : ℝ} {S : Solver} {normalize : Bool} {δ δ' C C' : ℝ} {p : Nat},
      δ' ≤ δ → C ≤ C' → EnergyTruncated svd eps dflt single tolerance S normalize H ds δ C p →
      EnergyTruncated svd eps dflt single tolerance S normalize H ds δ' C' p := by
    intro svd eps dflt single tolerance S normalize δ δ' C C' p hδ hC h τ h0 hτ
    obtain ⟨U, hU, hs⟩ := h τ h0 (hτ.trans_le hδ)
    refine ⟨U, hU, fun n Q sense err a b c => ?_⟩
    obtain ⟨k1, e₀, e, k2, k3, k4⟩ := hs n Q sense err a b c
    refine ⟨k1, e₀, e, k2, k3, k4.trans (add_le_add le_rfl (Finset.sum_le_sum fun i _ => mul_le_mul_of_nonneg_right hC ?_))⟩
    positivity
  refine ⟨max A2 A3, min e2 e3, lt_min p2 p3, fun svd eps dflt single tolerance normalize hg hsort heps hd0 hm => ⟨?_, ?_⟩⟩
  · exact mono (min_le_left _ _) (le_max_left _ _) (h2' hg hsort hd0 hm single tolerance (by simp [trotter2]) (by intro D; simp [trotter2, steps2])
      (by intro D; simp [trotter2, defaultTol]) (C119_each_unitary_partial hg heps hd0).1 normalize)
  · exact mono (min_le_right _ _) (le_max_right _ _) (h3' hg hsort hd0 hm single tolerance (by simp [trotter3]) (by intro D; simp [trotter3, steps3])
      (by intro D; simp [trotter3, defaultTol]) (C119_each_unitary_partial hg heps hd0).2.1 normalize)

/-- the runs exist: any number of steps, from any state which is ready for the solver -/
theorem truncating_run {svd : Tensor ℂ → SvdRes ℂ} (hg : GoodSvd svd) {eps : ℝ} (heps : 0 < eps) {dflt : ℝ}
    (hd0 : 0 < dflt) (single : Bool) (tolerance : ℝ) {H : Ham ℂ} {ds : List Nat} (hH : HamFits H ds) (h2 : 2 ≤ ds.length) (τ : ℝ) {Dmax : Nat}
    (hD : 0 < Dmax) (hDm : Dmax * max dflt eps < 1) :
    ∃ U, (trotter2 eps).unitaries matrixExp H (-Complex.I * τ) = some U ∧ ∀ (P : List (Tensor ℂ)) (s : Int), ReadyFor ds P s → ∀ n : Nat,
      ∃ Q sense err, Q 0 = P ∧ sense 0 = s ∧ TruncatingRun svd eps dflt single tolerance (trotter2 eps) U true n Q sense err := by
  obtain ⟨U, hU, h⟩ := (C119_each_unitary_partial hg heps hd0).1 single tolerance matrixExp exists_goodExpm.dims H ds hH h2 (-Complex.I * τ)
  refine ⟨U, hU, fun P s hP n => ?_⟩
  have hstep : ∀ x : {x : List (Tensor ℂ) × Int // ReadyFor ds x.1 x.2}, ∃ y : Evo × Int,
      oneStep svd eps dflt (obcCall svd eps dflt single tolerance) (trotter2 eps) U .eachUnitary true x.1.2 x.1.1 Dmax = some y ∧ ReadyFor ds y.1.P y.2 := by
    intro x
    obtain ⟨-, y, s', -, h2, -, -, h5, -⟩ := h x.1.1 x.2.wf x.1.2 Dmax hD hDm
    exact ⟨(y, s'), h2, h5⟩
  choose f f1 f2 using hstep
  let st : Nat → {x : List (Tensor ℂ) × Int // ReadyFor ds x.1 x.2} := fun k => Nat.rec ⟨(P, s), hP⟩ (fun _ x => ⟨((f x).1.P, (f x).2), f2 x⟩) k
  exact ⟨fun k => (st k).1.1, fun k => (st k).1.2, fun k => (f (st k)).1.err, rfl, rfl, fun i _ => ⟨Dmax, (f (st i)).1, hD, fun _ => hDm, f1 (st i), rfl, rfl⟩⟩

/-- the hypotheses of `C137_truncated` and of its conclusion on two qubits (the Hamiltonian as in the example for C133) -/
example {svd : Tensor ℂ → SvdRes ℂ} (hg : GoodSvd svd) (single : Bool) (tolerance τ : ℝ) (n : Nat) :
    max (1 / 8 : ℝ) (1 / 8) < 1 ∧ ∃ U, (trotter2 (1 / 8)).unitaries matrixExp pairHamSplit (-Complex.I * τ) = some U ∧
      ∃ Q sense err, ReadyFor [2, 2] (Q 0) (sense 0) ∧ normSq [2, 2] (Q 0) ≠ 0 ∧
        TruncatingRun svd (1 / 8) (1 / 8) single tolerance (trotter2 (1 / 8)) U true n Q sense err := by
  refine ⟨by norm_num, ?_⟩
  obtain ⟨U, hU, h⟩ := truncating_run hg (eps := 1 / 8) (by norm_num) (dflt := 1 / 8) (by norm_num) single tolerance (H := pairHamSplit) (ds := [2, 2])
    ⟨pairHam_fits.size, pairHam_fits.dim, pairHam_fits.loc, pairHam_fits.inter⟩ (by simp) τ (Dmax := 4) (by norm_num) (by norm_num)
  let A : Tensor ℂ := ⟨[1, 2, 1], fun I => if I.getD 1 0 = 0 then 1 else 0⟩
  have hw : WF 1 [A, A] [2, 2] 1 :=
    WF.cons rfl Nat.one_pos (by decide) Nat.one_pos (WF.cons rfl Nat.one_pos (by decide) Nat.one_pos (WF.nil 1))
  have hR : RightIso A := by
    intro x x' hx hx'
    have : x = 0 := by simpa [A, Tensor.dim] using hx
    have : x' = 0 := by simpa [A, Tensor.dim] using hx'
    subst x; subst x'
    simp [A, Tensor.dim, Finset.sum_range_succ']
  have hj : ∀ j, 0 < j → j < ([2, 2] : List Nat).length → RightIso (site [A, A] j) := by
    intro j h0 hj
    obtain rfl : j = 1 := by simp at hj; omega
    exact hR
  have hr : ReadyFor [2, 2] [A, A] 0 := ⟨hw, by simp, fun _ => hj, fun h => absurd h (by decide)⟩
  obtain ⟨Q, sense, err, q0, s0, hrun⟩ := h [A, A] 0 hr n
  refine ⟨U, hU, Q, sense, err, by rw [q0, s0]; exact hr, ?_, hrun⟩
  rw [q0, normSq_at hw (k := 0) (by simp) (fun j hj => by omega) hj]
  simp [site, A, sumCfg_cons, Finset.sum_range_succ]

end MPS.Props
