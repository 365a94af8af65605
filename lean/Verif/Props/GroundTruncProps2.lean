import Verif.Props.GroundTruncProps
import Verif.LayerSimp2

/-!
# C140: the ground state, with truncation and normalisation

The errors are measured relative to the norm of the state, so that the states may be normalised after each step.
-/

set_option linter.unusedSectionVars false
set_option linter.unusedSimpArgs false

namespace MPS.Props
open MPS Tensor Trotter Order Minim Matrix

theorem layerSteps_smul (expm : Tensor ℂ → Tensor ℂ) (H : Ham ℂ) (ds : List Nat) (dt : ℂ) (ls : List (Nat × ℂ)) (c : ℂ) (φ : List Nat → ℂ) (s : List Nat) :
    layerSteps expm H ds dt ls (fun s => c * φ s) s = c * layerSteps expm H ds dt ls φ s := by
  unfold layerSteps
  induction ls generalizing φ with
  | nil => rfl
  | cons l ls ih =>
    simp only [List.foldl_cons]
    rw [← ih]
    have e : layerStep expm H ds dt (fun s => c * φ s) l = fun s => c * layerStep expm H ds dt φ l s := by
      funext s
      unfold layerStep actOp
      rw [← sumCfg_mul_left]
      congr 1
      funext t
      ring
    rw [e]

open scoped Matrix.Norms.Operator in
/-- a sequence of functions, each of which is near the result of one step of the solver without truncation from the one before, stays near the
solution of the Schrödinger equation -/
theorem flow_near {H : Ham ℂ} {ds : List Nat} (hH : HamFits H ds) {ls : List (Nat × ℂ)} {K : ℝ} (hK : 0 ≤ K) {p : Nat} {C δ : ℝ} (hC : 0 ≤ C)
    (hb : ∀ dt : ℂ, dt.im ≤ 0 → ‖dt‖ < δ → ∀ φ χ, Exact H ds dt φ χ →
      wdist ds (layerSteps matrixExp H ds dt ls φ) χ ≤ C * ‖dt‖ ^ p * wnorm ds φ) (T : ℝ)
    {dt : ℂ} (him : dt.im ≤ 0) (t1 : ‖dt‖ < δ) {n : Nat} (hn : n * ‖dt‖ ≤ T) {φ : Nat → List Nat → ℂ} {e : Nat → ℝ} (he : ∀ i, 0 ≤ e i)
    (hφ : ∀ i, i < n → wdist ds (φ (i + 1)) (layerSteps matrixExp H ds dt ls (φ i)) ≤ K * e i)
    {w : ℂ} {τ : ℝ} {ψ : ℝ → List Nat → ℂ} (hψ : Schroedinger H ds w ψ) (hw : w * τ = dt) (h0 : ∀ s, IsCfg ds s → ψ 0 s = φ 0 s) :
    ∀ m ≤ n, wdist ds (φ m) (ψ (m * τ)) ≤ Real.sqrt (Fintype.card (Cfg ds)) * (Real.exp (T * rate H ds) * (C + K)) *
      ∑ i ∈ Finset.range m, (wnorm ds (φ i) * ‖dt‖ ^ p + e i) := by
  have r0 : 0 ≤ rate H ds := by unfold rate; positivity
  set L := Real.exp (‖dt‖ * rate H ds) with hL
  have L1 : 1 ≤ L := Real.one_le_exp (by positivity)
  set ℓ : Nat → ℝ := fun i => wnorm ds (φ i) * ‖dt‖ ^ p + e i with hℓ
  have ℓ0 : ∀ i, 0 ≤ ℓ i := fun i => by
    have := wnorm_nonneg ds (φ i)
    have := he i
    simp only [hℓ]; positivity
  have main : ∀ m ≤ n, ‖vec ds (fun s => φ m s - ψ (m * τ) s)‖ ≤ L ^ m * ((C + K) * ∑ i ∈ Finset.range m, ℓ i) := by
    intro m
    induction m with
    | zero =>
      intro _
      have : vec ds (fun s => φ 0 s - ψ ((0 : Nat) * τ) s) = 0 := by
        funext s
        simp [Order.vec, h0 s.1 s.cfg]
      rw [this]; simp
    | succ m ih =>
      intro hmn
      have i2 := ih (by omega)
      obtain ⟨χ, hχ⟩ := exact_exists H ds dt (φ m)
      have d1 := hb dt him t1 (φ m) χ hχ
      have hex := exact_run hψ hw m
      have a : wdist ds (φ (m + 1)) χ ≤ (C + K) * ℓ m := by
        refine (wdist_tri ds (φ (m + 1)) (layerSteps matrixExp H ds dt ls (φ m)) χ).trans ((add_le_add (hφ m (by omega)) d1).trans ?_)
        simp only [hℓ]
        have w0 := wnorm_nonneg ds (φ m)
        have q1 := he m
        have q3 : 0 ≤ ‖dt‖ ^ p := by positivity
        have b1 : 0 ≤ C * e m := by positivity
        have b3 : 0 ≤ K * (wnorm ds (φ m) * ‖dt‖ ^ p) := by positivity
        nlinarith
      have e : vec ds (fun s => φ (m + 1) s - ψ ((m + 1 : Nat) * τ) s)
          = vec ds (fun s => φ (m + 1) s - χ s)
            + NormedSpace.exp ((-Complex.I * dt) • hamMat H ds) *ᵥ vec ds (fun s => φ m s - ψ (m * τ) s) := by
        have e1 : vec ds (fun s => φ m s - ψ (m * τ) s) = vec ds (φ m) - vec ds (ψ (m * τ)) := rfl
        have e2 : NormedSpace.exp ((-Complex.I * dt) • hamMat H ds) *ᵥ vec ds (φ m) = vec ds χ := hχ.symm
        have e3 : NormedSpace.exp ((-Complex.I * dt) • hamMat H ds) *ᵥ vec ds (ψ (m * τ)) = vec ds (ψ ((m + 1 : Nat) * τ)) := hex.symm
        have e4 : vec ds (fun s => φ (m + 1) s - χ s) = vec ds (φ (m + 1)) - vec ds χ := rfl
        have e5 : vec ds (fun s => φ (m + 1) s - ψ ((m + 1 : Nat) * τ) s) = vec ds (φ (m + 1)) - vec ds (ψ ((m + 1 : Nat) * τ)) := rfl
        rw [e1, Matrix.mulVec_sub, e2, e3, e4, e5]
        abel
      rw [e]
      refine (norm_add_le _ _).trans ?_
      have b : ‖vec ds (fun s => φ (m + 1) s - χ s)‖ ≤ (C + K) * ℓ m := (vec_le_wnorm ds _).trans a
      have c : ‖NormedSpace.exp ((-Complex.I * dt) • hamMat H ds) *ᵥ vec ds (fun s => φ m s - ψ (m * τ) s)‖
          ≤ L * (L ^ m * ((C + K) * ∑ i ∈ Finset.range m, ℓ i)) := by
        refine (Matrix.linfty_opNorm_mulVec _ _).trans (mul_le_mul ?_ i2 (norm_nonneg _) (by positivity))
        have := exact_le hH (-Complex.I * dt)
        rwa [norm_rot] at this
      rw [Finset.sum_range_succ]
      have L1' : 1 ≤ L ^ (m + 1) := one_le_pow₀ L1
      have d : (C + K) * ℓ m ≤ L ^ (m + 1) * ((C + K) * ℓ m) := le_mul_of_one_le_left (mul_nonneg (by positivity) (ℓ0 m)) L1'
      calc _ ≤ (C + K) * ℓ m + L * (L ^ m * ((C + K) * ∑ i ∈ Finset.range m, ℓ i)) := add_le_add b c
        _ ≤ L ^ (m + 1) * ((C + K) * ℓ m) + L * (L ^ m * ((C + K) * ∑ i ∈ Finset.range m, ℓ i)) := add_le_add d le_rfl
        _ = _ := by rw [pow_succ]; ring
  intro m hm
  have m2 := main m hm
  have sum0 : 0 ≤ ∑ i ∈ Finset.range m, ℓ i := Finset.sum_nonneg fun i _ => ℓ0 i
  have hLn : L ^ m ≤ Real.exp (T * rate H ds) := by
    rw [hL, ← Real.exp_nat_mul]
    refine Real.exp_le_exp.2 ?_
    rw [← mul_assoc]
    refine mul_le_mul_of_nonneg_right (le_trans ?_ hn) r0
    have : (m : ℝ) ≤ n := by exact_mod_cast hm
    gcongr
  refine (wnorm_le_vec ds _).trans ?_
  rw [mul_assoc, mul_assoc]
  refine mul_le_mul_of_nonneg_left (m2.trans ?_) (Real.sqrt_nonneg _)
  exact mul_le_mul_of_nonneg_right hLn (mul_nonneg (by positivity) sum0)


/-- one step, with or without normalisation, up to a positive factor -/
theorem scaled_step {svd : Tensor ℂ → SvdRes ℂ} {eps dflt : ℝ} {single : Bool} {tolerance : ℝ} {S : Solver} {ls : List (Nat × ℂ)}
    {H : Ham ℂ} {ds : List Nat} (hH : HamFits H ds) (h2 : 2 ≤ ds.length) {K : ℝ} (hst : StepTruncatedComplex svd eps dflt single tolerance S ls H ds 1 K)
    (hn : NormalizesEachUnitary svd eps dflt S) {dt : ℂ} (hdt : ‖dt‖ ≤ 1) {U : List Unitary} (hU : S.unitaries matrixExp H dt = some U)
    (normalize : Bool) {P : List (Tensor ℂ)} {s s' : Int} {Dmax : Nat} {y : Evo} (hP : ReadyFor ds P s) (hw : wnorm ds (amp P) ≠ 0) (hD : 0 < Dmax)
    (hDt : normalize = true → Dmax * max dflt eps < 1)
    (hy : oneStep svd eps dflt (obcCall svd eps dflt single tolerance) S U .eachUnitary normalize s P Dmax = some (y, s')) :
    ∃ c : ℝ, 0 < c ∧ ReadyFor ds y.P s' ∧ wnorm ds (amp y.P) ≠ 0 ∧
      wdist ds (fun t => (c : ℂ) * amp y.P t) (layerSteps matrixExp H ds dt ls (amp P))
        ≤ K * (wnorm ds (amp P) * (Real.sqrt (y.err / normSq ds P) + Real.sqrt (max dflt eps))) ∧
      (ds.prod ≤ Dmax → y.err ≤ K * (max dflt eps * normSq ds P)) := by
  obtain ⟨U', u1, hs⟩ := hst dt hdt
  obtain rfl : U = U' := by rw [hU] at u1; simpa using u1
  obtain ⟨x, t', e1, e2, e3, e4, e5, -, e7⟩ := hs P s Dmax hP hD
  have pw : 0 < wnorm ds (amp P) := lt_of_le_of_ne (wnorm_nonneg _ _) (Ne.symm hw)
  have hx : Real.sqrt x.err + wnorm ds (amp P) * Real.sqrt (max dflt eps)
      = wnorm ds (amp P) * (Real.sqrt (x.err / normSq ds P) + Real.sqrt (max dflt eps)) := by
    rw [← normSq_wnorm, Real.sqrt_div e3, Real.sqrt_sq pw.le, mul_add, mul_div_cancel₀ _ hw]
  rw [hx] at e5
  cases normalize with
  | false =>
    rw [e1] at hy
    cases hy
    exact ⟨1, one_pos, e2, e4 hw, by simpa using e5, e7⟩
  | true =>
    obtain ⟨U', u1, u2⟩ := hn single tolerance matrixExp exists_goodExpm.dims H ds hH h2 dt
    rw [hU] at u1
    cases u1
    obtain ⟨x', y', s'', n1, n2, n3, n4, n5, n6, n7⟩ := u2 P hP.wf s Dmax hD (hDt rfl)
    rw [e1] at n1
    cases n1
    rw [hy] at n2
    cases n2
    have ex : norm2 x.P = wnorm ds (amp x.P) := C03_norm2 ⟨e2.nonempty, 1, n3⟩
    have nz : norm2 x.P ≠ 0 := by rw [ex]; exact e4 hw
    obtain ⟨k1, k2⟩ := n7 nz
    have pn : 0 < norm2 x.P := lt_of_le_of_ne (by rw [ex]; exact wnorm_nonneg _ _) (Ne.symm nz)
    have back : ∀ t, IsCfg ds t → ((norm2 x.P : ℝ) : ℂ) * amp y.P t = amp x.P t := by
      intro t ht
      rw [k2 t ht, ← mul_assoc, ← Complex.ofReal_mul, mul_one_div_cancel nz]; simp
    refine ⟨norm2 x.P, pn, n5, fun h => ?_, ?_, by rw [n6]; exact e7⟩
    · rw [wnorm_zero_iff] at h
      refine e4 hw ?_
      rw [wnorm_zero_iff]
      intro t ht
      rw [← back t ht, h t ht, mul_zero]
    · rw [n6, wdist_congr back (fun _ _ => rfl)]
      exact e5

/-- For every eigenvector `g` with eigenvalue `E`, accuracy `ε` and overlap `c`: if the total imaginary time `T = nτ` is long enough, then the time step
`τ` short enough and the truncation errors small enough (the sum over the steps of the square root of the error reported relative to the squared norm,
plus the square root of the tolerance, is at most `η`), every run of `n` steps with `TRUNCATE_EACH_UNITARY`, with or without normalisation, whatever the
values of `Dmax`, from a state in canonical form whose squared overlap with `g` is at least the fraction `c`, ends in a state which does not vanish and
has the energy `E + ε` at most. -/
def FindsEigenvalueRelative (S : ℝ → Solver) (H : Ham ℂ) (ds : List Nat) : Prop :=
  ∀ (E : ℝ) (g : List Nat → ℂ), Eigenvector H ds E g → ∀ c ε : ℝ, 0 < c → 0 < ε →
  ∃ T₀ : ℝ, ∀ T, T₀ ≤ T → ∃ δ η : ℝ, 0 < δ ∧ 0 < η ∧
    ∀ (svd : Tensor ℂ → SvdRes ℂ) (eps dflt : ℝ) (single : Bool) (tolerance : ℝ) (normalize : Bool),
    GoodSvd svd → SortedSvd svd → 0 < eps → 0 < dflt → max dflt eps < 1 →
    ∀ τ : ℝ, 0 < τ → τ < δ → ∃ U, (S eps).unitaries matrixExp H (-Complex.I * τ) = some U ∧
    ∀ (n : Nat) (Q : Nat → List (Tensor ℂ)) (sense : Nat → Int) (err : Nat → ℝ), n * τ = T → ReadyFor ds (Q 0) (sense 0) → normSq ds (Q 0) ≠ 0 →
      c * (wnorm ds g ^ 2 * normSq ds (Q 0)) ≤ ‖MPS.inner ds g (amp (Q 0))‖ ^ 2 →
      TruncatingRun svd eps dflt single tolerance (S eps) U normalize n Q sense err →
      ∑ i ∈ Finset.range n, (Real.sqrt (err i / normSq ds (Q i)) + Real.sqrt (max dflt eps)) ≤ η →
      normSq ds (Q n) ≠ 0 ∧ ∃ e, energy (Q n) H = some e ∧ e.re / normSq ds (Q n) ≤ E + ε

set_option maxHeartbeats 1000000 in
theorem findsRelative_of {S : ℝ → Solver} {ls : List (Nat × ℂ)}
    {H : Ham ℂ} {ds : List Nat} (hH : HamFits H ds) (hh : HamHermitian H ds)
    (hT : HamTerms H ds False) (hper : H.periodic = false) (hS : Splits H ds) (h2 : 2 ≤ ds.length) {K : ℝ} (hK : 0 ≤ K)
    (hst' : ∀ (svd : Tensor ℂ → SvdRes ℂ) (eps dflt : ℝ) (single : Bool) (tolerance : ℝ), GoodSvd svd → SortedSvd svd → 0 < dflt → max dflt eps < 1 →
      StepTruncatedComplex svd eps dflt single tolerance (S eps) ls H ds 1 K)
    (hno : ∀ (svd : Tensor ℂ → SvdRes ℂ) (eps dflt : ℝ), GoodSvd svd → 0 < eps → 0 < dflt → NormalizesEachUnitary svd eps dflt (S eps))
    {p : Nat} (hp : 2 ≤ p) {C0 δ : ℝ} (hC0 : 0 ≤ C0) (hδ : 0 < δ)
    (hb : ∀ dt : ℂ, dt.im ≤ 0 → ‖dt‖ < δ → ∀ φ χ, Exact H ds dt φ χ →
      wdist ds (layerSteps matrixExp H ds dt ls φ) χ ≤ C0 * ‖dt‖ ^ p * wnorm ds φ) :
    FindsEigenvalueRelative S H ds := by
  intro E g hg c ε hc hε
  refine ⟨max 1 (-Real.log c / ε), fun T hT0 => ?_⟩
  have hT1 : 1 ≤ T := (le_max_left _ _).trans hT0
  have hT2 : -Real.log c / ε ≤ T := (le_max_right _ _).trans hT0
  have pT : 0 < T := lt_of_lt_of_le one_pos hT1
  set C := Real.sqrt (Fintype.card (Cfg ds)) * (Real.exp (T * rate H ds) * (C0 + K)) with hC
  have C1 : 0 ≤ C := by positivity
  set κ := Real.sqrt (c * Real.exp (-(2 * E * T))) with hκ
  have pκ : 0 < κ := Real.sqrt_pos.2 (by positivity)
  set B := C / κ with hB
  have pB : 0 ≤ B := by positivity
  set G := Real.sqrt (Fintype.card (Cfg ds)) * Real.exp (T * rate H ds) with hG
  have pG : 0 ≤ G := by positivity
  set M := 2 * (G + 1) with hM
  have pM : 0 < M := by positivity
  set θ := min (1 / 4) (ε / (48 * (‖hamL H ds‖ + 1))) / (B + 1) with hθ
  have pθ : 0 < θ := by positivity
  set η := min (1 / (4 * (C + 1))) (θ / (2 * M)) with hη
  have pη : 0 < η := by positivity
  refine ⟨min (min δ 1) (min (1 / (4 * (C + 1) * T)) (θ / (2 * M * T))), η, by positivity, pη,
    fun svd eps dflt single tolerance normalize hgs hsort heps hd0 hm τ h0 hτ => ?_⟩
  have hst := hst' svd eps dflt single tolerance hgs hsort hd0 hm
  obtain ⟨⟨t1, t2⟩, t3, t4⟩ : (τ < δ ∧ τ < 1) ∧ τ < 1 / (4 * (C + 1) * T) ∧ τ < θ / (2 * M * T) := by
    simpa only [lt_min_iff] using hτ
  have hn : ‖-Complex.I * (τ : ℂ)‖ = τ := by simp [abs_of_pos h0]
  have hdt1 : ‖-Complex.I * (τ : ℂ)‖ ≤ 1 := by rw [hn]; exact t2.le
  obtain ⟨U, u1, -⟩ := hst (-Complex.I * τ) hdt1
  refine ⟨U, u1, fun n Q sense err hnT hQ hN ho hR hsm => ?_⟩
  have m0 : 0 ≤ max dflt eps := hd0.le.trans (le_max_left _ _)
  have hready : ∀ i ≤ n, ReadyFor ds (Q i) (sense i) ∧ wnorm ds (amp (Q i)) ≠ 0 := by
    intro i
    induction i with
    | zero =>
      refine fun _ => ⟨hQ, fun e => hN ?_⟩
      rw [← normSq_wnorm, e]; simp
    | succ i ih =>
      intro hi
      obtain ⟨i1, i2⟩ := ih (by omega)
      obtain ⟨Dmax, y, c1, c2, c3, c4, c5⟩ := hR i (by omega)
      obtain ⟨-, -, k2, k3, -⟩ := scaled_step hH h2 hst (hno svd eps dflt hgs heps hd0) hdt1 u1 normalize i1 i2 c1 c2 c3
      rw [c4]; exact ⟨k2, k3⟩
  have hfac : ∀ i, ∃ c : ℝ, 0 < c ∧ (i < n → wdist ds (fun t => (c : ℂ) * amp (Q (i + 1)) t) (layerSteps matrixExp H ds (-Complex.I * τ) ls (amp (Q i)))
        ≤ K * (wnorm ds (amp (Q i)) * (Real.sqrt (err i / normSq ds (Q i)) + Real.sqrt (max dflt eps)))) := by
    intro i
    by_cases hi : i < n
    · obtain ⟨i1, i2⟩ := hready i hi.le
      obtain ⟨Dmax, y, c1, c2, c3, c4, c5⟩ := hR i hi
      obtain ⟨a, k1, k2, k3, k4, -⟩ := scaled_step hH h2 hst (hno svd eps dflt hgs heps hd0) hdt1 u1 normalize i1 i2 c1 c2 c3
      exact ⟨a, k1, fun _ => by rw [c4, c5]; exact k4⟩
    · exact ⟨1, one_pos, fun h => absurd h hi⟩
  choose f f0 f1 using hfac
  set a : Nat → ℝ := fun i => ∏ j ∈ Finset.range i, f j with ha
  have a0 : ∀ i, 0 < a i := fun i => Finset.prod_pos fun j _ => f0 j
  set φ : Nat → List Nat → ℂ := fun i s => (a i : ℂ) * amp (Q i) s with hφ
  have hφw : ∀ i, wnorm ds (φ i) = a i * wnorm ds (amp (Q i)) := fun i => wnorm_smul ds (a i) (a0 i).le _
  set er : Nat → ℝ := fun i => Real.sqrt (err i / normSq ds (Q i)) + Real.sqrt (max dflt eps) with her
  have er0 : ∀ i, 0 ≤ er i := fun i => by simp only [her]; positivity
  set w := fun i => wnorm ds (φ i) with hw
  have w0 : ∀ i, 0 ≤ w i := fun i => wnorm_nonneg _ _
  have hφstep : ∀ i, i < n → wdist ds (φ (i + 1)) (layerSteps matrixExp H ds (-Complex.I * τ) ls (φ i)) ≤ K * (w i * er i) := by
    intro i hi
    have e : wdist ds (φ (i + 1)) (layerSteps matrixExp H ds (-Complex.I * τ) ls (φ i))
        = a i * wdist ds (fun t => (f i : ℂ) * amp (Q (i + 1)) t) (layerSteps matrixExp H ds (-Complex.I * τ) ls (amp (Q i))) := by
      unfold wdist
      rw [← wnorm_smul ds (a i) (a0 i).le]
      congr 1
      funext s
      simp only [hφ]
      rw [layerSteps_smul, show a (i + 1) = a i * f i from Finset.prod_range_succ _ _]
      push_cast; ring
    rw [e]
    simp only [hw]
    rw [hφw]
    calc _ ≤ a i * (K * (wnorm ds (amp (Q i)) * er i)) := mul_le_mul_of_nonneg_left (f1 i hi) (a0 i).le
      _ = _ := by ring
  have hφ0 : φ 0 = amp (Q 0) := by funext s; simp [hφ, ha]
  have hmps : IsMPS ds (Q n) := ⟨(hready n le_rfl).1.nonempty, 1, (hready n le_rfl).1.wf⟩
  obtain ⟨ψ, hψ, hi⟩ := schroedinger_exists H ds (-Complex.I) (amp (Q 0))
  have v0 : vec ds (ψ 0) = vec ds (amp (Q 0)) := funext fun s => hi s.1 s.cfg
  have hψ0 : wnorm ds (ψ 0) = w 0 := by simp only [hw]; rw [hφ0]; exact wnorm_congr v0
  have px : 0 < w 0 := by
    refine lt_of_le_of_ne (w0 0) (fun e => hN ?_)
    rw [← normSq_wnorm, ← hφ0]
    show w 0 ^ 2 = 0
    rw [← e]; simp
  have hdist : ∀ m ≤ n, (∀ i < m, w i ≤ M * w 0) → wdist ds (φ m) (ψ (m * τ)) ≤ C * (M * w 0 * (T * τ + η)) := by
    intro m hm hgr
    have hmT : (n : ℝ) * ‖-Complex.I * (τ : ℂ)‖ ≤ T := by rw [hn, hnT]
    refine (flow_near hH hK hC0 hb T (by simp [h0.le]) (by rwa [hn]) hmT (fun i => mul_nonneg (w0 i) (er0 i)) hφstep hψ rfl
      (fun s hs => by rw [hφ0]; exact hi s hs) m hm).trans ?_
    rw [← hC, hn]
    refine mul_le_mul_of_nonneg_left ?_ C1
    have hτp : τ ^ p ≤ τ ^ 2 := pow_le_pow_of_le_one h0.le t2.le hp
    have term : ∀ i ∈ Finset.range m, wnorm ds (φ i) * τ ^ p + w i * er i ≤ M * w 0 * (τ ^ 2 + er i) := by
      intro i him
      have h1 := hgr i (Finset.mem_range.1 him)
      have h3 := er0 i
      have h4 := w0 i
      calc _ = w i * (τ ^ p + er i) := by simp only [hw]; ring
        _ ≤ M * w 0 * (τ ^ 2 + er i) := by gcongr
    refine (Finset.sum_le_sum term).trans ?_
    rw [← Finset.mul_sum, Finset.sum_add_distrib]
    refine mul_le_mul_of_nonneg_left (add_le_add ?_ ?_) (by positivity)
    · simp only [Finset.sum_const, Finset.card_range, nsmul_eq_mul]
      have h3 : (m : ℝ) * τ ≤ T := by
        rw [← hnT]
        have : (m : ℝ) ≤ n := by exact_mod_cast hm
        gcongr
      calc (m : ℝ) * τ ^ 2 = m * τ * τ := by ring
        _ ≤ _ := by gcongr
    · exact (Finset.sum_le_sum_of_subset_of_nonneg (Finset.range_mono hm) fun i _ _ => er0 i).trans hsm
  have hCt : C * (T * τ + η) ≤ 1 / 2 := by
    rw [lt_div_iff₀ (by positivity)] at t3
    have h1 : η * (4 * (C + 1)) ≤ 1 := by
      have := (min_le_left (1 / (4 * (C + 1))) (θ / (2 * M)))
      rw [← hη, le_div_iff₀ (by positivity)] at this
      exact this
    have hTt : 0 < T * τ := by positivity
    nlinarith
  have hgrow : ∀ m, m ≤ n → w m ≤ M * w 0 := by
    intro m
    induction m using Nat.strong_induction_on with
    | _ m ih =>
      intro hm
      have h2' := hdist m hm fun i hi => ih i hi (by omega)
      have h3 : wnorm ds (ψ (m * τ)) ≤ G * w 0 := by
        have hmT : (m : ℝ) * ‖-Complex.I * (τ : ℂ)‖ ≤ T := by
          rw [hn, ← hnT]
          have : (m : ℝ) ≤ n := by exact_mod_cast hm
          gcongr
        have := flow_le hH hψ (τ := τ) rfl m hmT
        rw [hψ0] at this
        exact this
      have h4 : w m ≤ wdist ds (φ m) (ψ (m * τ)) + wnorm ds (ψ (m * τ)) := by
        show wnorm ds (φ m) ≤ _
        unfold wdist
        rw [wnorm_euclid, wnorm_euclid, wnorm_euclid]
        have : (WithLp.toLp 2 (vec ds (φ m)) : EuclideanSpace ℂ (Cfg ds)) =
            WithLp.toLp 2 (vec ds fun s => φ m s - ψ (m * τ) s) + WithLp.toLp 2 (vec ds (ψ (m * τ))) := by
          ext s; simp [Order.vec]
        rw [this]
        exact norm_add_le _ _
      have h5 : C * (M * w 0 * (T * τ + η)) ≤ M / 2 * w 0 := by
        calc _ = (C * (T * τ + η)) * (M * w 0) := by ring
          _ ≤ 1 / 2 * (M * w 0) := by gcongr
          _ = _ := by ring
      have : M / 2 * w 0 + G * w 0 + w 0 = M * w 0 := by rw [hM]; ring
      linarith
  have d := hdist n le_rfl fun i hi => hgrow i (by omega)
  rw [hnT] at d
  have hg1 : (WithLp.toLp 2 (vec ds g) : EuclideanSpace ℂ (Cfg ds)) ≠ 0 := by
    intro e
    exact hg.1 (by rw [wnorm_euclid, e, norm_zero])
  have hg2 : hamL H ds (WithLp.toLp 2 (vec ds g)) = (E : ℂ) • WithLp.toLp 2 (vec ds g) := by
    rw [hamL_vec]
    ext s
    simpa [Order.vec] using hg.2 s.1 s.cfg
  have hψne : wnorm ds (ψ 0) ≠ 0 := by rw [hψ0]; exact px.ne'
  obtain ⟨f1, f2⟩ := flow_ray (hamL_symm hh) (flow_deriv hψ) (flow_ne_zero hψ hψne) hg1 hg2 hc
    (by rw [v0, ← wnorm_euclid, ← wnorm_euclid, ← inner_euclid, normSq_wnorm]; exact ho) pT
  rw [v0, ← wnorm_euclid, ← hφ0] at f1
  have f3 : κ * w 0 ≤ ‖(WithLp.toLp 2 (vec ds (ψ T)) : EuclideanSpace ℂ (Cfg ds))‖ := by
    refine le_of_sq_le_sq ?_ (norm_nonneg _)
    rw [mul_pow, hκ, Real.sq_sqrt (by positivity)]
    exact f1
  set v : EuclideanSpace ℂ (Cfg ds) := WithLp.toLp 2 (vec ds (ψ T)) with hv
  have hvne : v ≠ 0 := flow_ne_zero hψ hψne T
  set ζ := M * (T * τ + η) with hζ
  have pζ : 0 < ζ := by positivity
  have hζθ : ζ ≤ θ := by
    rw [lt_div_iff₀ (by positivity)] at t4
    have h1 : M * (T * τ) ≤ θ / 2 := by
      have e : τ * (2 * M * T) = 2 * (M * (T * τ)) := by ring
      rw [e] at t4
      linarith
    have h3 : M * η ≤ θ / 2 := by
      have := (min_le_right (1 / (4 * (C + 1))) (θ / (2 * M)))
      rw [← hη, le_div_iff₀ (by positivity)] at this
      linarith
    rw [hζ, mul_add]; linarith
  have hd : ‖(WithLp.toLp 2 (vec ds (φ n)) : EuclideanSpace ℂ (Cfg ds)) - v‖ ≤ B * ζ * ‖v‖ := by
    unfold wdist at d
    rw [wnorm_euclid] at d
    refine le_trans d ?_
    calc C * (M * w 0 * (T * τ + η)) = B * ζ * (κ * w 0) := by rw [hB, hζ]; field_simp
      _ ≤ B * ζ * ‖v‖ := by gcongr
  have hBζ : B * ζ ≤ min (1 / 4) (ε / (48 * (‖hamL H ds‖ + 1))) := by
    have h1 : (B + 1) * θ = min (1 / 4) (ε / (48 * (‖hamL H ds‖ + 1))) := by rw [hθ]; field_simp
    rw [← h1]
    exact mul_le_mul (by linarith) hζθ pζ.le (by positivity)
  obtain ⟨e1, e2⟩ := ray_step (hamL H ds) hvne (by linarith [norm_nonneg v]) hd (hBζ.trans (min_le_left _ _))
  refine ⟨fun e => e1 ?_, _, energy_chain hH hT hper hS hmps, ?_⟩
  · exact absurd (by rw [← sq_eq_zero_iff, wnorm_normSq, e]) (hready n le_rfl).2
  · rw [← ray_euclid, ray_scale H ds (a0 n).ne' (χ := φ n) (φ := amp (Q n)) fun _ _ => rfl] at e2
    have e3 : ray H ds (amp (Q n)) = (MPS.inner ds (amp (Q n)) (actOp ds (chainElt H ds) (amp (Q n)))).re / normSq ds (Q n) := by
      rw [ray, normSq_wnorm]
    rw [← e3]
    have e4 : -(Real.log c / (2 * T)) ≤ ε / 2 := by
      rw [div_le_iff₀ hε] at hT2
      rw [← neg_div, div_le_iff₀ (by positivity)]
      nlinarith
    have e5 : 24 * ‖hamL H ds‖ * (B * ζ) ≤ ε / 2 := by
      have l0 := norm_nonneg (hamL H ds)
      have h1 : B * ζ ≤ ε / (48 * (‖hamL H ds‖ + 1)) := hBζ.trans (min_le_right _ _)
      rw [le_div_iff₀ (by positivity)] at h1
      have : 0 ≤ B * ζ := by positivity
      nlinarith
    unfold rq at f2
    linarith

/-- `Q 0, …, Q n` are the states of `n` consecutive steps with truncation, in which `Dmax` is never smaller than the dimension
of the space of states, so that it does not limit the bond dimension -/
def KeepingRun (svd : Tensor ℂ → SvdRes ℂ) (eps dflt : ℝ) (single : Bool) (tolerance : ℝ) (S : Solver) (U : List Unitary) (normalize : Bool)
    (ds : List Nat) (n : Nat) (Q : Nat → List (Tensor ℂ)) (sense : Nat → Int) (err : Nat → ℝ) : Prop :=
  ∀ i, i < n → ∃ (Dmax : Nat) (y : Evo), 0 < Dmax ∧ (normalize = true → Dmax * max dflt eps < 1) ∧ ds.prod ≤ Dmax ∧
    oneStep svd eps dflt (obcCall svd eps dflt single tolerance) S U .eachUnitary normalize (sense i) (Q i) Dmax = some (y, sense (i + 1)) ∧
    Q (i + 1) = y.P ∧ err i = y.err

/-- For every eigenvector `g` with eigenvalue `E`, accuracy `ε` and overlap `c`: if `T = nτ` is long enough, `τ` short enough and the tolerances small
enough, the runs with `Dmax` large enough end at the energy `E + ε` at most.  There is such a run from every initial state. -/
def FindsEigenvalueKeeping (S : ℝ → Solver) (H : Ham ℂ) (ds : List Nat) : Prop :=
  ∀ (E : ℝ) (g : List Nat → ℂ), Eigenvector H ds E g → ∀ c ε : ℝ, 0 < c → 0 < ε →
  ∃ T₀ : ℝ, ∀ T, T₀ ≤ T → ∃ δ : ℝ, 0 < δ ∧ ∀ τ : ℝ, 0 < τ → τ < δ → ∃ η : ℝ, 0 < η ∧
    ∀ (svd : Tensor ℂ → SvdRes ℂ) (eps dflt : ℝ) (single : Bool) (tolerance : ℝ) (normalize : Bool),
    GoodSvd svd → SortedSvd svd → 0 < eps → 0 < dflt → max dflt eps < η →
    ∃ U, (S eps).unitaries matrixExp H (-Complex.I * τ) = some U ∧
    ∀ (P : List (Tensor ℂ)) (s : Int) (n : Nat), n * τ = T → ReadyFor ds P s → normSq ds P ≠ 0 →
      c * (wnorm ds g ^ 2 * normSq ds P) ≤ ‖MPS.inner ds g (amp P)‖ ^ 2 →
      (∃ Q sense err, Q 0 = P ∧ sense 0 = s ∧ KeepingRun svd eps dflt single tolerance (S eps) U normalize ds n Q sense err) ∧
      ∀ Q sense err, Q 0 = P → sense 0 = s → KeepingRun svd eps dflt single tolerance (S eps) U normalize ds n Q sense err →
        normSq ds (Q n) ≠ 0 ∧ ∃ e, energy (Q n) H = some e ∧ e.re / normSq ds (Q n) ≤ E + ε

theorem findsKeeping_of {S : ℝ → Solver} {ls : List (Nat × ℂ)} {H : Ham ℂ} {ds : List Nat} (hH : HamFits H ds) (h2 : 2 ≤ ds.length)
    (hf : FindsEigenvalueRelative S H ds) {K : ℝ} (hK : 0 ≤ K)
    (hst' : ∀ (svd : Tensor ℂ → SvdRes ℂ) (eps dflt : ℝ) (single : Bool) (tolerance : ℝ), GoodSvd svd → SortedSvd svd → 0 < dflt → max dflt eps < 1 →
      StepTruncatedComplex svd eps dflt single tolerance (S eps) ls H ds 1 K)
    (hno : ∀ (svd : Tensor ℂ → SvdRes ℂ) (eps dflt : ℝ), GoodSvd svd → 0 < eps → 0 < dflt → NormalizesEachUnitary svd eps dflt (S eps)) :
    FindsEigenvalueKeeping S H ds := by
  intro E g hg c ε hc hε
  obtain ⟨T₀, h⟩ := hf E g hg c ε hc hε
  refine ⟨T₀, fun T hT => ?_⟩
  obtain ⟨δ, η, hδ, hη, h⟩ := h T hT
  refine ⟨min δ 1, by positivity, fun τ h0 hτ => ?_⟩
  obtain ⟨t1, t2⟩ := lt_min_iff.1 hτ
  set N := ⌈T / τ⌉₊ with hN
  set A := (N : ℝ) * (Real.sqrt K + 1) with hA
  have A0 : 0 ≤ A := by positivity
  refine ⟨min (1 / ((max 1 ds.prod : Nat) : ℝ)) ((η / (A + 1)) ^ 2), lt_min (by positivity) (by positivity),
    fun svd eps dflt single tolerance normalize hgs hsort heps hd0 hm => ?_⟩
  have m0 : 0 < max dflt eps := lt_max_of_lt_left hd0
  obtain ⟨m1', m2⟩ := lt_min_iff.1 hm
  have one_le : (1 : ℝ) ≤ ((max 1 ds.prod : Nat) : ℝ) := by exact_mod_cast le_max_left 1 ds.prod
  have m1 : max dflt eps < 1 := m1'.trans_le ((div_le_one (by positivity)).2 one_le)
  have m3 : ((max 1 ds.prod : Nat) : ℝ) * max dflt eps < 1 := by
    rw [lt_div_iff₀ (by positivity)] at m1'
    linarith
  obtain ⟨U, u1, h⟩ := h svd eps dflt single tolerance normalize hgs hsort heps hd0 m1 τ h0 t1
  have hst := hst' svd eps dflt single tolerance hgs hsort hd0 m1
  have hn := hno svd eps dflt hgs heps hd0
  have hdt1 : ‖-Complex.I * (τ : ℂ)‖ ≤ 1 := by simp [abs_of_pos h0]; exact t2.le
  refine ⟨U, u1, fun P s n hnT hP hne ho => ⟨?_, ?_⟩⟩
  · have hstep : ∀ x : {x : List (Tensor ℂ) × Int // ReadyFor ds x.1 x.2}, ∃ y : Evo × Int,
        oneStep svd eps dflt (obcCall svd eps dflt single tolerance) (S eps) U .eachUnitary normalize x.1.2 x.1.1 (max 1 ds.prod) = some y ∧ ReadyFor ds y.1.P y.2 := by
      intro x
      cases normalize with
      | false =>
        obtain ⟨U', u2, hs⟩ := hst (-Complex.I * τ) hdt1
        obtain rfl : U = U' := by rw [u1] at u2; simpa using u2
        obtain ⟨y, s', h1, h2, -⟩ := hs x.1.1 x.1.2 (max 1 ds.prod) x.2 (by omega)
        exact ⟨(y, s'), h1, h2⟩
      | true =>
        obtain ⟨U', u2, hs⟩ := hn single tolerance matrixExp exists_goodExpm.dims H ds hH h2 (-Complex.I * τ)
        obtain rfl : U = U' := by rw [u1] at u2; simpa using u2
        obtain ⟨-, y, s', -, h2, -, -, h5, -⟩ := hs x.1.1 x.2.wf x.1.2 (max 1 ds.prod) (by omega) m3
        exact ⟨(y, s'), h2, h5⟩
    choose f f1 f2 using hstep
    let st : Nat → {x : List (Tensor ℂ) × Int // ReadyFor ds x.1 x.2} := fun k => Nat.rec ⟨(P, s), hP⟩ (fun _ x => ⟨((f x).1.P, (f x).2), f2 x⟩) k
    exact ⟨fun k => (st k).1.1, fun k => (st k).1.2, fun k => (f (st k)).1.err, rfl, rfl,
      fun i _ => ⟨max 1 ds.prod, (f (st i)).1, by omega, fun _ => m3, le_max_right _ _, f1 (st i), rfl, rfl⟩⟩
  · rintro Q sense err rfl rfl hr
    refine h n Q sense err hnT hP hne ho ?_ ?_
    · intro i hi
      obtain ⟨D, y, d1, d2, d3, d4, d5, d6⟩ := hr i hi
      exact ⟨D, y, d1, d2, d4, d5, d6⟩
    have hnN : (n : ℝ) ≤ N := by
      have : n ≤ N := by rw [hN, ← hnT, mul_div_cancel_right₀ _ h0.ne', Nat.ceil_natCast]
      exact_mod_cast this
    have key : ∀ i ≤ n, ReadyFor ds (Q i) (sense i) ∧ wnorm ds (amp (Q i)) ≠ 0 := by
      intro i
      induction i with
      | zero =>
        refine fun _ => ⟨hP, fun e => hne ?_⟩
        rw [← normSq_wnorm, e]; simp
      | succ i ih =>
        intro hi
        obtain ⟨i1, i2⟩ := ih (by omega)
        obtain ⟨D, y, d1, d2, d3, d4, d5, d6⟩ := hr i (by omega)
        obtain ⟨-, -, k2, k3, -⟩ := scaled_step hH h2 hst hn hdt1 u1 normalize i1 i2 d1 d2 d4
        rw [d5]; exact ⟨k2, k3⟩
    have term : ∀ i ∈ Finset.range n, Real.sqrt (err i / normSq ds (Q i)) + Real.sqrt (max dflt eps)
        ≤ (Real.sqrt K + 1) * Real.sqrt (max dflt eps) := by
      intro i hi
      have hi := Finset.mem_range.1 hi
      obtain ⟨i1, i2⟩ := key i hi.le
      obtain ⟨D, y, d1, d2, d3, d4, d5, d6⟩ := hr i hi
      obtain ⟨-, -, -, -, -, k5⟩ := scaled_step hH h2 hst hn hdt1 u1 normalize i1 i2 d1 d2 d4
      have hpos : 0 < normSq ds (Q i) := by
        rw [← normSq_wnorm]; positivity
      have e1 : Real.sqrt (err i / normSq ds (Q i)) ≤ Real.sqrt K * Real.sqrt (max dflt eps) := by
        rw [← Real.sqrt_mul hK]
        refine Real.sqrt_le_sqrt ?_
        rw [div_le_iff₀ hpos, d6]
        linarith [k5 d3]
      linarith
    have hsq : Real.sqrt (max dflt eps) ≤ η / (A + 1) := by
      refine Real.sqrt_le_iff.2 ⟨by positivity, m2.le⟩
    refine (Finset.sum_le_sum term).trans ?_
    rw [Finset.sum_const, Finset.card_range, nsmul_eq_mul]
    calc (n : ℝ) * ((Real.sqrt K + 1) * Real.sqrt (max dflt eps)) ≤ N * ((Real.sqrt K + 1) * Real.sqrt (max dflt eps)) := by gcongr
      _ = A * Real.sqrt (max dflt eps) := by rw [hA]; ring
      _ ≤ (A + 1) * (η / (A + 1)) := by gcongr; linarith
      _ = η := by field_simp

/-- **C140**: with or without normalisation -/
theorem C140_normalize {H : Ham ℂ} {ds : List Nat} (hH : HamFits H ds)
    (hh : HamHermitian H ds) (hT : HamTerms H ds False) (hper : H.periodic = false) (hS : Splits H ds) (h2 : 2 ≤ ds.length) :
    FindsEigenvalueRelative trotter2 H ds ∧ FindsEigenvalueRelative trotter3 H ds := by
  obtain ⟨K, hK, h⟩ := C138_step hH zero_le_one
  obtain ⟨A2, δ2, c2, d2, l2⟩ := local2 hH
  obtain ⟨A3, δ3, c3, d3, l3⟩ := local3 hH
  exact ⟨findsRelative_of (ls := steps2) hH hh hT hper hS h2 hK (fun svd eps dflt single tolerance h1 h2 h3 h4 => (h svd eps dflt single tolerance h1 h2 h3 h4).1)
      (fun svd eps dflt hg heps hd0 => (C119_each_unitary_partial hg heps hd0).1) le_rfl c2 d2 l2,
    findsRelative_of (ls := steps3) hH hh hT hper hS h2 hK (fun svd eps dflt single tolerance h1 h2 h3 h4 => (h svd eps dflt single tolerance h1 h2 h3 h4).2.1)
      (fun svd eps dflt hg heps hd0 => (C119_each_unitary_partial hg heps hd0).2.1) (by omega) c3 d3 l3⟩

/-- **C140**: with `Dmax` large enough not to limit the bond dimension, only the tolerances have to be small -/
theorem C140_keeping {H : Ham ℂ} {ds : List Nat} (hH : HamFits H ds)
    (hh : HamHermitian H ds) (hT : HamTerms H ds False) (hper : H.periodic = false) (hS : Splits H ds) (h2 : 2 ≤ ds.length) :
    FindsEigenvalueKeeping trotter2 H ds ∧ FindsEigenvalueKeeping trotter3 H ds := by
  obtain ⟨K, hK, h⟩ := C138_step hH zero_le_one
  obtain ⟨f2, f3⟩ := C140_normalize hH hh hT hper hS h2
  exact ⟨findsKeeping_of (ls := steps2) hH h2 f2 hK (fun svd eps dflt single tolerance h1 h2 h3 h4 => (h svd eps dflt single tolerance h1 h2 h3 h4).1)
      (fun svd eps dflt hg heps hd0 => (C119_each_unitary_partial hg heps hd0).1),
    findsKeeping_of (ls := steps3) hH h2 f3 hK (fun svd eps dflt single tolerance h1 h2 h3 h4 => (h svd eps dflt single tolerance h1 h2 h3 h4).2.1)
      (fun svd eps dflt hg heps hd0 => (C119_each_unitary_partial hg heps hd0).2.1)⟩

end MPS.Props
