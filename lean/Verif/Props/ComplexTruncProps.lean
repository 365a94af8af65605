import Verif.Props.ImagTruncProps

/-!
# C138: truncation with complex time steps

The Hamiltonian need not be Hermitian, and the time step may be real, imaginary or anything in between.
-/

set_option linter.unusedSectionVars false
set_option linter.unusedSimpArgs false

namespace MPS.Props
open MPS Tensor Trotter Order Minim Matrix

/-- For all time steps up to `r`, all states which are ready for the solver and all `Dmax > 0`: the step succeeds, the new state is ready for the
next step, it does not vanish unless the initial one does, and its distance to the result of the same layers without truncation is at most `K`
times (the square root of the error reported, plus the norm of the initial state times the square root of the tolerance).  The norm grows at most by
the factor `K`.  When `Dmax` is as large as the dimension of the space of states, the error reported is at most `K` times the tolerance times the
squared norm: nothing but small singular values is lost. -/
def StepTruncatedComplex (svd : Tensor ℂ → SvdRes ℂ) (eps dflt : ℝ) (single : Bool) (tolerance : ℝ) (S : Solver) (ls : List (Nat × ℂ)) (H : Ham ℂ)
    (ds : List Nat) (r K : ℝ) : Prop :=
  ∀ dt : ℂ, ‖dt‖ ≤ r → ∃ U, S.unitaries matrixExp H dt = some U ∧
    ∀ (P : List (Tensor ℂ)) (sense : Int) (Dmax : Nat), ReadyFor ds P sense → 0 < Dmax →
    ∃ y sense', oneStep svd eps dflt (obcCall svd eps dflt single tolerance) S U .eachUnitary false sense P Dmax = some (y, sense') ∧
      ReadyFor ds y.P sense' ∧ 0 ≤ y.err ∧ (wnorm ds (amp P) ≠ 0 → wnorm ds (amp y.P) ≠ 0) ∧
      wdist ds (amp y.P) (layerSteps matrixExp H ds dt ls (amp P)) ≤ K * (Real.sqrt y.err + wnorm ds (amp P) * Real.sqrt (max dflt eps)) ∧
      wnorm ds (amp y.P) ≤ K * wnorm ds (amp P) ∧ (ds.prod ≤ Dmax → y.err ≤ K * (max dflt eps * normSq ds P))

theorem stepTruncatedComplex_of {ls : List (Nat × ℂ)} (hlr : ∀ l ∈ ls, ‖l.2‖ ≤ 2)
    {H : Ham ℂ} {ds : List Nat} (hH : HamFits H ds) {r : ℝ} (hr : 0 ≤ r) :
    ∃ K : ℝ, 0 ≤ K ∧ ∀ {svd : Tensor ℂ → SvdRes ℂ} (_ : GoodSvd svd) (_ : SortedSvd svd) {eps dflt : ℝ} (_ : 0 < dflt)
      (_ : max dflt eps < 1) (single : Bool) (tolerance : ℝ) {S : Solver} (_ : ∀ l ∈ S.layers, l.1 = 0 ∨ l.1 = 1)
      (_ : ∀ Dmax, ls = (S.calls .eachUnitary false Dmax).map fun c =>
        ((S.layers.getD c.which (0, 0)).1.toNat, (S.layers.getD c.which (0, 0)).2))
      (_ : ∀ Dmax, ∀ c ∈ S.calls .eachUnitary false Dmax, c.simplify = false ∧ c.normalize = false ∧ c.counted = true ∧ c.D = Dmax ∧
        c.tol < 0 ∧ c.which < S.layers.length),
      StepTruncatedComplex svd eps dflt single tolerance S ls H ds r K := by
  obtain ⟨K, hK, h'⟩ := imag_step hH hr ls hlr
  refine ⟨K * (1 + Real.sqrt K), by positivity, fun {svd} hg hsort {eps dflt} hd0 hm single tolerance {S} hl hls hc dt hdt => ?_⟩
  have h := h' hg eps hd0 hsort hm S hl hls hc (obcCall svd eps dflt single tolerance)
  obtain ⟨U, hU, hs⟩ := h dt hdt
  refine ⟨U, hU, fun P sense Dmax hP hD => ?_⟩
  obtain ⟨y, s', e1, e2, e3, e4, e5, e6, e7, e8, e9⟩ := hs P sense Dmax hP (by omega)
  have m0 : 0 ≤ max dflt eps := hd0.le.trans (le_max_left _ _)
  have hKK : K ≤ K * (1 + Real.sqrt K) := le_mul_of_one_le_right hK (by linarith [Real.sqrt_nonneg K])
  refine ⟨y, s', e1, e2, e3, e7, e5.trans ?_, e9.trans (mul_le_mul_of_nonneg_right hKK (wnorm_nonneg _ _)), fun hD' =>
    (e8 hD').trans (mul_le_mul_of_nonneg_right hKK (mul_nonneg m0 (by rw [← normSq_wnorm]; positivity)))⟩
  have w0 := wnorm_nonneg ds (amp P)
  rw [← normSq_wnorm] at e6
  have q1 := Real.sqrt_nonneg y.err
  have q2 := Real.sqrt_nonneg (max dflt eps)
  have q3 := Real.sqrt_nonneg K
  have hh : Real.sqrt y.hidden ≤ Real.sqrt K * (wnorm ds (amp P) * Real.sqrt (max dflt eps)) := by
    refine (Real.sqrt_le_sqrt e6).trans (le_of_eq ?_)
    rw [Real.sqrt_mul hK, Real.sqrt_mul m0, Real.sqrt_sq w0]; ring
  have hx : Real.sqrt (y.err + y.hidden) ≤ Real.sqrt y.err + Real.sqrt y.hidden :=
    Real.sqrt_le_iff.2 ⟨by positivity, by nlinarith [Real.sq_sqrt e3, Real.sq_sqrt e4, Real.sqrt_nonneg y.err, Real.sqrt_nonneg y.hidden]⟩
  rw [mul_assoc K]
  refine mul_le_mul_of_nonneg_left ?_ hK
  have a1 : 0 ≤ Real.sqrt K * Real.sqrt y.err := by positivity
  have a2 : 0 ≤ wnorm ds (amp P) * Real.sqrt (max dflt eps) := by positivity
  nlinarith

/-- the three solvers apply these layers, with coefficients of modulus at most two -/
theorem solver_calls (eps : ℝ) : ∀ x ∈ [(trotter2 eps, steps2), (trotter3 eps, steps3), (forestRuth, stepsFR)],
    (∀ l ∈ x.2, ‖l.2‖ ≤ 2) ∧ (∀ l ∈ x.1.layers, l.1 = 0 ∨ l.1 = 1) ∧
    (∀ Dmax, x.2 = (x.1.calls .eachUnitary false Dmax).map fun c => ((x.1.layers.getD c.which (0, 0)).1.toNat, (x.1.layers.getD c.which (0, 0)).2)) ∧
    ∀ Dmax, ∀ c ∈ x.1.calls .eachUnitary false Dmax, c.simplify = false ∧ c.normalize = false ∧ c.counted = true ∧ c.D = Dmax ∧
      c.tol < 0 ∧ c.which < x.1.layers.length := by
  intro x hx
  simp only [List.mem_cons, List.not_mem_nil, or_false] at hx
  rcases hx with rfl | rfl | rfl
  · refine ⟨?_, by simp [trotter2], fun D => by simp [trotter2, steps2], fun D => by simp [trotter2, defaultTol]⟩
    intro l hl; simp [steps2] at hl; rcases hl with rfl | rfl <;> norm_num
  · refine ⟨?_, by simp [trotter3], fun D => by simp [trotter3, steps3], fun D => by simp [trotter3, defaultTol]⟩
    intro l hl; simp [steps3] at hl; rcases hl with rfl | rfl | rfl <;> norm_num
  · refine ⟨?_, by simp [forestRuth], fun D => by simp [forestRuth, stepsFR, frParam], fun D => by simp [forestRuth, defaultTol]⟩
    intro l hl
    rw [stepsFR_theta] at hl
    have h1 : |theta| ≤ 2 := by unfold theta; norm_num [abs_le]
    have h2 : |theta / 2| ≤ 2 := by unfold theta; norm_num [abs_le]
    have h3 : |(1 - theta) / 2| ≤ 2 := by unfold theta; norm_num [abs_le]
    have h4 : |1 - 2 * theta| ≤ 2 := by unfold theta; norm_num [abs_le]
    simp only [List.mem_cons, List.not_mem_nil, or_false] at hl
    rcases hl with rfl | rfl | rfl | rfl | rfl | rfl | rfl <;> simp only [Complex.norm_real, Real.norm_eq_abs] <;> assumption

/-- **C138**: one step with truncation and a complex time step; the constant does not depend on the tolerances -/
theorem C138_step {H : Ham ℂ} {ds : List Nat} (hH : HamFits H ds) {r : ℝ} (hr : 0 ≤ r) :
    ∃ K : ℝ, 0 ≤ K ∧ ∀ (svd : Tensor ℂ → SvdRes ℂ) (eps dflt : ℝ) (single : Bool) (tolerance : ℝ),
      GoodSvd svd → SortedSvd svd → 0 < dflt → max dflt eps < 1 →
      StepTruncatedComplex svd eps dflt single tolerance (trotter2 eps) steps2 H ds r K ∧
      StepTruncatedComplex svd eps dflt single tolerance (trotter3 eps) steps3 H ds r K ∧
      StepTruncatedComplex svd eps dflt single tolerance forestRuth stepsFR H ds r K := by
  obtain ⟨K1, p1, h1⟩ := stepTruncatedComplex_of (solver_calls 0 (trotter2 0, steps2) (by simp)).1 hH hr
  obtain ⟨K2, p2, h2⟩ := stepTruncatedComplex_of (solver_calls 0 (trotter3 0, steps3) (by simp)).1 hH hr
  obtain ⟨K3, p3, h3⟩ := stepTruncatedComplex_of (solver_calls 0 (forestRuth, stepsFR) (by simp)).1 hH hr
  have mono : ∀ {svd : Tensor ℂ → SvdRes ℂ} {eps dflt : ℝ} {single : Bool} {tolerance : ℝ} {S : Solver} {ls : List (Nat × ℂ)} {K K' : ℝ}, 0 < dflt → K ≤ K' → StepTruncatedComplex svd eps dflt single tolerance S ls H ds r K →
      StepTruncatedComplex svd eps dflt single tolerance S ls H ds r K' := by
    intro svd eps dflt single tolerance S ls K K' hd0 hKK h dt hdt
    obtain ⟨U, hU, hs⟩ := h dt hdt
    refine ⟨U, hU, fun P sense Dmax hP hD => ?_⟩
    obtain ⟨y, s', e1, e2, e3, e4, e5, e6, e7⟩ := hs P sense Dmax hP hD
    refine ⟨y, s', e1, e2, e3, e4, e5.trans (mul_le_mul_of_nonneg_right hKK ?_), e6.trans (mul_le_mul_of_nonneg_right hKK (wnorm_nonneg _ _)), fun hD' =>
      (e7 hD').trans (mul_le_mul_of_nonneg_right hKK (mul_nonneg (hd0.le.trans (le_max_left _ _)) (by rw [← normSq_wnorm]; positivity)))⟩
    have := wnorm_nonneg ds (amp P)
    positivity
  refine ⟨K1 + K2 + K3, by positivity, fun svd eps dflt single tolerance hg hsort hd0 hm => ?_⟩
  obtain ⟨-, a1, a2, a3⟩ := solver_calls eps (trotter2 eps, steps2) (by simp)
  obtain ⟨-, b1, b2, b3⟩ := solver_calls eps (trotter3 eps, steps3) (by simp)
  obtain ⟨-, c1, c2, c3⟩ := solver_calls eps (forestRuth, stepsFR) (by simp)
  exact ⟨mono hd0 (by linarith) (h1 hg hsort hd0 hm single tolerance a1 a2 a3), mono hd0 (by linarith) (h2 hg hsort hd0 hm single tolerance b1 b2 b3),
    mono hd0 (by linarith) (h3 hg hsort hd0 hm single tolerance c1 c2 c3)⟩

/-- For all time steps in the lower half plane shorter than `δ`, and all runs of total duration `T` at most: the distance to the solution of the
Schrödinger equation is at most `C` times the sum over the steps of (the norm of the state times (`|dt|^p` + the square root of the tolerance),
plus the square root of the error reported). -/
def RunTruncatedComplex (svd : Tensor ℂ → SvdRes ℂ) (eps dflt : ℝ) (single : Bool) (tolerance : ℝ) (S : Solver) (H : Ham ℂ) (ds : List Nat)
    (T δ C : ℝ) (p : Nat) : Prop :=
  ∀ dt : ℂ, dt.im ≤ 0 → ‖dt‖ < δ → ∃ U, S.unitaries matrixExp H dt = some U ∧
    ∀ (n : Nat) (Q : Nat → List (Tensor ℂ)) (sense : Nat → Int) (err : Nat → ℝ), n * ‖dt‖ ≤ T → ReadyFor ds (Q 0) (sense 0) →
      TruncatingRun svd eps dflt single tolerance S U false n Q sense err →
      ∀ (w : ℂ) (τ : ℝ) (ψ : ℝ → List Nat → ℂ), Schroedinger H ds w ψ → w * τ = dt → (∀ s, IsCfg ds s → ψ 0 s = amp (Q 0) s) →
        wdist ds (amp (Q n)) (ψ (n * τ)) ≤ C * ∑ i ∈ Finset.range n,
          (wnorm ds (amp (Q i)) * (‖dt‖ ^ p + Real.sqrt (max dflt eps)) + Real.sqrt (err i))

open scoped Matrix.Norms.Operator in
theorem runTruncatedComplex_of {ls : List (Nat × ℂ)}
    {H : Ham ℂ} {ds : List Nat} (hH : HamFits H ds) {K : ℝ} (hK : 0 ≤ K)
    {p : Nat} {C δ : ℝ} (hC : 0 ≤ C) (hδ : 0 < δ)
    (hb : ∀ dt : ℂ, dt.im ≤ 0 → ‖dt‖ < δ → ∀ φ χ, Exact H ds dt φ χ →
      wdist ds (layerSteps matrixExp H ds dt ls φ) χ ≤ C * ‖dt‖ ^ p * wnorm ds φ) (T : ℝ) :
    ∃ C' δ' : ℝ, 0 < δ' ∧ ∀ {svd : Tensor ℂ → SvdRes ℂ} {eps dflt : ℝ} {single : Bool} {tolerance : ℝ} {S : Solver},
      StepTruncatedComplex svd eps dflt single tolerance S ls H ds 1 K → RunTruncatedComplex svd eps dflt single tolerance S H ds T δ' C' p := by
  refine ⟨Real.sqrt (Fintype.card (Cfg ds)) * (Real.exp (T * rate H ds) * (C + K)), min δ 1, by positivity,
    fun {svd eps dflt single tolerance S} hst dt him hdt => ?_⟩
  obtain ⟨t1, t2⟩ := lt_min_iff.1 hdt
  obtain ⟨U, hU, hs⟩ := hst dt t2.le
  refine ⟨U, hU, fun n Q sense err hn hQ hr w τ ψ hψ hw h0 => ?_⟩
  have r0 : 0 ≤ rate H ds := by unfold rate; positivity
  set L := Real.exp (‖dt‖ * rate H ds) with hL
  have L1 : 1 ≤ L := Real.one_le_exp (by positivity)
  set ℓ : Nat → ℝ := fun i => wnorm ds (amp (Q i)) * (‖dt‖ ^ p + Real.sqrt (max dflt eps)) + Real.sqrt (err i) with hℓ
  have ℓ0 : ∀ i, 0 ≤ ℓ i := fun i => by
    have := wnorm_nonneg ds (amp (Q i))
    simp only [hℓ]; positivity
  have main : ∀ m ≤ n, ReadyFor ds (Q m) (sense m) ∧
      ‖vec ds (fun s => amp (Q m) s - ψ (m * τ) s)‖ ≤ L ^ m * ((C + K) * ∑ i ∈ Finset.range m, ℓ i) := by
    intro m
    induction m with
    | zero =>
      refine fun _ => ⟨hQ, ?_⟩
      have : vec ds (fun s => amp (Q 0) s - ψ ((0 : Nat) * τ) s) = 0 := by
        funext s
        simp [Order.vec, h0 s.1 s.cfg]
      rw [this]; simp
    | succ m ih =>
      intro hmn
      obtain ⟨i1, i2⟩ := ih (by omega)
      obtain ⟨Dmax, y, c1, -, c3, c4, c5⟩ := hr m (by omega)
      obtain ⟨y', s', e1, e2, e3, -, e5, -⟩ := hs (Q m) (sense m) Dmax i1 c1
      rw [c3] at e1
      cases e1
      refine ⟨by rw [c4]; exact e2, ?_⟩
      obtain ⟨χ, hχ⟩ := exact_exists H ds dt (amp (Q m))
      have d1 := hb dt him t1 (amp (Q m)) χ hχ
      have hex := exact_run hψ hw m
      have a : wdist ds (amp (Q (m + 1))) χ ≤ (C + K) * ℓ m := by
        rw [c4]
        refine (wdist_tri ds (amp y.P) (layerSteps matrixExp H ds dt ls (amp (Q m))) χ).trans ((add_le_add e5 d1).trans ?_)
        rw [← c5]
        simp only [hℓ]
        have w0 := wnorm_nonneg ds (amp (Q m))
        have q1 := Real.sqrt_nonneg (err m)
        have q2 := Real.sqrt_nonneg (max dflt eps)
        have q3 : 0 ≤ ‖dt‖ ^ p := by positivity
        have b1 : 0 ≤ C * Real.sqrt (err m) := by positivity
        have b2 : 0 ≤ C * (wnorm ds (amp (Q m)) * Real.sqrt (max dflt eps)) := by positivity
        have b3 : 0 ≤ K * (wnorm ds (amp (Q m)) * ‖dt‖ ^ p) := by positivity
        nlinarith
      have e : vec ds (fun s => amp (Q (m + 1)) s - ψ ((m + 1 : Nat) * τ) s)
          = vec ds (fun s => amp (Q (m + 1)) s - χ s)
            + NormedSpace.exp ((-Complex.I * dt) • hamMat H ds) *ᵥ vec ds (fun s => amp (Q m) s - ψ (m * τ) s) := by
        have e1 : vec ds (fun s => amp (Q m) s - ψ (m * τ) s) = vec ds (amp (Q m)) - vec ds (ψ (m * τ)) := rfl
        have e2 : NormedSpace.exp ((-Complex.I * dt) • hamMat H ds) *ᵥ vec ds (amp (Q m)) = vec ds χ := hχ.symm
        have e3 : NormedSpace.exp ((-Complex.I * dt) • hamMat H ds) *ᵥ vec ds (ψ (m * τ)) = vec ds (ψ ((m + 1 : Nat) * τ)) := hex.symm
        have e4 : vec ds (fun s => amp (Q (m + 1)) s - χ s) = vec ds (amp (Q (m + 1))) - vec ds χ := rfl
        have e5 : vec ds (fun s => amp (Q (m + 1)) s - ψ ((m + 1 : Nat) * τ) s) = vec ds (amp (Q (m + 1))) - vec ds (ψ ((m + 1 : Nat) * τ)) := rfl
        rw [e1, Matrix.mulVec_sub, e2, e3, e4, e5]
        abel
      rw [e]
      refine (norm_add_le _ _).trans ?_
      have b : ‖vec ds (fun s => amp (Q (m + 1)) s - χ s)‖ ≤ (C + K) * ℓ m := (vec_le_wnorm ds _).trans a
      have c : ‖NormedSpace.exp ((-Complex.I * dt) • hamMat H ds) *ᵥ vec ds (fun s => amp (Q m) s - ψ (m * τ) s)‖
          ≤ L * (L ^ m * ((C + K) * ∑ i ∈ Finset.range m, ℓ i)) := by
        refine (Matrix.linfty_opNorm_mulVec _ _).trans (mul_le_mul ?_ i2 (norm_nonneg _) (by positivity))
        have := exact_le hH (-Complex.I * dt)
        rwa [norm_rot] at this
      rw [Finset.sum_range_succ]
      have L1' : 1 ≤ L ^ (m + 1) := one_le_pow₀ L1
      have d : (C + K) * ℓ m ≤ L ^ (m + 1) * ((C + K) * ℓ m) := le_mul_of_one_le_left (mul_nonneg (by positivity) (ℓ0 m)) L1'
      calc _ ≤ (C + K) * ℓ m + L * (L ^ m * ((C + K) * ∑ i ∈ Finset.range m, ℓ i)) := add_le_add b c
        _ ≤ L ^ (m + 1) * ((C + K) * ℓ m) + L * (L ^ m * ((C + K) * ∑ i ∈ Finset.range m, ℓ i)) := add_le_add d le_rfl
        _ = _ := by rw [pow_succ]; ring
  obtain ⟨-, m2⟩ := main n le_rfl
  have sum0 : 0 ≤ ∑ i ∈ Finset.range n, ℓ i := Finset.sum_nonneg fun i _ => ℓ0 i
  have hLn : L ^ n ≤ Real.exp (T * rate H ds) := by
    rw [hL, ← Real.exp_nat_mul]
    refine Real.exp_le_exp.2 ?_
    rw [← mul_assoc]
    exact mul_le_mul_of_nonneg_right hn r0
  refine (wnorm_le_vec ds _).trans ?_
  rw [mul_assoc, mul_assoc]
  refine mul_le_mul_of_nonneg_left (m2.trans ?_) (Real.sqrt_nonneg _)
  exact mul_le_mul_of_nonneg_right hLn (mul_nonneg (by positivity) sum0)

/-- **C138**: simulations with truncation and a complex time step; the constants do not depend on the tolerances -/
theorem C138_run {H : Ham ℂ} {ds : List Nat} (hH : HamFits H ds) (T : ℝ) :
    ∃ C δ : ℝ, 0 < δ ∧ ∀ (svd : Tensor ℂ → SvdRes ℂ) (eps dflt : ℝ) (single : Bool) (tolerance : ℝ),
      GoodSvd svd → SortedSvd svd → 0 < dflt → max dflt eps < 1 →
      RunTruncatedComplex svd eps dflt single tolerance (trotter2 eps) H ds T δ C 2 ∧
      RunTruncatedComplex svd eps dflt single tolerance (trotter3 eps) H ds T δ C 3 := by
  obtain ⟨C2, δ2, c2, d2, l2⟩ := local2 hH
  obtain ⟨C3, δ3, c3, d3, l3⟩ := local3 hH
  obtain ⟨K, hK, h⟩ := C138_step hH zero_le_one
  obtain ⟨A2, e2, p2, h2⟩ := runTruncatedComplex_of hH hK c2 d2 l2 T
  obtain ⟨A3, e3, p3, h3⟩ := runTruncatedComplex_of hH hK c3 d3 l3 T
  have mono : ∀ {svd : Tensor ℂ → SvdRes ℂ} {eps dflt : ℝ} {single : Bool} {tolerance : ℝ} {S : Solver} {δ δ' C C' : ℝ} {p : Nat},
      δ' ≤ δ → C ≤ C' → RunTruncatedComplex svd eps dflt single tolerance S H ds T δ C p →
      RunTruncatedComplex svd eps dflt single tolerance S H ds T δ' C' p := by
    intro svd eps dflt single tolerance S δ δ' C C' p hδ hC h dt him hdt
    obtain ⟨U, hU, hs⟩ := h dt him (hdt.trans_le hδ)
    refine ⟨U, hU, fun n Q sense err a b c w τ ψ hψ hw h0 => (hs n Q sense err a b c w τ ψ hψ hw h0).trans
      (mul_le_mul_of_nonneg_right hC (Finset.sum_nonneg fun i _ => ?_))⟩
    have := wnorm_nonneg ds (amp (Q i))
    positivity
  refine ⟨max A2 A3, min e2 e3, lt_min p2 p3, fun svd eps dflt single tolerance hg hsort hd0 hm => ?_⟩
  obtain ⟨s2, s3, -⟩ := h svd eps dflt single tolerance hg hsort hd0 hm
  exact ⟨mono (min_le_left _ _) (le_max_left _ _) (h2 s2), mono (min_le_right _ _) (le_max_right _ _) (h3 s3)⟩

/-- the runs exist: any number of steps, from any state which is ready for the solver -/
theorem complex_run {svd : Tensor ℂ → SvdRes ℂ} {eps dflt : ℝ} {single : Bool} {tolerance : ℝ} {S : Solver} {ls : List (Nat × ℂ)}
    {H : Ham ℂ} {ds : List Nat} {r K : ℝ} (h : StepTruncatedComplex svd eps dflt single tolerance S ls H ds r K) {dt : ℂ} (hdt : ‖dt‖ ≤ r) {Dmax : Nat}
    (hD : 0 < Dmax) :
    ∃ U, S.unitaries matrixExp H dt = some U ∧ ∀ (P : List (Tensor ℂ)) (s : Int), ReadyFor ds P s → ∀ n : Nat,
      ∃ Q sense err, Q 0 = P ∧ sense 0 = s ∧ TruncatingRun svd eps dflt single tolerance S U false n Q sense err := by
  obtain ⟨U, hU, h⟩ := h dt hdt
  refine ⟨U, hU, fun P s hP n => ?_⟩
  have hstep : ∀ x : {x : List (Tensor ℂ) × Int // ReadyFor ds x.1 x.2}, ∃ y : Evo × Int,
      oneStep svd eps dflt (obcCall svd eps dflt single tolerance) S U .eachUnitary false x.1.2 x.1.1 Dmax = some y ∧ ReadyFor ds y.1.P y.2 := by
    intro x
    obtain ⟨y, s', h1, h2, -⟩ := h x.1.1 x.1.2 Dmax x.2 hD
    exact ⟨(y, s'), h1, h2⟩
  choose f f1 f2 using hstep
  let st : Nat → {x : List (Tensor ℂ) × Int // ReadyFor ds x.1 x.2} := fun k => Nat.rec ⟨(P, s), hP⟩ (fun _ x => ⟨((f x).1.P, (f x).2), f2 x⟩) k
  exact ⟨fun k => (st k).1.1, fun k => (st k).1.2, fun k => (f (st k)).1.err, rfl, rfl, fun i _ => ⟨Dmax, (f (st i)).1, hD, by simp, f1 (st i), rfl, rfl⟩⟩

/-- a Hamiltonian of three sites which is not Hermitian, a complex time step and a state: runs with the maximal bond dimension one exist -/
example {svd : Tensor ℂ → SvdRes ℂ} (hg : GoodSvd svd) (hsort : SortedSvd svd) (single : Bool) (tolerance : ℝ) (n : Nat) :
    ∃ H : Ham ℂ, HamFits H [2, 3, 2] ∧ ¬ HamHermitian H [2, 3, 2] ∧
      ∃ U, (trotter3 (1 / 8)).unitaries matrixExp H ⟨1, -1⟩ = some U ∧ ∃ Q sense err, ReadyFor [2, 3, 2] (Q 0) (sense 0) ∧ wnorm [2, 3, 2] (amp (Q 0)) ≠ 0 ∧
        TruncatingRun svd (1 / 8) (1 / 8) single tolerance (trotter3 (1 / 8)) U false n Q sense err := by
  have hH : HamFits ({ exHam with loc := fun k => ⟨[[2, 3, 2].getD k 0, [2, 3, 2].getD k 0], fun I => if I = [0, 1] then 1 else 0⟩ } : Ham ℂ) [2, 3, 2] :=
    ⟨rfl, fun _ _ => rfl, fun _ _ => rfl, fun _ _ => rfl⟩
  refine ⟨_, hH, fun h => ?_, ?_⟩
  · have := h.loc 0 (by simp) 0 1 (by simp) (by simp)
    simp at this
  obtain ⟨K, -, hK⟩ := C138_step hH (r := 2) (by norm_num)
  obtain ⟨-, h3, -⟩ := hK svd (1 / 8) (1 / 8) single tolerance hg hsort (by norm_num) (by norm_num)
  obtain ⟨U, hU, h⟩ := complex_run h3 (dt := ⟨1, -1⟩) (by
    rw [Complex.norm_def]
    refine Real.sqrt_le_iff.2 ⟨by norm_num, ?_⟩
    simp [Complex.normSq_apply]; norm_num) (Dmax := 1) (by norm_num)
  let A : Nat → Tensor ℂ := fun d => ⟨[1, d, 1], fun I => if I.getD 1 0 = 0 then 1 else 0⟩
  have hw : WF 1 [A 2, A 3, A 2] [2, 3, 2] 1 :=
    WF.cons rfl Nat.one_pos (by decide) Nat.one_pos (WF.cons rfl Nat.one_pos (by decide) Nat.one_pos (WF.cons rfl Nat.one_pos (by decide) Nat.one_pos (WF.nil 1)))
  have hR : ∀ d, 0 < d → RightIso (A d) := by
    intro d hd x x' hx hx'
    have : x = 0 := by simpa [A, Tensor.dim] using hx
    have : x' = 0 := by simpa [A, Tensor.dim] using hx'
    subst x; subst x'
    obtain ⟨d, rfl⟩ : ∃ m, d = m + 1 := ⟨d - 1, by omega⟩
    simp [A, Tensor.dim, Finset.sum_range_succ']
  have hj : ∀ j, 0 < j → j < ([2, 3, 2] : List Nat).length → RightIso (site [A 2, A 3, A 2] j) := by
    intro j h0 hj
    have : j = 1 ∨ j = 2 := by simp at hj; omega
    rcases this with rfl | rfl
    · exact hR 3 (by decide)
    · exact hR 2 (by decide)
  have hr : ReadyFor [2, 3, 2] [A 2, A 3, A 2] 0 := ⟨hw, by simp, fun _ => hj, fun h => absurd h (by decide)⟩
  obtain ⟨Q, sense, err, q0, s0, hrun⟩ := h [A 2, A 3, A 2] 0 hr n
  refine ⟨U, hU, Q, sense, err, by rw [q0, s0]; exact hr, ?_, hrun⟩
  rw [q0]
  intro h0
  have := normSq_wnorm [2, 3, 2] [A 2, A 3, A 2]
  rw [h0, normSq_at hw (k := 0) (by simp) (fun j hj => by omega) hj] at this
  simp [site, A, sumCfg_cons, Finset.sum_range_succ] at this

end MPS.Props
