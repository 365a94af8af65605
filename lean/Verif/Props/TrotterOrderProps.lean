import Verif.TrotterOrder7

/-!
# C112, C113: order of the Trotter solvers

The exact evolution is `Schroedinger` (`TrotterOrderSpec`): any differentiable family of wave functions which solves
`i dψ/dτ = w H ψ` with the Hamiltonian `chainElt`.  The matrix exponential of the gates is the exact one, `matrixExp`.
-/

set_option linter.unusedSectionVars false
set_option linter.unusedSimpArgs false

namespace MPS.Props
open MPS Tensor Trotter Order
open scoped Matrix.Norms.Operator Matrix

/-- For all time steps `dt` with `good dt` and smaller than `δ`, the solver can be created and one step with any state
succeeds; unless singular values are dropped, the distance between the state obtained and the exact evolution of the
initial one satisfies `bound`. -/
def StepError (svd : Tensor ℂ → SvdRes ℂ) (eps dflt : ℝ)
    (simplifyObc : List (Tensor ℂ) → Int → Nat → Bool → Nat → List (Tensor ℂ) × ℝ) (S : Solver) (strategy : Strategy) (H : Ham ℂ)
    (ds : List Nat) (δ : ℝ) (good : ℂ → Prop) (bound : ℂ → (List Nat → ℂ) → (List Nat → ℂ) → ℝ) : Prop :=
  ∀ dt : ℂ, good dt → ‖dt‖ < δ → ∃ U, S.unitaries matrixExp H dt = some U ∧
  ∀ (P : List (Tensor ℂ)), IsMPS ds P → ∀ (sense : Int) (Dmax : Nat), (strategy ≠ .doNotTruncate → Dmax ≠ 0) →
  ∃ y sense', oneStep svd eps dflt simplifyObc S U strategy false sense P Dmax = some (y, sense') ∧ IsMPS ds y.P ∧
    (y.err = 0 → y.hidden = 0 → ∀ (w : ℂ) (τ : ℝ) (ψ : ℝ → List Nat → ℂ), Schroedinger H ds w ψ → w * τ = dt →
      (∀ s, IsCfg ds s → ψ 0 s = amp P s) → wdist ds (amp y.P) (ψ τ) ≤ bound dt (amp P) (ψ τ))

theorem stepError_of {svd : Tensor ℂ → SvdRes ℂ} {eps dflt : ℝ}
    (simplifyObc : List (Tensor ℂ) → Int → Nat → Bool → Nat → List (Tensor ℂ) × ℝ) {S : Solver} {strategy : Strategy} {ls : List (Nat × ℂ)}
    (h : StepIs svd eps dflt S strategy ls) {H : Ham ℂ} {ds : List Nat} (hH : HamFits H ds) {δ : ℝ} {good : ℂ → Prop}
    {bound : ℂ → (List Nat → ℂ) → (List Nat → ℂ) → ℝ}
    (hb : ∀ dt, good dt → ‖dt‖ < δ → ∀ φ χ, Exact H ds dt φ χ → wdist ds (layerSteps matrixExp H ds dt ls φ) χ ≤ bound dt φ χ) :
    StepError svd eps dflt simplifyObc S strategy H ds δ good bound := by
  intro dt hd hδ
  obtain ⟨U, h1, h2⟩ := h simplifyObc matrixExp exists_goodExpm.dims H ds hH dt
  refine ⟨U, h1, fun P hP sense Dmax hD => ?_⟩
  obtain ⟨y, s', g1, g2, -, -, g5⟩ := h2 P hP sense Dmax hD
  refine ⟨y, s', g1, g2, fun e1 e2 w τ ψ hψ hw h0 => ?_⟩
  rw [wdist_congr (g5 e1 e2) fun _ _ => rfl]
  refine hb dt hd hδ _ _ ?_
  have := exact_of_schroedinger hψ 0 τ hw h0
  rwa [zero_add] at this

/-- **C112**: `Trotter2Solver`: the error of one step is of second order in the time step, for every Hamiltonian, real or
complex time step (with nonpositive imaginary part). -/
theorem C112_trotter2 {svd : Tensor ℂ → SvdRes ℂ} (hg : GoodSvd svd) {eps : ℝ} (heps : 0 < eps) {dflt : ℝ} (hd0 : 0 < dflt)
    (simplifyObc : List (Tensor ℂ) → Int → Nat → Bool → Nat → List (Tensor ℂ) × ℝ) {H : Ham ℂ} {ds : List Nat} (hH : HamFits H ds)
    (strategy : Strategy) (hst : strategy = .eachUnitary ∨ strategy = .doNotTruncate) :
    ∃ C δ : ℝ, 0 < δ ∧ StepError svd eps dflt simplifyObc (trotter2 eps) strategy H ds δ (fun dt => dt.im ≤ 0)
      fun dt φ _ => C * ‖dt‖ ^ 2 * wnorm ds φ := by
  obtain ⟨C, δ, -, hδ, h⟩ := local2 hH
  refine ⟨C, δ, hδ, ?_⟩
  rcases hst with rfl | rfl
  · exact stepError_of simplifyObc (C59_trotter2 hg heps hd0).1 hH h
  · exact stepError_of simplifyObc (C59_trotter2 hg heps hd0).2 hH h

/-- **C112**: `Trotter3Solver`: the error of one step is of third order. -/
theorem C112_trotter3 {svd : Tensor ℂ → SvdRes ℂ} (hg : GoodSvd svd) {eps : ℝ} (heps : 0 < eps) {dflt : ℝ} (hd0 : 0 < dflt)
    (simplifyObc : List (Tensor ℂ) → Int → Nat → Bool → Nat → List (Tensor ℂ) × ℝ) {H : Ham ℂ} {ds : List Nat} (hH : HamFits H ds)
    (strategy : Strategy) (hst : strategy = .eachUnitary ∨ strategy = .doNotTruncate) :
    ∃ C δ : ℝ, 0 < δ ∧ StepError svd eps dflt simplifyObc (trotter3 eps) strategy H ds δ (fun dt => dt.im ≤ 0)
      fun dt φ _ => C * ‖dt‖ ^ 3 * wnorm ds φ := by
  obtain ⟨C, δ, -, hδ, h⟩ := local3 hH
  refine ⟨C, δ, hδ, ?_⟩
  rcases hst with rfl | rfl
  · exact stepError_of simplifyObc (C59_trotter3 hg heps hd0).1 hH h
  · exact stepError_of simplifyObc (C59_trotter3 hg heps hd0).2 hH h

/-- **C112**: `ForestRuthSolver`, real time steps: the error of one step is, up to terms of fifth order, `10⁻¹³` times the
error of the second-order sequence of layers `steps3` of `Trotter3Solver` with the same time step.  (It would vanish to
fourth order if the coefficients in the program were exact.) -/
theorem C112_forest_ruth {svd : Tensor ℂ → SvdRes ℂ} (hg : GoodSvd svd) (eps : ℝ) {dflt : ℝ} (hd0 : 0 < dflt)
    (simplifyObc : List (Tensor ℂ) → Int → Nat → Bool → Nat → List (Tensor ℂ) × ℝ) {H : Ham ℂ} {ds : List Nat} (hH : HamFits H ds)
    (strategy : Strategy) (hst : strategy = .eachUnitary ∨ strategy = .doNotTruncate) :
    ∃ C δ : ℝ, 0 < δ ∧ StepError svd eps dflt simplifyObc forestRuth strategy H ds δ (fun dt => dt.im = 0)
      fun dt φ χ => 1e-13 * wdist ds (layerSteps matrixExp H ds dt steps3 φ) χ + C * ‖dt‖ ^ 5 * wnorm ds φ := by
  obtain ⟨C, δ, -, hδ, h⟩ := localFR hH
  refine ⟨C, δ, hδ, ?_⟩
  have h' : ∀ dt : ℂ, dt.im = 0 → ‖dt‖ < δ → ∀ φ χ, Exact H ds dt φ χ → wdist ds (layerSteps matrixExp H ds dt stepsFR φ) χ ≤
      1e-13 * wdist ds (layerSteps matrixExp H ds dt steps3 φ) χ + C * ‖dt‖ ^ 5 * wnorm ds φ := by
    intro dt hd hdt φ χ he
    obtain ⟨r, rfl⟩ : ∃ r : ℝ, dt = r := ⟨dt.re, Complex.ext (by simp) (by simp [hd])⟩
    have hn : ‖(r : ℂ)‖ = |r| := by simp
    rw [hn] at hdt ⊢
    exact h r hdt φ χ he
  rcases hst with rfl | rfl
  · exact stepError_of simplifyObc (C59_forest_ruth hg eps hd0).1 hH h'
  · exact stepError_of simplifyObc (C59_forest_ruth hg eps hd0).2 hH h'

/-- `Q 0, Q 1, …, Q n` are the states of a simulation with `n` steps, each with its own sense and maximal dimension, in which
no singular values were dropped -/
def Run (svd : Tensor ℂ → SvdRes ℂ) (eps dflt : ℝ)
    (simplifyObc : List (Tensor ℂ) → Int → Nat → Bool → Nat → List (Tensor ℂ) × ℝ) (S : Solver) (U : List Unitary) (strategy : Strategy)
    (n : Nat) (Q : Nat → List (Tensor ℂ)) : Prop :=
  ∀ i < n, ∃ sense Dmax y sense', (strategy ≠ .doNotTruncate → Dmax ≠ 0) ∧
    oneStep svd eps dflt simplifyObc S U strategy false sense (Q i) Dmax = some (y, sense') ∧ y.err = 0 ∧ y.hidden = 0 ∧ Q (i + 1) = y.P

theorem run_layers {svd : Tensor ℂ → SvdRes ℂ} {eps dflt : ℝ}
    (simplifyObc : List (Tensor ℂ) → Int → Nat → Bool → Nat → List (Tensor ℂ) × ℝ) {S : Solver} {strategy : Strategy} {ls : List (Nat × ℂ)}
    (h : StepIs svd eps dflt S strategy ls) {H : Ham ℂ} {ds : List Nat} (hH : HamFits H ds) (dt : ℂ) :
    ∃ U, S.unitaries matrixExp H dt = some U ∧ ∀ (n : Nat) (Q : Nat → List (Tensor ℂ)), IsMPS ds (Q 0) →
      Run svd eps dflt simplifyObc S U strategy n Q → ∀ i < n, ∀ s, IsCfg ds s →
        amp (Q (i + 1)) s = layerSteps matrixExp H ds dt ls (amp (Q i)) s := by
  obtain ⟨U, h1, h2⟩ := h simplifyObc matrixExp exists_goodExpm.dims H ds hH dt
  refine ⟨U, h1, fun n Q h0 hr => ?_⟩
  have hm : ∀ i ≤ n, IsMPS ds (Q i) := by
    intro i
    induction i with
    | zero => intro _; exact h0
    | succ i ih =>
      intro hi
      obtain ⟨sense, Dmax, y, sense', c1, c2, c3, c4, c5⟩ := hr i (by omega)
      obtain ⟨y', s', g1, g2, -⟩ := h2 (Q i) (ih (by omega)) sense Dmax c1
      rw [c2] at g1
      cases g1
      rw [c5]; exact g2
  intro i hi s hs
  obtain ⟨sense, Dmax, y, sense', c1, c2, c3, c4, c5⟩ := hr i hi
  obtain ⟨y', s', g1, -, -, -, g5⟩ := h2 (Q i) (hm i hi.le) sense Dmax c1
  rw [c2] at g1
  cases g1
  rw [c5]; exact g5 c3 c4 s hs

/-- For all time steps with `good dt` and smaller than `δ`, and any run of `n` steps (with `few dt n`), the distance between
the last state and the exact evolution of the first one is at most `bound dt n` times the norm of the first one. -/
def RunError (svd : Tensor ℂ → SvdRes ℂ) (eps dflt : ℝ)
    (simplifyObc : List (Tensor ℂ) → Int → Nat → Bool → Nat → List (Tensor ℂ) × ℝ) (S : Solver) (strategy : Strategy) (H : Ham ℂ)
    (ds : List Nat) (δ : ℝ) (good : ℂ → Prop) (few : ℂ → Nat → Prop) (bound : ℂ → Nat → ℝ) : Prop :=
  ∀ dt : ℂ, good dt → ‖dt‖ < δ → ∃ U, S.unitaries matrixExp H dt = some U ∧
  ∀ (n : Nat), few dt n → ∀ (Q : Nat → List (Tensor ℂ)), IsMPS ds (Q 0) → Run svd eps dflt simplifyObc S U strategy n Q →
  ∀ (w : ℂ) (τ : ℝ) (ψ : ℝ → List Nat → ℂ), Schroedinger H ds w ψ → w * τ = dt → (∀ s, IsCfg ds s → ψ 0 s = amp (Q 0) s) →
    wdist ds (amp (Q n)) (ψ (n * τ)) ≤ bound dt n * wnorm ds (amp (Q 0))

theorem exact_run {H : Ham ℂ} {ds : List Nat} {w dt : ℂ} {τ : ℝ} {ψ : ℝ → List Nat → ℂ} (h : Schroedinger H ds w ψ) (hw : w * τ = dt) (i : Nat) :
    Exact H ds dt (ψ (i * τ)) (ψ ((i + 1 : Nat) * τ)) := by
  have := exact_of_schroedinger (φ := ψ (i * τ)) h (i * τ) τ hw fun _ _ => rfl
  rwa [show (i : ℝ) * τ + τ = ((i + 1 : Nat) : ℝ) * τ by push_cast; ring] at this

theorem runError_of {svd : Tensor ℂ → SvdRes ℂ} {eps dflt : ℝ}
    (simplifyObc : List (Tensor ℂ) → Int → Nat → Bool → Nat → List (Tensor ℂ) × ℝ) {S : Solver} {strategy : Strategy} {ls : List (Nat × ℂ)}
    (h : StepIs svd eps dflt S strategy ls) {H : Ham ℂ} {ds : List Nat} (hH : HamFits H ds)
    {M : ℂ → Matrix (Cfg ds) (Cfg ds) ℂ} {m : Nat}
    (hv : ∀ dt : ℂ, dt.im ≤ 0 → ∀ φ, vec ds (layerSteps matrixExp H ds dt ls φ) = M (-Complex.I * dt) *ᵥ vec ds φ)
    (hM : ∀ z, ‖M z‖ ≤ Real.exp (‖z‖ * rate H ds))
    (ho : (fun z => M z - NormedSpace.exp (z • hamMat H ds)) =O[nhds 0] fun z => z ^ (m + 1)) (T : ℝ) :
    ∃ C δ : ℝ, 0 < δ ∧ RunError svd eps dflt simplifyObc S strategy H ds δ (fun dt => dt.im ≤ 0) (fun dt n => n * ‖dt‖ ≤ T)
      fun dt _ => C * ‖dt‖ ^ m := by
  obtain ⟨C, δ, -, hδ, hb⟩ := global_of hH hM ho T
  refine ⟨C, δ, hδ, fun dt hd hdt => ?_⟩
  obtain ⟨U, h1, h2⟩ := run_layers simplifyObc h hH dt
  refine ⟨U, h1, fun n hn Q hQ hr w τ ψ hψ hw h0 => ?_⟩
  have hl := h2 n Q hQ hr
  have := hb (-Complex.I * dt) (by rwa [norm_rot]) n (by rwa [norm_rot]) (fun i => amp (Q i)) (fun i => ψ (i * τ)) ?_ ?_ ?_
  · rwa [norm_rot] at this
  · intro i hi
    rw [← hv dt hd]
    funext s
    exact hl i hi s.1 s.cfg
  · intro i hi
    exact exact_run hψ hw i
  · funext s
    simp only [vec, Nat.cast_zero, zero_mul]
    exact (h0 s.1 s.cfg).symm

/-- **C113**: evolution during a time of at most `T` with `Trotter2Solver`: the error is of first order in the time step. -/
theorem C113_trotter2 {svd : Tensor ℂ → SvdRes ℂ} (hg : GoodSvd svd) {eps : ℝ} (heps : 0 < eps) {dflt : ℝ} (hd0 : 0 < dflt)
    (simplifyObc : List (Tensor ℂ) → Int → Nat → Bool → Nat → List (Tensor ℂ) × ℝ) {H : Ham ℂ} {ds : List Nat} (hH : HamFits H ds)
    (strategy : Strategy) (hst : strategy = .eachUnitary ∨ strategy = .doNotTruncate) (T : ℝ) :
    ∃ C δ : ℝ, 0 < δ ∧ RunError svd eps dflt simplifyObc (trotter2 eps) strategy H ds δ (fun dt => dt.im ≤ 0)
      (fun dt n => n * ‖dt‖ ≤ T) fun dt _ => C * ‖dt‖ := by
  have ho : (fun z => op2 H ds z - NormedSpace.exp (z • hamMat H ds)) =O[nhds 0] fun z => z ^ (1 + 1) := by
    have := lie (genMat H ds 0) (genMat H ds 1)
    rw [gen_sum hH] at this
    exact this
  have key : ∀ st, StepIs svd eps dflt (trotter2 eps) st steps2 → ∃ C δ : ℝ, 0 < δ ∧
      RunError svd eps dflt simplifyObc (trotter2 eps) st H ds δ (fun dt => dt.im ≤ 0) (fun dt n => n * ‖dt‖ ≤ T) fun dt _ => C * ‖dt‖ := by
    intro st h
    have := runError_of simplifyObc h hH (M := op2 H ds) (m := 1) (fun dt hd φ => steps2_vec hH dt hd φ) (op2_le H ds) ho T
    simpa only [pow_one] using this
  rcases hst with rfl | rfl
  · exact key _ (C59_trotter2 hg heps hd0).1
  · exact key _ (C59_trotter2 hg heps hd0).2

/-- **C113**: with `Trotter3Solver` the error is of second order. -/
theorem C113_trotter3 {svd : Tensor ℂ → SvdRes ℂ} (hg : GoodSvd svd) {eps : ℝ} (heps : 0 < eps) {dflt : ℝ} (hd0 : 0 < dflt)
    (simplifyObc : List (Tensor ℂ) → Int → Nat → Bool → Nat → List (Tensor ℂ) × ℝ) {H : Ham ℂ} {ds : List Nat} (hH : HamFits H ds)
    (strategy : Strategy) (hst : strategy = .eachUnitary ∨ strategy = .doNotTruncate) (T : ℝ) :
    ∃ C δ : ℝ, 0 < δ ∧ RunError svd eps dflt simplifyObc (trotter3 eps) strategy H ds δ (fun dt => dt.im ≤ 0)
      (fun dt n => n * ‖dt‖ ≤ T) fun dt _ => C * ‖dt‖ ^ 2 := by
  have ho : (fun z => strang (genMat H ds 0) (genMat H ds 1) z - NormedSpace.exp (z • hamMat H ds)) =O[nhds 0] fun z => z ^ (2 + 1) := by
    have := strang_order (genMat H ds 0) (genMat H ds 1)
    rw [gen_sum hH] at this
    exact this
  have key : ∀ st, StepIs svd eps dflt (trotter3 eps) st steps3 → ∃ C δ : ℝ, 0 < δ ∧
      RunError svd eps dflt simplifyObc (trotter3 eps) st H ds δ (fun dt => dt.im ≤ 0) (fun dt n => n * ‖dt‖ ≤ T) fun dt _ => C * ‖dt‖ ^ 2 :=
    fun st h => runError_of simplifyObc h hH (M := strang (genMat H ds 0) (genMat H ds 1)) (m := 2) (fun dt hd φ => steps3_vec hH dt hd φ)
      (strang_le H ds) ho T
  rcases hst with rfl | rfl
  · exact key _ (C59_trotter3 hg heps hd0).1
  · exact key _ (C59_trotter3 hg heps hd0).2

/-- with a Hermitian Hamiltonian and real time steps the errors of the steps add up -/
theorem runError_hermitian {svd : Tensor ℂ → SvdRes ℂ} {eps dflt : ℝ}
    (simplifyObc : List (Tensor ℂ) → Int → Nat → Bool → Nat → List (Tensor ℂ) × ℝ) {S : Solver} {strategy : Strategy} {ls : List (Nat × ℂ)}
    (h : StepIs svd eps dflt S strategy ls) (hls : ∀ l ∈ ls, l.2.im = 0) {H : Ham ℂ} {ds : List Nat} (hH : HamFits H ds) (hh : HamHermitian H ds)
    {δ : ℝ} {c : ℝ → ℝ}
    (hb : ∀ dt : ℝ, |dt| < δ → ∀ φ χ, Exact H ds dt φ χ → wdist ds (layerSteps matrixExp H ds dt ls φ) χ ≤ c dt * wnorm ds φ) :
    RunError svd eps dflt simplifyObc S strategy H ds δ (fun dt => dt.im = 0) (fun _ _ => True) fun dt n => n * c dt.re := by
  intro dt hd hdt
  obtain ⟨r, rfl⟩ : ∃ r : ℝ, dt = r := ⟨dt.re, Complex.ext (by simp) (by simp [hd])⟩
  have hn : ‖(r : ℂ)‖ = |r| := by simp
  rw [hn] at hdt
  obtain ⟨U, h1, h2⟩ := run_layers simplifyObc h hH r
  refine ⟨U, h1, fun n _ Q hQ hr w τ ψ hψ hw h0 => ?_⟩
  have hl := h2 n Q hQ hr
  have := (telescope_unitary (ds := ds) (n := n) (c := c r)
    (S := fun φ χ => vec ds χ = vec ds (layerSteps matrixExp H ds r ls φ)) (E := Exact H ds r)
    (a := fun i => amp (Q i)) (b := fun i => ψ (i * τ)) ?_ ?_ ?_ ?_ ?_ ?_ ?_ n le_rfl).2
  · simpa using this
  · intro φ χ e
    rw [wnorm_congr e]
    refine wnorm_of_inner (layerSteps_norm exists_goodExpm hH hh r ls (fun l hl => ?_) φ)
    simp [hls l hl]
  · intro φ φ' χ χ' e e'; exact exact_dist hh r e e'
  · intro φ; exact exact_exists H ds r φ
  · intro φ χ χ' e e'
    have := hb r hdt φ χ' e'
    have e2 : wdist ds χ χ' = wdist ds (layerSteps matrixExp H ds r ls φ) χ' := by
      refine wnorm_congr ?_
      funext s
      have := congrFun e s
      simp only [vec] at this ⊢
      rw [this]
    rwa [e2]
  · intro i hi
    funext s
    exact hl i hi s.1 s.cfg
  · intro i hi; exact exact_run hψ hw i
  · funext s
    simp only [vec, Nat.cast_zero, zero_mul]
    exact (h0 s.1 s.cfg).symm

theorem steps_real : (∀ l ∈ steps2, l.2.im = 0) ∧ (∀ l ∈ steps3, l.2.im = 0) ∧ ∀ l ∈ stepsFR, l.2.im = 0 := by
  refine ⟨by simp [steps2], ?_, ?_⟩
  · have : (2⁻¹ : ℂ).im = 0 := by norm_num
    simp [steps3, this]
  · rw [stepsFR_theta]
    intro l hl
    simp only [List.mem_cons, List.not_mem_nil, or_false] at hl
    rcases hl with rfl | rfl | rfl | rfl | rfl | rfl | rfl <;> exact Complex.ofReal_im _

/-- **C113**: with a Hermitian Hamiltonian and real time steps the error grows at most linearly with the number of steps, however
long the simulation is. -/
theorem C113_hermitian {svd : Tensor ℂ → SvdRes ℂ} (hg : GoodSvd svd) {eps : ℝ} (heps : 0 < eps) {dflt : ℝ} (hd0 : 0 < dflt)
    (simplifyObc : List (Tensor ℂ) → Int → Nat → Bool → Nat → List (Tensor ℂ) × ℝ) {H : Ham ℂ} {ds : List Nat} (hH : HamFits H ds)
    (hh : HamHermitian H ds) (strategy : Strategy) (hst : strategy = .eachUnitary ∨ strategy = .doNotTruncate) :
    (∃ C δ : ℝ, 0 < δ ∧ RunError svd eps dflt simplifyObc (trotter2 eps) strategy H ds δ (fun dt => dt.im = 0) (fun _ _ => True)
      fun dt n => n * (C * |dt.re| ^ 2)) ∧
    (∃ C δ : ℝ, 0 < δ ∧ RunError svd eps dflt simplifyObc (trotter3 eps) strategy H ds δ (fun dt => dt.im = 0) (fun _ _ => True)
      fun dt n => n * (C * |dt.re| ^ 3)) := by
  obtain ⟨C2, δ2, -, hδ2, h2⟩ := local2 hH
  obtain ⟨C3, δ3, -, hδ3, h3⟩ := local3 hH
  have g2 : ∀ dt : ℝ, |dt| < δ2 → ∀ φ χ, Exact H ds dt φ χ → wdist ds (layerSteps matrixExp H ds dt steps2 φ) χ ≤ C2 * |dt| ^ 2 * wnorm ds φ := by
    intro dt hdt φ χ he
    have := h2 dt (by simp) (by simpa using hdt) φ χ he
    simpa using this
  have g3 : ∀ dt : ℝ, |dt| < δ3 → ∀ φ χ, Exact H ds dt φ χ → wdist ds (layerSteps matrixExp H ds dt steps3 φ) χ ≤ C3 * |dt| ^ 3 * wnorm ds φ := by
    intro dt hdt φ χ he
    have := h3 dt (by simp) (by simpa using hdt) φ χ he
    simpa using this
  refine ⟨⟨C2, δ2, hδ2, ?_⟩, ⟨C3, δ3, hδ3, ?_⟩⟩
  · rcases hst with rfl | rfl
    · exact runError_hermitian (c := fun dt => C2 * |dt| ^ 2) simplifyObc (C59_trotter2 hg heps hd0).1 steps_real.1 hH hh g2
    · exact runError_hermitian (c := fun dt => C2 * |dt| ^ 2) simplifyObc (C59_trotter2 hg heps hd0).2 steps_real.1 hH hh g2
  · rcases hst with rfl | rfl
    · exact runError_hermitian (c := fun dt => C3 * |dt| ^ 3) simplifyObc (C59_trotter3 hg heps hd0).1 steps_real.2.1 hH hh g3
    · exact runError_hermitian (c := fun dt => C3 * |dt| ^ 3) simplifyObc (C59_trotter3 hg heps hd0).2 steps_real.2.1 hH hh g3

/-- **C113**: `ForestRuthSolver`: if `C₃ |dt|³` bounds the error of the layers `steps3` of `Trotter3Solver` for time steps
smaller than `δ₃`, the error of `n` steps is at most `n (10⁻¹³ C₃ |dt|³ + C |dt|⁵)`. -/
theorem C113_forest_ruth {svd : Tensor ℂ → SvdRes ℂ} (hg : GoodSvd svd) (eps : ℝ) {dflt : ℝ} (hd0 : 0 < dflt)
    (simplifyObc : List (Tensor ℂ) → Int → Nat → Bool → Nat → List (Tensor ℂ) × ℝ) {H : Ham ℂ} {ds : List Nat} (hH : HamFits H ds)
    (hh : HamHermitian H ds) (strategy : Strategy) (hst : strategy = .eachUnitary ∨ strategy = .doNotTruncate) {C₃ δ₃ : ℝ} (hδ₃ : 0 < δ₃)
    (h3 : ∀ dt : ℝ, |dt| < δ₃ → ∀ ψ, Schroedinger H ds 1 ψ →
      wdist ds (layerSteps matrixExp H ds dt steps3 (ψ 0)) (ψ dt) ≤ C₃ * |dt| ^ 3 * wnorm ds (ψ 0)) :
    ∃ C δ : ℝ, 0 < δ ∧ RunError svd eps dflt simplifyObc forestRuth strategy H ds δ (fun dt => dt.im = 0) (fun _ _ => True)
      fun dt n => n * (1e-13 * C₃ * |dt.re| ^ 3 + C * |dt.re| ^ 5) := by
  obtain ⟨C, δ, -, hδ, h⟩ := localFR hH
  have g : ∀ dt : ℝ, |dt| < min δ δ₃ → ∀ φ χ, Exact H ds dt φ χ → wdist ds (layerSteps matrixExp H ds dt stepsFR φ) χ ≤
      (1e-13 * C₃ * |dt| ^ 3 + C * |dt| ^ 5) * wnorm ds φ := by
    intro dt hdt φ χ he
    have h1 := h dt (lt_of_lt_of_le hdt (min_le_left _ _)) φ χ he
    obtain ⟨ψ, p1, p2⟩ := schroedinger_exists H ds 1 φ
    have h2 := h3 dt (lt_of_lt_of_le hdt (min_le_right _ _)) ψ p1
    have v0 : vec ds (ψ 0) = vec ds φ := funext fun s => p2 s.1 s.cfg
    have v1 : vec ds (ψ dt) = vec ds χ := by
      have := exact_of_schroedinger (φ := φ) (dt := dt) p1 0 dt (by simp) p2
      rw [zero_add] at this
      exact this.trans he.symm
    have e : wdist ds (layerSteps matrixExp H ds dt steps3 (ψ 0)) (ψ dt) = wdist ds (layerSteps matrixExp H ds dt steps3 φ) χ := by
      refine wnorm_congr ?_
      have e1 : vec ds (layerSteps matrixExp H ds dt steps3 (ψ 0)) = vec ds (layerSteps matrixExp H ds dt steps3 φ) := by
        rw [steps3_vec hH dt (by simp), steps3_vec hH dt (by simp), v0]
      funext s
      have a := congrFun e1 s
      have b := congrFun v1 s
      simp only [vec] at a b ⊢
      rw [a, b]
    rw [e, wnorm_congr v0] at h2
    nlinarith
  refine ⟨C, min δ δ₃, lt_min hδ hδ₃, ?_⟩
  rcases hst with rfl | rfl
  · exact runError_hermitian (c := fun dt => 1e-13 * C₃ * |dt| ^ 3 + C * |dt| ^ 5) simplifyObc (C59_forest_ruth hg eps hd0).1 steps_real.2.2 hH hh g
  · exact runError_hermitian (c := fun dt => 1e-13 * C₃ * |dt| ^ 3 + C * |dt| ^ 5) simplifyObc (C59_forest_ruth hg eps hd0).2 steps_real.2.2 hH hh g

/-- every state has an exact evolution, in real and in imaginary time -/
theorem C112_exists (H : Ham ℂ) (ds : List Nat) (w : ℂ) (φ : List Nat → ℂ) :
    ∃ ψ, Schroedinger H ds w ψ ∧ ∀ s, IsCfg ds s → ψ 0 s = φ s := schroedinger_exists H ds w φ

/-- the hypotheses can be met: a Hamiltonian of three sites as required, an initial state, and (for a single site) steps in
which nothing is dropped, whatever the singular value decomposition -/
example : (∃ svd : Tensor ℂ → SvdRes ℂ, GoodSvd svd) ∧ (∃ H, HamFits H [2, 2, 2] ∧ HamHermitian H [2, 2, 2]) ∧
    ∀ (svd : Tensor ℂ → SvdRes ℂ) (eps dflt : ℝ) (simplifyObc : List (Tensor ℂ) → Int → Nat → Bool → Nat → List (Tensor ℂ) × ℝ)
      (H : Ham ℂ) (dt : ℂ), H.size = 1 → ∃ U, (trotter2 eps).unitaries matrixExp H dt = some U ∧
      ∀ (A : Tensor ℂ), ∃ y s, oneStep svd eps dflt simplifyObc (trotter2 eps) U .doNotTruncate false 1 [A] 0 = some (y, s) ∧
        y.err = 0 ∧ y.hidden = 0 := by
  refine ⟨exists_goodSvd, ⟨⟨3, fun _ => 2, fun _ => ⟨[2, 2], fun i => if i.getD 0 0 = i.getD 1 0 then i.getD 0 0 else 1⟩,
    fun _ => ⟨[4, 4], fun i => if i.getD 0 0 = i.getD 1 0 then 3 else 0⟩, fun _ => 0, fun _ _ => Tensor.empty, fun _ _ => Tensor.empty, false⟩,
    ⟨rfl, ?_, ?_, ?_⟩, ?_, ?_⟩, ?_⟩
  · intro p hp; have : p = 0 ∨ p = 1 ∨ p = 2 := by simp at hp; omega
    rcases this with rfl | rfl | rfl <;> rfl
  · intro p hp; have : p = 0 ∨ p = 1 ∨ p = 2 := by simp at hp; omega
    rcases this with rfl | rfl | rfl <;> rfl
  · intro p hp; have : p = 0 ∨ p = 1 := by simp at hp; omega
    rcases this with rfl | rfl <;> rfl
  · intro p _ x y _ _
    by_cases h : x = y <;> simp [h, eq_comm]
  · intro p _ x y _ _
    by_cases h : x = y <;> simp [h, eq_comm]
  · intro svd eps dflt simplifyObc H dt hH
    refine ⟨_, by simp [Solver.unitaries, trotter2, mkUnitary]; rfl, fun A => ⟨_, _, by simp [oneStep]; rfl, ?_, ?_⟩⟩ <;>
      simp [runCall, trotter2, Trotter.apply, hH, layerEnd, loopUp, loopDown, applyOne]

end MPS.Props
