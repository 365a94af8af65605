import Verif.TrotterTrunc5
import Verif.Props.TrotterOrderProps

/-!
# C114, C115: what truncation does to a simulation with the Trotter solvers

`ReadyFor` (`TrotterTruncSpec`): the state is in canonical form, with respect to the end where the next sweep begins.  The
Hamiltonian is Hermitian, the time step is real, the singular values are truncated after each gate (`eachUnitary`).
-/

set_option linter.unusedSectionVars false
set_option linter.unusedSimpArgs false

namespace MPS.Props
open MPS Tensor Trotter Order Minim

/-- One step, with any state ready for it and any maximal dimension, succeeds, and leaves a state ready for the next step, the squared
norm of which is smaller by exactly `err + hidden`: `err` is the value returned and `hidden` are the singular values dropped by
`set_canonical`, which are limited by the tolerance.  The state is at a distance of at most `√(K (err + hidden))`, with `K` the
number of layers, from the one obtained with all layers `ls` without truncation. -/
def StepTruncated (svd : Tensor ℂ → SvdRes ℂ) (eps dflt : ℝ)
    (simplifyObc : List (Tensor ℂ) → Int → Nat → Bool → Nat → List (Tensor ℂ) × ℝ) (expm : Tensor ℂ → Tensor ℂ) (S : Solver) (H : Ham ℂ)
    (ds : List Nat) (dt : ℂ) (ls : List (Nat × ℂ)) (U : List Unitary) : Prop :=
  ∀ (P : List (Tensor ℂ)) (sense : Int) (Dmax : Nat), ReadyFor ds P sense → Dmax ≠ 0 →
    ∃ y sense', oneStep svd eps dflt simplifyObc S U .eachUnitary false sense P Dmax = some (y, sense') ∧ ReadyFor ds y.P sense' ∧
      0 ≤ y.err ∧ 0 ≤ y.hidden ∧ normSq ds y.P = normSq ds P - (y.err + y.hidden) ∧
      wdist ds (amp y.P) (layerSteps expm H ds dt ls (amp P)) ≤ Real.sqrt (ls.length * (y.err + y.hidden)) ∧
      y.hidden ≤ (ls.length * ds.length : Nat) * (max dflt eps * normSq ds P)

theorem stepTruncated_of {svd : Tensor ℂ → SvdRes ℂ} (hg : GoodSvd svd) (eps : ℝ) {dflt : ℝ} (hd0 : 0 < dflt) (S : Solver)
    (ls : List (Nat × ℂ)) (hlr : ∀ l ∈ ls, l.2.im = 0)
    (hl : ∀ l ∈ S.layers, l.1 = 0 ∨ l.1 = 1)
    (hls : ∀ Dmax, ls = (S.calls .eachUnitary false Dmax).map fun c =>
      ((S.layers.getD c.which (0, 0)).1.toNat, (S.layers.getD c.which (0, 0)).2))
    (hc : ∀ Dmax, ∀ c ∈ S.calls .eachUnitary false Dmax, c.simplify = false ∧ c.normalize = false ∧ c.counted = true ∧ c.D = Dmax ∧
      (c.tol < 0 ∨ 0 < c.tol) ∧ c.which < S.layers.length)
    (simplifyObc : List (Tensor ℂ) → Int → Nat → Bool → Nat → List (Tensor ℂ) × ℝ) {expm : Tensor ℂ → Tensor ℂ} (he : GoodExpm expm)
    {H : Ham ℂ} {ds : List Nat} (hH : HamFits H ds) (hh : HamHermitian H ds) (dt : ℝ) :
    ∃ U, S.unitaries expm H dt = some U ∧ StepTruncated svd eps dflt simplifyObc expm S H ds dt ls U := by
  have hm : ∀ l ∈ S.layers, ∃ W, mkUnitary expm H l.1 (dt * l.2) = some W := by
    intro l hl'
    have : ∃ k : Nat, k ≤ 1 ∧ l.1 = k := by
      rcases hl l hl' with h | h
      · exact ⟨0, by omega, by simpa using h⟩
      · exact ⟨1, by omega, by simpa using h⟩
    obtain ⟨k, hk, e⟩ := this
    obtain ⟨W, hW, -⟩ := mkUnitary_fits he.dims hH k hk (dt * l.2)
    exact ⟨W, by rw [e]; exact hW⟩
  have hU : ∀ ll : List (Int × ℂ), (∀ l ∈ ll, ∃ W, mkUnitary expm H l.1 (dt * l.2) = some W) →
      ∃ U, ll.mapM (fun l => mkUnitary expm H l.1 (dt * l.2)) = some U ∧ ∀ i, i < ll.length →
        mkUnitary expm H (ll.getD i (0, 0)).1 (dt * (ll.getD i (0, 0)).2) = some (U.getD i ⟨0, 0, []⟩) := by
    intro ll
    induction ll with
    | nil => intro _; exact ⟨[], rfl, fun i hi => by simp at hi⟩
    | cons l ll ih =>
      intro h
      obtain ⟨W, hW⟩ := h l (by simp)
      obtain ⟨U, u1, u2⟩ := ih fun l hl => h l (by simp [hl])
      refine ⟨W :: U, by simp [List.mapM_cons, hW, u1], fun i hi => ?_⟩
      cases i with
      | zero => simpa using hW
      | succ i => simpa using u2 i (by simpa using hi)
  obtain ⟨U, u1, u2⟩ := hU S.layers hm
  refine ⟨U, u1, fun P sense Dmax hP hD => ?_⟩
  obtain ⟨hP, hpos⟩ := ready_iff.1 hP
  have h := calls_done hg eps hd0 simplifyObc he hH hh hpos dt U
    ((S.calls .eachUnitary false Dmax).map fun c => (c, (S.layers.getD c.which (0, 0)).1.toNat, (S.layers.getD c.which (0, 0)).2))
    (by
      intro c hcm
      obtain ⟨c', m, rfl⟩ := List.mem_map.1 hcm
      obtain ⟨h1, h2, h2', h2'', h3, h4⟩ := hc Dmax c' m
      have h5 := u2 c'.which h4
      have hmem : S.layers.getD c'.which (0, 0) ∈ S.layers := by
        rw [List.getD_eq_getElem _ _ h4]; exact List.getElem_mem h4
      have h6 := hl _ hmem
      have h7 : (S.layers.getD c'.which (0, 0)).2.im = 0 := by
        refine hlr ((S.layers.getD c'.which (0, 0)).1.toNat, (S.layers.getD c'.which (0, 0)).2) ?_
        rw [hls Dmax]; exact List.mem_map.2 ⟨c', m, rfl⟩
      refine ⟨h1, h2, h2', by rw [h2'']; exact hD, h3, by simp only; omega, by simp only [Complex.mul_im, h7, Complex.ofReal_im]; ring, ?_⟩
      rw [← h5]
      simp only
      rw [Int.toNat_of_nonneg (by omega)])
    ⟨P, 0, 0⟩ sense hP
  simp only [List.map_map, Function.comp_def, List.map_id', List.length_map] at h
  have hlen : (S.calls .eachUnitary false Dmax).length = ls.length := by
    conv_rhs => rw [hls Dmax]
    simp
  rw [← hls Dmax, hlen] at h
  unfold oneStep
  rw [if_neg (by tauto)]
  have h4 := h.norm
  have h5 := h.dist
  have h6 := h.small
  simp only [Evo.tot, add_zero, sub_zero, zero_add] at h4 h5 h6
  exact ⟨_, _, rfl, ready_iff.2 ⟨h.cent, hpos⟩, h.err, h.hidden, h4, h5, h6⟩

/-- **C114**: one step of `Trotter2Solver` with truncation -/
theorem C114_trotter2 {svd : Tensor ℂ → SvdRes ℂ} (hg : GoodSvd svd) (eps : ℝ) {dflt : ℝ} (hd0 : 0 < dflt)
    (simplifyObc : List (Tensor ℂ) → Int → Nat → Bool → Nat → List (Tensor ℂ) × ℝ) {expm : Tensor ℂ → Tensor ℂ} (he : GoodExpm expm)
    {H : Ham ℂ} {ds : List Nat} (hH : HamFits H ds) (hh : HamHermitian H ds) (dt : ℝ) :
    ∃ U, (trotter2 eps).unitaries expm H dt = some U ∧ StepTruncated svd eps dflt simplifyObc expm (trotter2 eps) H ds dt steps2 U := by
  refine stepTruncated_of hg eps hd0 _ _ steps_real.1 ?_ ?_ ?_ simplifyObc he hH hh dt
  · simp [trotter2]
  · intro D; simp [trotter2, steps2]
  · intro D; simp [trotter2, defaultTol]

/-- **C114**: one step of `Trotter3Solver` with truncation -/
theorem C114_trotter3 {svd : Tensor ℂ → SvdRes ℂ} (hg : GoodSvd svd) (eps : ℝ) {dflt : ℝ} (hd0 : 0 < dflt)
    (simplifyObc : List (Tensor ℂ) → Int → Nat → Bool → Nat → List (Tensor ℂ) × ℝ) {expm : Tensor ℂ → Tensor ℂ} (he : GoodExpm expm)
    {H : Ham ℂ} {ds : List Nat} (hH : HamFits H ds) (hh : HamHermitian H ds) (dt : ℝ) :
    ∃ U, (trotter3 eps).unitaries expm H dt = some U ∧ StepTruncated svd eps dflt simplifyObc expm (trotter3 eps) H ds dt steps3 U := by
  refine stepTruncated_of hg eps hd0 _ _ steps_real.2.1 ?_ ?_ ?_ simplifyObc he hH hh dt
  · simp [trotter3]
  · intro D; simp [trotter3, steps3]
  · intro D; simp [trotter3, defaultTol]

/-- **C114**: one step of `ForestRuthSolver` with truncation -/
theorem C114_forest_ruth {svd : Tensor ℂ → SvdRes ℂ} (hg : GoodSvd svd) (eps : ℝ) {dflt : ℝ} (hd0 : 0 < dflt)
    (simplifyObc : List (Tensor ℂ) → Int → Nat → Bool → Nat → List (Tensor ℂ) × ℝ) {expm : Tensor ℂ → Tensor ℂ} (he : GoodExpm expm)
    {H : Ham ℂ} {ds : List Nat} (hH : HamFits H ds) (hh : HamHermitian H ds) (dt : ℝ) :
    ∃ U, forestRuth.unitaries expm H dt = some U ∧ StepTruncated svd eps dflt simplifyObc expm forestRuth H ds dt stepsFR U := by
  refine stepTruncated_of hg eps hd0 _ _ steps_real.2.2 ?_ ?_ ?_ simplifyObc he hH hh dt
  · simp [forestRuth]
  · intro D; simp [forestRuth, stepsFR, frParam]
  · intro D; simp [forestRuth, defaultTol]

/-! ### C115 -/

/-- `Q 0, …, Q n` are the states of a simulation with `n` steps of the same solver, `sense i` the value of its member `sense` before
the step `i`, and `lost i` the weight of all singular values dropped in the step `i` -/
def TruncatedRun (svd : Tensor ℂ → SvdRes ℂ) (eps dflt : ℝ)
    (simplifyObc : List (Tensor ℂ) → Int → Nat → Bool → Nat → List (Tensor ℂ) × ℝ) (S : Solver) (U : List Unitary)
    (n : Nat) (Q : Nat → List (Tensor ℂ)) (sense : Nat → Int) (lost : Nat → ℝ) : Prop :=
  ∀ i < n, ∃ Dmax y, Dmax ≠ 0 ∧ oneStep svd eps dflt simplifyObc S U .eachUnitary false (sense i) (Q i) Dmax = some (y, sense (i + 1)) ∧
    Q (i + 1) = y.P ∧ lost i = y.err + y.hidden

/-- For all real time steps smaller than `δ` and all runs which begin with a state ready for them: the squared norm of the last state is
the initial one less the weight of all singular values dropped, and the distance to the exact evolution is at most the number of
steps times `bound`, plus the square root of (number of layers applied) × (weight dropped). -/
def TruncatedRunError (svd : Tensor ℂ → SvdRes ℂ) (eps dflt : ℝ)
    (simplifyObc : List (Tensor ℂ) → Int → Nat → Bool → Nat → List (Tensor ℂ) × ℝ) (S : Solver) (H : Ham ℂ)
    (ds : List Nat) (layers : Nat) (δ : ℝ) (bound : ℝ → ℝ) : Prop :=
  ∀ dt : ℝ, |dt| < δ → ∃ U, S.unitaries matrixExp H dt = some U ∧
  ∀ (n : Nat) (Q : Nat → List (Tensor ℂ)) (sense : Nat → Int) (lost : Nat → ℝ), ReadyFor ds (Q 0) (sense 0) →
    TruncatedRun svd eps dflt simplifyObc S U n Q sense lost →
    ReadyFor ds (Q n) (sense n) ∧ normSq ds (Q n) = normSq ds (Q 0) - ∑ i ∈ Finset.range n, lost i ∧
    ∀ ψ : ℝ → List Nat → ℂ, Schroedinger H ds 1 ψ → (∀ s, IsCfg ds s → ψ 0 s = amp (Q 0) s) →
      wdist ds (amp (Q n)) (ψ (n * dt)) ≤ n * (bound dt * wnorm ds (amp (Q 0))) +
        Real.sqrt ((n * layers : Nat) * ∑ i ∈ Finset.range n, lost i)

theorem truncatedRunError_of {svd : Tensor ℂ → SvdRes ℂ} {eps dflt : ℝ}
    (simplifyObc : List (Tensor ℂ) → Int → Nat → Bool → Nat → List (Tensor ℂ) × ℝ) {S : Solver} {ls : List (Nat × ℂ)}
    (hls : ∀ l ∈ ls, l.2.im = 0) {H : Ham ℂ} {ds : List Nat} (hH : HamFits H ds) (hh : HamHermitian H ds)
    (h : ∀ dt : ℝ, ∃ U, S.unitaries matrixExp H dt = some U ∧ StepTruncated svd eps dflt simplifyObc matrixExp S H ds dt ls U)
    {δ : ℝ} {c : ℝ → ℝ}
    (hb : ∀ dt : ℝ, |dt| < δ → ∀ φ χ, Exact H ds dt φ χ → wdist ds (layerSteps matrixExp H ds dt ls φ) χ ≤ c dt * wnorm ds φ) :
    TruncatedRunError svd eps dflt simplifyObc S H ds ls.length δ c := by
  intro dt hdt
  obtain ⟨U, u1, u2⟩ := h dt
  refine ⟨U, u1, fun n Q sense lost h0 hrun => ?_⟩
  have hstep : ∀ i < n, ReadyFor ds (Q i) (sense i) → ReadyFor ds (Q (i + 1)) (sense (i + 1)) ∧ 0 ≤ lost i ∧
      normSq ds (Q (i + 1)) = normSq ds (Q i) - lost i ∧
      wdist ds (amp (Q (i + 1))) (layerSteps matrixExp H ds dt ls (amp (Q i))) ≤ Real.sqrt ((ls.length : Nat) * lost i) := by
    intro i hi hr
    obtain ⟨Dmax, y, d1, d2, d3, d4⟩ := hrun i hi
    obtain ⟨y', s', e1, e2, e3, e4, e5, e6, -⟩ := u2 (Q i) (sense i) Dmax hr d1
    rw [d2] at e1
    obtain ⟨rfl, rfl⟩ : y = y' ∧ sense (i + 1) = s' := by simpa using e1
    rw [d3, d4]
    exact ⟨e2, by linarith, e5, e6⟩
  have main : ∀ m ≤ n, ReadyFor ds (Q m) (sense m) ∧ 0 ≤ ∑ i ∈ Finset.range m, lost i ∧
      normSq ds (Q m) = normSq ds (Q 0) - ∑ i ∈ Finset.range m, lost i ∧
      ∀ ψ : ℝ → List Nat → ℂ, Schroedinger H ds 1 ψ → (∀ s, IsCfg ds s → ψ 0 s = amp (Q 0) s) →
        wnorm ds (ψ (m * dt)) = wnorm ds (amp (Q 0)) ∧
        wdist ds (amp (Q m)) (ψ (m * dt)) ≤ m * (c dt * wnorm ds (amp (Q 0))) +
          Real.sqrt ((m * ls.length : Nat) * ∑ i ∈ Finset.range m, lost i) := by
    intro m
    induction m with
    | zero =>
      intro _
      refine ⟨h0, by simp, by simp, fun ψ hψ hi => ?_⟩
      have e : vec ds (ψ (((0 : Nat) : ℝ) * dt)) = vec ds (amp (Q 0)) := by
        funext s
        simp only [vec, Nat.cast_zero, zero_mul]
        exact hi s.1 s.cfg
      refine ⟨wnorm_congr e, ?_⟩
      have e2 : wdist ds (amp (Q 0)) (ψ (((0 : Nat) : ℝ) * dt)) = 0 := by
        rw [← wdist_self ds (amp (Q 0))]
        exact wdist_congr (fun _ _ => rfl) fun s hs => by rw [Nat.cast_zero, zero_mul]; exact hi s hs
      rw [e2]; simp
    | succ m ih =>
      intro hm
      obtain ⟨r1, r2, r3, r4⟩ := ih (by omega)
      obtain ⟨s1, s2, s3, s4⟩ := hstep m (by omega) r1
      rw [Finset.sum_range_succ]
      refine ⟨s1, by linarith, by rw [s3, r3]; ring, fun ψ hψ hi => ?_⟩
      obtain ⟨q1, q2⟩ := r4 ψ hψ hi
      have hex : Exact H ds dt (ψ (m * dt)) (ψ ((m + 1 : Nat) * dt)) := exact_run hψ (by simp) m
      refine ⟨by rw [exact_norm hh dt hex, q1], ?_⟩
      have t1 := wdist_tri ds (amp (Q (m + 1))) (layerSteps matrixExp H ds dt ls (amp (Q m))) (ψ ((m + 1 : Nat) * dt))
      have t2 := wdist_tri ds (layerSteps matrixExp H ds dt ls (amp (Q m))) (layerSteps matrixExp H ds dt ls (ψ (m * dt))) (ψ ((m + 1 : Nat) * dt))
      rw [layerSteps_dist exists_goodExpm hH hh dt ls (fun l hl => by simp [hls l hl])] at t2
      have t3 := hb dt hdt _ _ hex
      rw [q1] at t3
      have t4 := sqrt_step (Nat.cast_nonneg (m * ls.length)) r2 (Nat.cast_nonneg ls.length) s2 le_rfl s4
      have e : (((m + 1) * ls.length : Nat) : ℝ) = (m * ls.length : Nat) + (ls.length : Nat) := by
        push_cast; ring
      have e3 : ((m + 1 : Nat) : ℝ) * (c dt * wnorm ds (amp (Q 0))) = m * (c dt * wnorm ds (amp (Q 0))) + c dt * wnorm ds (amp (Q 0)) := by
        push_cast; ring
      rw [e, e3]
      linarith
  obtain ⟨m1, -, m3, m4⟩ := main n le_rfl
  exact ⟨m1, m3, fun ψ hψ hi => (m4 ψ hψ hi).2⟩

/-- **C115**: simulations with truncation: `Trotter2Solver` (two layers per step, error of second order per step) and
`Trotter3Solver` (three layers, third order) -/
theorem C115_trotter {svd : Tensor ℂ → SvdRes ℂ} (hg : GoodSvd svd) (eps : ℝ) {dflt : ℝ} (hd0 : 0 < dflt)
    (simplifyObc : List (Tensor ℂ) → Int → Nat → Bool → Nat → List (Tensor ℂ) × ℝ) {H : Ham ℂ} {ds : List Nat} (hH : HamFits H ds)
    (hh : HamHermitian H ds) :
    (∃ C δ : ℝ, 0 < δ ∧ TruncatedRunError svd eps dflt simplifyObc (trotter2 eps) H ds 2 δ fun dt => C * |dt| ^ 2) ∧
    (∃ C δ : ℝ, 0 < δ ∧ TruncatedRunError svd eps dflt simplifyObc (trotter3 eps) H ds 3 δ fun dt => C * |dt| ^ 3) := by
  obtain ⟨C2, δ2, -, hδ2, h2⟩ := local2 hH
  obtain ⟨C3, δ3, -, hδ3, h3⟩ := local3 hH
  refine ⟨⟨C2, δ2, hδ2, ?_⟩, ⟨C3, δ3, hδ3, ?_⟩⟩
  · refine truncatedRunError_of (ls := steps2) simplifyObc steps_real.1 hH hh
      (fun dt => C114_trotter2 hg eps hd0 simplifyObc exists_goodExpm hH hh dt) fun dt hdt φ χ he => ?_
    have := h2 dt (by simp) (by simpa using hdt) φ χ he
    simpa using this
  · refine truncatedRunError_of (ls := steps3) simplifyObc steps_real.2.1 hH hh
      (fun dt => C114_trotter3 hg eps hd0 simplifyObc exists_goodExpm hH hh dt) fun dt hdt φ χ he => ?_
    have := h3 dt (by simp) (by simpa using hdt) φ χ he
    simpa using this

/-- **C115**: simulations with truncation: `ForestRuthSolver` (seven layers per step).  As in C113, `C₃ |dt|³` is the error of the
second-order layers `steps3`. -/
theorem C115_forest_ruth {svd : Tensor ℂ → SvdRes ℂ} (hg : GoodSvd svd) (eps : ℝ) {dflt : ℝ} (hd0 : 0 < dflt)
    (simplifyObc : List (Tensor ℂ) → Int → Nat → Bool → Nat → List (Tensor ℂ) × ℝ) {H : Ham ℂ} {ds : List Nat} (hH : HamFits H ds)
    (hh : HamHermitian H ds) :
    ∃ C₃ C δ : ℝ, 0 < δ ∧ (∀ dt : ℝ, |dt| < δ → ∀ ψ, Schroedinger H ds 1 ψ →
        wdist ds (layerSteps matrixExp H ds dt steps3 (ψ 0)) (ψ dt) ≤ C₃ * |dt| ^ 3 * wnorm ds (ψ 0)) ∧
      TruncatedRunError svd eps dflt simplifyObc forestRuth H ds 7 δ fun dt => 1e-13 * C₃ * |dt| ^ 3 + C * |dt| ^ 5 := by
  obtain ⟨C3, δ3, -, hδ3, h3⟩ := local3 hH
  obtain ⟨C, δ, -, hδ, h⟩ := localFR hH
  have g3 : ∀ dt : ℝ, |dt| < min δ δ3 → ∀ φ χ, Exact H ds dt φ χ →
      wdist ds (layerSteps matrixExp H ds dt steps3 φ) χ ≤ C3 * |dt| ^ 3 * wnorm ds φ := by
    intro dt hdt φ χ he
    have := h3 dt (by simp) (by simpa using lt_of_lt_of_le hdt (min_le_right _ _)) φ χ he
    simpa using this
  refine ⟨C3, C, min δ δ3, lt_min hδ hδ3, fun dt hdt ψ hψ => g3 dt hdt _ _ ?_, ?_⟩
  · have := exact_of_schroedinger (φ := ψ 0) (dt := dt) hψ 0 dt (by simp) fun _ _ => rfl
    rwa [zero_add] at this
  refine truncatedRunError_of (ls := stepsFR) simplifyObc steps_real.2.2 hH hh
      (fun dt => C114_forest_ruth hg eps hd0 simplifyObc exists_goodExpm hH hh dt) fun dt hdt φ χ he => ?_
  have h1 := h dt (lt_of_lt_of_le hdt (min_le_left _ _)) φ χ he
  have h2 := g3 dt hdt φ χ he
  nlinarith

/-- states ready for a sweep exist for any chain: product states are ready for both directions -/
example : ∃ P : List (Tensor ℂ), ReadyFor [2, 3, 2] P 0 ∧ ReadyFor [2, 3, 2] P (-1) ∧ normSq [2, 3, 2] P = 1 := by
  let A : Nat → Tensor ℂ := fun d => ⟨[1, d, 1], fun I => if I.getD 1 0 = 0 then 1 else 0⟩
  have hw : WF 1 [A 2, A 3, A 2] [2, 3, 2] 1 :=
    WF.cons rfl Nat.one_pos (by decide) Nat.one_pos (WF.cons rfl Nat.one_pos (by decide) Nat.one_pos (WF.cons rfl Nat.one_pos (by decide) Nat.one_pos (WF.nil 1)))
  have hR : ∀ d, 0 < d → RightIso (A d) := by
    intro d hd x x' hx hx'
    have : x = 0 := by simpa [A, Tensor.dim] using hx
    have : x' = 0 := by simpa [A, Tensor.dim] using hx'
    subst x; subst x'
    obtain ⟨d, rfl⟩ : ∃ m, d = m + 1 := ⟨d - 1, by omega⟩
    simp [A, Tensor.dim, Finset.sum_range_succ']
  have hL : ∀ d, 0 < d → LeftIso (A d) := by
    intro d hd x x' hx hx'
    have : x = 0 := by simpa [A, Tensor.dim] using hx
    have : x' = 0 := by simpa [A, Tensor.dim] using hx'
    subst x; subst x'
    obtain ⟨d, rfl⟩ : ∃ m, d = m + 1 := ⟨d - 1, by omega⟩
    simp [A, Tensor.dim, Finset.sum_range_succ']
  refine ⟨[A 2, A 3, A 2], ⟨hw, by simp, fun _ j h0 hj => ?_, fun h => absurd h (by decide)⟩,
    ⟨hw, by simp, fun h => absurd h (by decide), fun _ j hj => ?_⟩, ?_⟩
  · have : j = 1 ∨ j = 2 := by simp at hj; omega
    rcases this with rfl | rfl
    · exact hR 3 (by decide)
    · exact hR 2 (by decide)
  · have : j = 0 ∨ j = 1 := by simp at hj; omega
    rcases this with rfl | rfl
    · exact hL 2 (by decide)
    · exact hL 3 (by decide)
  · rw [normSq_at hw (k := 0) (by simp) (fun j hj => by omega) (fun j h0 hj => ?_)]
    · simp [site, A, sumCfg_cons, Finset.sum_range_succ]
    · have : j = 1 ∨ j = 2 := by simp at hj; omega
      rcases this with rfl | rfl
      · exact hR 3 (by decide)
      · exact hR 2 (by decide)

end MPS.Props
