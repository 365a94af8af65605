import Verif.LayerSimp2
import Verif.Props.LayerProps
import Verif.Props.NormalizeProps

/-!
# C130, C131: the default strategy of the Trotter solvers with its simplifications

`TRUNCATE_EACH_LAYER` is the default of `TrotterSolver` (/repo/include/mps/time_evolve.h:56-76).  After every layer,
`apply_and_simplify` (/repo/src/evolve/trotter_unitary.cc:179-202) brings the state to canonical form and, when a bond is larger than
`Dmax`, calls `simplify_obc` (/repo/src/dmrg/simplify_obc.cc) with twelve sweeps; `obcCall` is the model of this call.  C121 and C122
are about steps in which no layer has to be simplified.  Here there is no such restriction: the real simplification is part of the step, and
what the user can check is the value returned by `one_step`.

A state is in canonical form with respect to one end: `∃ s, ReadyFor ds P s`.  Both ends occur, as `simplify_obc` leaves the centre at the
end where its last sweep stopped.
-/

set_option linter.unusedSectionVars false
set_option linter.unusedSimpArgs false

namespace MPS.Props
open MPS Tensor Trotter Order Minim

theorem atEnd_iff {ds : List Nat} {P : List (Tensor ℂ)} {D : Nat} (hpos : 0 < ds.length) :
    AtEnd ds P D ↔ (∃ s, ReadyFor ds P s) ∧ ∀ j, 0 < j → j < ds.length → (site P j).dim 0 ≤ D := by
  unfold AtEnd
  refine and_congr_left fun _ => ⟨?_, ?_⟩
  · rintro (h | h)
    · exact ⟨0, ready_iff.2 ⟨by simpa [startAt] using h, hpos⟩⟩
    · exact ⟨-1, ready_iff.2 ⟨by simpa [startAt] using h, hpos⟩⟩
  · rintro ⟨s, h⟩
    have := (ready_iff.1 h).1
    unfold startAt at this
    split at this
    · exact Or.inl this
    · exact Or.inr this

/-- canonical form with respect to one of the ends -/
def AnyEnd (ds : List Nat) (P : List (Tensor ℂ)) : Prop := ∃ s, ReadyFor ds P s

/-- canonical form with respect to one of the ends, and bonds of dimension `Dmax` at most -/
def AnyEndUpTo (ds : List Nat) (Dmax : Nat) (P : List (Tensor ℂ)) : Prop :=
  AnyEnd ds P ∧ ∀ j, 0 < j → j < ds.length → (site P j).dim 0 ≤ Dmax

/-- One step with `TRUNCATE_EACH_LAYER`, from a state of the kind `Ok`, whose bonds are not larger than `D`: the step is done, the new
state is again of this kind, and the value returned `y.err` is not negative.  Without `normalize` the norm
does not grow, and the distance to the exact product of the `K` layers `ls` is at most the norm times the value returned, up to
`2 K L √(D max(dflt, eps))`.  With `normalize`, from a state of norm one, twice this value. -/
def StepReturned (svd : Tensor ℂ → SvdRes ℂ) (eps dflt : ℝ) (single : Bool) (tolerance : ℝ) (expm : Tensor ℂ → Tensor ℂ) (S : Solver) (H : Ham ℂ)
    (ds : List Nat) (Ok : Nat → List (Tensor ℂ) → Prop) (D : Nat → Nat) (dt : ℂ) (ls : List (Nat × ℂ)) (U : List Unitary) : Prop :=
  ∀ (P : List (Tensor ℂ)) (sense : Int) (normalize : Bool) (Dmax : Nat), Ok Dmax P → Dmax ≠ 0 →
    ∃ y sense', oneStep svd eps dflt (obcCall svd eps dflt single tolerance) S U .eachLayer normalize sense P Dmax = some (y, sense') ∧
      Ok Dmax y.P ∧ 0 ≤ y.err ∧
      (normalize = false → normSq ds y.P ≤ normSq ds P ∧
        wdist ds (amp y.P) (layerSteps expm H ds dt ls (amp P)) ≤
          (y.err + ls.length * (2 * ds.length * Real.sqrt (D Dmax * max dflt eps))) * wnorm ds (amp P)) ∧
      (normSq ds P = 1 → normSq ds y.P ≤ 1 ∧
        wdist ds (amp y.P) (layerSteps expm H ds dt ls (amp P)) ≤ 2 * (y.err + ls.length * (2 * ds.length * Real.sqrt (D Dmax * max dflt eps))))

theorem wnorm_sq (ds : List Nat) (P : List (Tensor ℂ)) : wnorm ds (amp P) = Real.sqrt (normSq ds P) := rfl

/-- the same from any state of norm one at most, with respect to any vector -/
def StepPot (svd : Tensor ℂ → SvdRes ℂ) (eps dflt : ℝ) (single : Bool) (tolerance : ℝ) (expm : Tensor ℂ → Tensor ℂ) (S : Solver) (H : Ham ℂ)
    (ds : List Nat) (Ok : Nat → List (Tensor ℂ) → Prop) (D : Nat → Nat) (dt : ℂ) (ls : List (Nat × ℂ)) (U : List Unitary) : Prop :=
  ∀ (P : List (Tensor ℂ)) (sense : Int) (n : Bool) (Dmax : Nat), Ok Dmax P → Dmax ≠ 0 →
    ∃ y sense', oneStep svd eps dflt (obcCall svd eps dflt single tolerance) S U .eachLayer n sense P Dmax = some (y, sense') ∧
      Ok Dmax y.P ∧ 0 ≤ y.err ∧
      (n = false → wnorm ds (amp y.P) ≤ wnorm ds (amp P) ∧
        wdist ds (amp y.P) (layerSteps expm H ds dt ls (amp P)) ≤
          (y.err + ls.length * (2 * ds.length * Real.sqrt (D Dmax * max dflt eps))) * wnorm ds (amp P)) ∧
      (wnorm ds (amp P) ≤ 1 → wnorm ds (amp y.P) ≤ 1 ∧ ∀ ψ,
        pot ds (amp y.P) (layerSteps expm H ds dt ls ψ) ≤ pot ds (amp P) ψ + 2 * (y.err + ls.length * (2 * ds.length * Real.sqrt (D Dmax * max dflt eps))))

/-- what is required from the calls of a solver and their layers -/
structure SimpCalls (eps dflt : ℝ) (S : Solver) (ls : List (Nat × ℂ)) (ds : List Nat) (D : Nat → Nat) : Prop where
  real : ∀ l ∈ ls, l.2.im = 0
  parity : ∀ l ∈ S.layers, l.1 = 0 ∨ l.1 = 1
  steps : ∀ n Dmax, ls = (S.calls .eachLayer n Dmax).map fun c => ((S.layers.getD c.which (0, 0)).1.toNat, (S.layers.getD c.which (0, 0)).2)
  calls : ∀ n Dmax, Dmax ≠ 0 → ∀ c ∈ S.calls .eachLayer n Dmax, c.simplify = true ∧ c.counted = true ∧ (n = false → c.normalize = false) ∧
    (c.D ≤ D Dmax ∧ c.D ≠ 0 ∨ ds.prod ≤ D Dmax ∧ 2 ≤ ds.length) ∧ (c.tol < 0 ∨ 0 < c.tol) ∧ c.tol ≤ max dflt eps ∧ c.which < S.layers.length

theorem step_pot {svd : Tensor ℂ → SvdRes ℂ} (hg : GoodSvd svd) {eps : ℝ} {dflt : ℝ} (hd0 : 0 < dflt) (single : Bool)
    (tolerance : ℝ) {S : Solver} {ls : List (Nat × ℂ)} {ds : List Nat} {D : Nat → Nat} (h : SimpCalls eps dflt S ls ds D)
    {Ok : Nat → List (Tensor ℂ) → Prop} (hOk : ∀ Dmax P, Dmax ≠ 0 → (Ok Dmax P ↔ 1 ≤ D Dmax ∧ AnyEndUpTo ds (D Dmax) P))
    {expm : Tensor ℂ → Tensor ℂ} (he : GoodExpm expm) {H : Ham ℂ} (hH : HamFits H ds) (hh : HamHermitian H ds) (dt : ℝ)
    {U : List Unitary}
    (u2 : ∀ i, i < S.layers.length → mkUnitary expm H (S.layers.getD i (0, 0)).1 (dt * (S.layers.getD i (0, 0)).2) = some (U.getD i ⟨0, 0, []⟩)) :
    StepPot svd eps dflt single tolerance expm S H ds Ok D dt ls U := by
  intro P sense n Dmax hP hD
  obtain ⟨hD1, hP⟩ := (hOk Dmax P hD).1 hP
  obtain ⟨s0, hs0⟩ := hP.1
  have hpos := (ready_iff.1 hs0).2
  have hd := calls_simp hg eps hd0 single tolerance he hH hh hpos dt U hD1 le_rfl
    ((S.calls .eachLayer n Dmax).map fun c => (c, (S.layers.getD c.which (0, 0)).1.toNat, (S.layers.getD c.which (0, 0)).2)) (by
      intro c hc
      obtain ⟨c', m, rfl⟩ := List.mem_map.1 hc
      obtain ⟨h1, h2, -, h3, h4, h5, h6⟩ := h.calls n Dmax hD c' m
      have hmem : S.layers.getD c'.which (0, 0) ∈ S.layers := by
        rw [List.getD_eq_getElem _ _ h6]; exact List.getElem_mem h6
      have h8 := h.parity _ hmem
      have h7 : (S.layers.getD c'.which (0, 0)).2.im = 0 := by
        refine h.real ((S.layers.getD c'.which (0, 0)).1.toNat, (S.layers.getD c'.which (0, 0)).2) ?_
        rw [h.steps n Dmax]; exact List.mem_map.2 ⟨c', m, rfl⟩
      refine ⟨h1, h2, h3, h4, h5, by simp only; omega, by simp only [Complex.mul_im, h7, Complex.ofReal_im]; ring, ?_⟩
      rw [← u2 c'.which h6]
      simp only
      rw [Int.toNat_of_nonneg (by omega)])
    (⟨P, 0, 0⟩, sense) ((atEnd_iff hpos).2 hP)
  simp only [List.map_map, Function.comp_def, List.map_id', List.length_map] at hd
  have hlen : (S.calls .eachLayer n Dmax).length = ls.length := by
    conv_rhs => rw [h.steps n Dmax]
    simp
  rw [← h.steps n Dmax, hlen] at hd
  obtain ⟨d1, d2, d3, d4⟩ := hd
  have ec : ∀ e : ℝ, (ls.length : ℝ) * ((2 * ds.length : Nat) * Real.sqrt (max dflt eps * D Dmax)) + (e - 0)
      = e + ls.length * (2 * ds.length * Real.sqrt (D Dmax * max dflt eps)) := by
    intro e
    rw [mul_comm (max dflt eps)]; push_cast; ring
  simp only [ec] at d3 d4
  unfold oneStep
  rw [if_neg (by tauto)]
  refine ⟨_, _, rfl, (hOk Dmax _ hD).2 ⟨hD1, (atEnd_iff hpos).1 d1⟩, d2, fun hn => ?_, fun h1 => d4 h1⟩
  subst hn
  exact d3 fun c hc => by
    obtain ⟨c', m, rfl⟩ := List.mem_map.1 hc
    exact (h.calls false Dmax hD c' m).2.2.1 rfl

theorem stepReturned_of {svd : Tensor ℂ → SvdRes ℂ} {eps dflt : ℝ} {single : Bool} {tolerance : ℝ} {expm : Tensor ℂ → Tensor ℂ}
    {S : Solver} {H : Ham ℂ} {ds : List Nat} {Ok : Nat → List (Tensor ℂ) → Prop} {D : Nat → Nat} {dt : ℂ} {ls : List (Nat × ℂ)} {U : List Unitary}
    (h : StepPot svd eps dflt single tolerance expm S H ds Ok D dt ls U) : StepReturned svd eps dflt single tolerance expm S H ds Ok D dt ls U := by
  intro P sense n Dmax hP hD
  obtain ⟨y, s', e1, e2, e4, e5, e6⟩ := h P sense n Dmax hP hD
  refine ⟨y, s', e1, e2, e4, fun hn => ⟨?_, (e5 hn).2⟩, fun h1 => ?_⟩
  · have := (e5 hn).1
    rw [wnorm_sq, wnorm_sq] at this
    exact (Real.sqrt_le_sqrt_iff (Trotter.normSq_nonneg ds P)).1 this
  · have hw : wnorm ds (amp P) = 1 := by rw [wnorm_sq, h1, Real.sqrt_one]
    obtain ⟨g1, g2⟩ := e6 hw.le
    constructor
    · rw [wnorm_sq] at g1
      exact Real.sqrt_le_one.1 g1
    · have := g2 (amp P)
      unfold pot at this
      rw [wdist_self, hw, sub_self, abs_zero, add_zero, zero_add] at this
      have := abs_nonneg (1 - wnorm ds (amp y.P))
      linarith

theorem simpCalls2 {eps : ℝ} (heps : 0 < eps) (dflt : ℝ) (ds : List Nat) : SimpCalls eps dflt (trotter2 eps) steps2 ds id :=
  ⟨steps_real.1, by simp [trotter2], fun n D => by simp [trotter2, steps2], fun n D hD c hc => by
    simp only [trotter2, List.mem_cons, List.not_mem_nil, or_false] at hc
    rcases hc with rfl | rfl <;> simp [hD, heps, trotter2]⟩

theorem simpCalls3 {eps : ℝ} (heps : 0 < eps) (dflt : ℝ) (ds : List Nat) : SimpCalls eps dflt (trotter3 eps) steps3 ds id :=
  ⟨steps_real.2.1, by simp [trotter3], fun n D => by simp [trotter3, steps3], fun n D hD c hc => by
    simp only [trotter3, List.mem_cons, List.not_mem_nil, or_false] at hc
    rcases hc with rfl | rfl | rfl <;> simp [hD, heps, trotter3]⟩

theorem simpCallsFR (eps : ℝ) {dflt : ℝ} (hd0 : 0 < dflt) {ds : List Nat} (hN : 2 ≤ ds.length) :
    SimpCalls eps dflt forestRuth stepsFR ds fun _ => ds.prod := by
  have h4 : (-4 : ℝ) ≤ max dflt eps := by have := le_max_left dflt eps; linarith
  refine ⟨steps_real.2.2, by simp [forestRuth], fun n D => by simp [forestRuth, stepsFR, frParam], fun n D hD c hc => ?_⟩
  simp only [forestRuth, List.mem_cons, List.not_mem_nil, or_false] at hc
  refine ⟨?_, ?_, ?_, Or.inr ⟨le_rfl, hN⟩, Or.inl ?_, ?_, ?_⟩ <;>
    rcases hc with rfl | rfl | rfl | rfl | rfl | rfl | rfl <;> simp [defaultTol, forestRuth] <;> simpa using h4

theorem ok23 (ds : List Nat) : ∀ Dmax P, Dmax ≠ 0 → (AnyEndUpTo ds Dmax P ↔ 1 ≤ id Dmax ∧ AnyEndUpTo ds (id Dmax) P) :=
  fun Dmax P hD => ⟨fun h => ⟨by simp only [id]; omega, h⟩, fun h => h.2⟩

theorem okFR (ds : List Nat) : ∀ Dmax P, Dmax ≠ 0 → ((fun (_ : Nat) P => AnyEnd ds P) Dmax P ↔ 1 ≤ (fun _ : Nat => ds.prod) Dmax ∧ AnyEndUpTo ds ((fun _ : Nat => ds.prod) Dmax) P) := by
  intro Dmax P _
  refine ⟨fun h => ?_, fun h => h.2.1⟩
  obtain ⟨s, hs⟩ := h
  have hpos := (ready_iff.1 hs).2
  have hend : Cent ds P 0 ∨ Cent ds P (ds.length - 1) := by
    have := (ready_iff.1 hs).1
    unfold startAt at this
    split at this
    · exact Or.inl this
    · exact Or.inr this
  exact ⟨List.prod_pos (WF.dims_pos hs.wf), ⟨s, hs⟩, fun j _ h2 => atEnd_bond hend j h2⟩

/-- **C130**: the value returned by one step of `Trotter2Solver` and of `Trotter3Solver` with the default strategy bounds the error of the
step, simplifications included -/
theorem C130_step {svd : Tensor ℂ → SvdRes ℂ} (hg : GoodSvd svd) {eps : ℝ} (heps : 0 < eps) {dflt : ℝ} (hd0 : 0 < dflt) (single : Bool)
    (tolerance : ℝ) {expm : Tensor ℂ → Tensor ℂ} (he : GoodExpm expm)
    {H : Ham ℂ} {ds : List Nat} (hH : HamFits H ds) (hh : HamHermitian H ds) (dt : ℝ) :
    (∃ U, (trotter2 eps).unitaries expm H dt = some U ∧
      StepReturned svd eps dflt single tolerance expm (trotter2 eps) H ds (AnyEndUpTo ds) id dt steps2 U) ∧
    ∃ U, (trotter3 eps).unitaries expm H dt = some U ∧
      StepReturned svd eps dflt single tolerance expm (trotter3 eps) H ds (AnyEndUpTo ds) id dt steps3 U := by
  obtain ⟨U, u1, u2⟩ := unitaries_exist he hH dt (trotter2 eps) (simpCalls2 heps dflt ds).parity
  obtain ⟨V, v1, v2⟩ := unitaries_exist he hH dt (trotter3 eps) (simpCalls3 heps dflt ds).parity
  exact ⟨⟨U, u1, stepReturned_of (step_pot hg hd0 single tolerance (simpCalls2 heps dflt ds) (ok23 ds) he hH hh dt u2)⟩,
    V, v1, stepReturned_of (step_pot hg hd0 single tolerance (simpCalls3 heps dflt ds) (ok23 ds) he hH hh dt v2)⟩

/-- **C130** for `ForestRuthSolver`.  Its last two layers are simplified with `Dmax = 0`, no bound for the dimension of the bonds
(/repo/src/evolve/solver_trotter4.cc:99-102): the new state is in canonical form but its bonds may be larger than `Dmax`, and the term
with the tolerance has the dimension of the Hilbert space in the place of `Dmax`. -/
theorem C130_forest_ruth {svd : Tensor ℂ → SvdRes ℂ} (hg : GoodSvd svd) (eps : ℝ) {dflt : ℝ} (hd0 : 0 < dflt) (single : Bool)
    (tolerance : ℝ) {expm : Tensor ℂ → Tensor ℂ} (he : GoodExpm expm)
    {H : Ham ℂ} {ds : List Nat} (hH : HamFits H ds) (hh : HamHermitian H ds) (hN : 2 ≤ ds.length) (dt : ℝ) :
    ∃ U, forestRuth.unitaries expm H dt = some U ∧
      StepReturned svd eps dflt single tolerance expm forestRuth H ds (fun _ => AnyEnd ds) (fun _ => ds.prod) dt stepsFR U := by
  obtain ⟨U, u1, u2⟩ := unitaries_exist he hH dt forestRuth (simpCallsFR eps hd0 hN).parity
  exact ⟨U, u1, stepReturned_of (step_pot hg hd0 single tolerance (simpCallsFR eps hd0 hN) (okFR ds) he hH hh dt u2)⟩

/-! ### C131 -/

/-- `Q 0, …, Q n` are the states of a simulation with `n` steps of the same solver with the strategy `TRUNCATE_EACH_LAYER`, and
`E 0, …, E (n - 1)` are the values returned by `one_step` -/
def DefaultRun (svd : Tensor ℂ → SvdRes ℂ) (eps dflt : ℝ) (single : Bool) (tolerance : ℝ) (S : Solver) (U : List Unitary)
    (normalize : Bool) (Dmax n : Nat) (Q : Nat → List (Tensor ℂ)) (E : Nat → ℝ) : Prop :=
  ∀ i < n, ∃ y s s', oneStep svd eps dflt (obcCall svd eps dflt single tolerance) S U .eachLayer normalize s (Q i) Dmax = some (y, s') ∧
    Q (i + 1) = y.P ∧ E i = y.err

/-- For all real time steps smaller than `δ` and all such runs which begin with a state of the kind `Ok`, whose bonds are not larger than `D`:
all states are of this kind, and the distance to the exact evolution is at most the sum of the values
returned plus, for each of the `n` steps, `bound` and `2 K L √(D max(dflt, eps))`; all this times the norm of the first state.  With
`normalize`, from a state of norm one, the values returned and the last term count twice. -/
def DefaultRunError (svd : Tensor ℂ → SvdRes ℂ) (eps dflt : ℝ) (single : Bool) (tolerance : ℝ) (S : Solver) (H : Ham ℂ)
    (ds : List Nat) (Ok : Nat → List (Tensor ℂ) → Prop) (D : Nat → Nat) (layers : Nat) (δ : ℝ) (bound : ℝ → ℝ) : Prop :=
  ∀ dt : ℝ, |dt| < δ → ∃ U, S.unitaries matrixExp H dt = some U ∧
  ∀ (normalize : Bool) (Dmax n : Nat) (Q : Nat → List (Tensor ℂ)) (E : Nat → ℝ), Ok Dmax (Q 0) → Dmax ≠ 0 →
    DefaultRun svd eps dflt single tolerance S U normalize Dmax n Q E →
    Ok Dmax (Q n) ∧
    ∀ ψ : ℝ → List Nat → ℂ, Schroedinger H ds 1 ψ → (∀ s, IsCfg ds s → ψ 0 s = amp (Q 0) s) →
      (normalize = false → wdist ds (amp (Q n)) (ψ (n * dt)) ≤
        (∑ i ∈ Finset.range n, E i + n * (bound dt + layers * (2 * ds.length * Real.sqrt (D Dmax * max dflt eps)))) * wnorm ds (amp (Q 0))) ∧
      (normSq ds (Q 0) = 1 → wdist ds (amp (Q n)) (ψ (n * dt)) ≤
        2 * ∑ i ∈ Finset.range n, E i + n * (bound dt + 2 * (layers * (2 * ds.length * Real.sqrt (D Dmax * max dflt eps)))))

theorem defaultRunError_of {svd : Tensor ℂ → SvdRes ℂ} (hg : GoodSvd svd) {eps : ℝ} {dflt : ℝ} (hd0 : 0 < dflt) (single : Bool)
    (tolerance : ℝ) {S : Solver} {ls : List (Nat × ℂ)} {ds : List Nat} {D : Nat → Nat} (h : SimpCalls eps dflt S ls ds D)
    {Ok : Nat → List (Tensor ℂ) → Prop} (hOk : ∀ Dmax P, Dmax ≠ 0 → (Ok Dmax P ↔ 1 ≤ D Dmax ∧ AnyEndUpTo ds (D Dmax) P))
    {H : Ham ℂ} (hH : HamFits H ds) (hh : HamHermitian H ds)
    {δ : ℝ} {c : ℝ → ℝ}
    (hb : ∀ dt : ℝ, |dt| < δ → ∀ φ χ, Exact H ds dt φ χ → wdist ds (layerSteps matrixExp H ds dt ls φ) χ ≤ c dt * wnorm ds φ) :
    DefaultRunError svd eps dflt single tolerance S H ds Ok D ls.length δ c := by
  intro dt hdt
  obtain ⟨U, u1, u2⟩ := unitaries_exist exists_goodExpm hH dt S h.parity
  have hstep := step_pot hg hd0 single tolerance h hOk exists_goodExpm hH hh dt u2
  refine ⟨U, u1, fun nm Dmax n Q E h0 hD hrun => ?_⟩
  set κ := (ls.length : ℝ) * (2 * ds.length * Real.sqrt (D Dmax * max dflt eps)) with hκ
  have main : ∀ m ≤ n, Ok Dmax (Q m) ∧
      (nm = false → wnorm ds (amp (Q m)) ≤ wnorm ds (amp (Q 0))) ∧
      (wnorm ds (amp (Q 0)) ≤ 1 → wnorm ds (amp (Q m)) ≤ 1) ∧
      ∀ ψ : ℝ → List Nat → ℂ, Schroedinger H ds 1 ψ → (∀ s, IsCfg ds s → ψ 0 s = amp (Q 0) s) →
        wnorm ds (ψ (m * dt)) = wnorm ds (amp (Q 0)) ∧
        (nm = false → wdist ds (amp (Q m)) (ψ (m * dt)) ≤ (∑ i ∈ Finset.range m, E i + m * (c dt + κ)) * wnorm ds (amp (Q 0))) ∧
        (wnorm ds (amp (Q 0)) = 1 → pot ds (amp (Q m)) (ψ (m * dt)) ≤ 2 * ∑ i ∈ Finset.range m, E i + m * (c dt + 2 * κ)) := by
    intro m
    induction m with
    | zero =>
      intro _
      refine ⟨h0, fun _ => le_rfl, fun h => h, fun ψ hψ hi => ?_⟩
      have e : vec ds (ψ (((0 : Nat) : ℝ) * dt)) = vec ds (amp (Q 0)) := by
        funext s
        simp only [vec, Nat.cast_zero, zero_mul]
        exact hi s.1 s.cfg
      have e2 : wdist ds (amp (Q 0)) (ψ (((0 : Nat) : ℝ) * dt)) = 0 := by
        rw [← wdist_self ds (amp (Q 0))]
        exact wdist_congr (fun _ _ => rfl) fun s hs => by rw [Nat.cast_zero, zero_mul]; exact hi s hs
      refine ⟨wnorm_congr e, fun _ => ?_, fun h1 => ?_⟩
      · rw [e2]; simp
      · unfold pot; rw [e2, h1]; simp
    | succ m ih =>
      intro hm
      obtain ⟨r1, r3, r4, r5⟩ := ih (by omega)
      obtain ⟨y, s, s', d1, d2, d3⟩ := hrun m (by omega)
      obtain ⟨y', s'', e1, e2, e4, e5, e6⟩ := hstep (Q m) s nm Dmax r1 hD
      rw [d1] at e1
      obtain ⟨rfl, -⟩ : y = y' ∧ s' = s'' := by simpa using e1
      rw [← d2] at e2 e5 e6
      rw [← d3] at e4 e5 e6
      rw [← hκ] at e5 e6
      refine ⟨e2, fun hn => (e5 hn).1.trans (r3 hn), fun h1 => (e6 (r4 h1)).1, fun ψ hψ hi => ?_⟩
      obtain ⟨q1, q2, q3⟩ := r5 ψ hψ hi
      have hex : Exact H ds dt (ψ (m * dt)) (ψ ((m + 1 : Nat) * dt)) := exact_run hψ (by simp) m
      have t3 := hb dt hdt _ _ hex
      rw [q1] at t3
      have hκ0 : 0 ≤ κ := by rw [hκ]; positivity
      refine ⟨by rw [exact_norm hh dt hex, q1], fun hn => ?_, fun h1 => ?_⟩
      · obtain ⟨g1, g2⟩ := e5 hn
        have t1 := wdist_tri ds (amp (Q (m + 1))) (layerSteps matrixExp H ds dt ls (amp (Q m))) (ψ ((m + 1 : Nat) * dt))
        have t2 := wdist_tri ds (layerSteps matrixExp H ds dt ls (amp (Q m))) (layerSteps matrixExp H ds dt ls (ψ (m * dt))) (ψ ((m + 1 : Nat) * dt))
        rw [layerSteps_dist exists_goodExpm hH hh dt ls (fun l hl => by simp [h.real l hl])] at t2
        have g3 := g2.trans (mul_le_mul_of_nonneg_left (r3 hn) (show 0 ≤ E m + κ by linarith))
        have g4 := q2 hn
        rw [Finset.sum_range_succ]
        have e : (∑ i ∈ Finset.range m, E i + E m + ((m + 1 : Nat) : ℝ) * (c dt + κ)) * wnorm ds (amp (Q 0))
          = (∑ i ∈ Finset.range m, E i + m * (c dt + κ)) * wnorm ds (amp (Q 0)) + (E m + κ) * wnorm ds (amp (Q 0)) + c dt * wnorm ds (amp (Q 0)) := by
          push_cast; ring
        rw [e]
        linarith
      · obtain ⟨g1, g2⟩ := e6 (r4 h1.le)
        have g3 := g2 (ψ (m * dt))
        have g4 := q3 h1
        rw [h1, mul_one] at t3
        have t1 := wdist_tri ds (amp (Q (m + 1))) (layerSteps matrixExp H ds dt ls (ψ (m * dt))) (ψ ((m + 1 : Nat) * dt))
        rw [Finset.sum_range_succ]
        have e : 2 * (∑ i ∈ Finset.range m, E i + E m) + ((m + 1 : Nat) : ℝ) * (c dt + 2 * κ)
          = (2 * ∑ i ∈ Finset.range m, E i + m * (c dt + 2 * κ)) + 2 * (E m + κ) + c dt := by
          push_cast; ring
        rw [e]
        unfold pot at *
        linarith
  obtain ⟨m1, -, -, m5⟩ := main n le_rfl
  refine ⟨m1, fun ψ hψ hi => ?_⟩
  obtain ⟨-, a2, a3⟩ := m5 ψ hψ hi
  refine ⟨a2, fun h1 => ?_⟩
  have := a3 (by rw [wnorm_sq, h1, Real.sqrt_one])
  unfold pot at this
  have := abs_nonneg (1 - wnorm ds (amp (Q n)))
  linarith

/-- **C131**: simulations with the default strategy, simplifications included: `Trotter2Solver` (two layers per step, error of second order
per step) and `Trotter3Solver` (three layers, third order) -/
theorem C131_runs {svd : Tensor ℂ → SvdRes ℂ} (hg : GoodSvd svd) {eps : ℝ} (heps : 0 < eps) {dflt : ℝ} (hd0 : 0 < dflt) (single : Bool)
    (tolerance : ℝ) {H : Ham ℂ} {ds : List Nat} (hH : HamFits H ds) (hh : HamHermitian H ds) :
    (∃ C δ : ℝ, 0 < δ ∧ DefaultRunError svd eps dflt single tolerance (trotter2 eps) H ds (AnyEndUpTo ds) id 2 δ fun dt => C * |dt| ^ 2) ∧
    (∃ C δ : ℝ, 0 < δ ∧ DefaultRunError svd eps dflt single tolerance (trotter3 eps) H ds (AnyEndUpTo ds) id 3 δ fun dt => C * |dt| ^ 3) := by
  obtain ⟨C2, δ2, -, hδ2, h2⟩ := local2 hH
  obtain ⟨C3, δ3, -, hδ3, h3⟩ := local3 hH
  refine ⟨⟨C2, δ2, hδ2, ?_⟩, ⟨C3, δ3, hδ3, ?_⟩⟩
  · refine defaultRunError_of (ls := steps2) hg hd0 single tolerance (simpCalls2 heps dflt ds) (ok23 ds) hH hh fun dt hdt φ χ he => ?_
    have := h2 dt (by simp) (by simpa using hdt) φ χ he
    simpa using this
  · refine defaultRunError_of (ls := steps3) hg hd0 single tolerance (simpCalls3 heps dflt ds) (ok23 ds) hH hh fun dt hdt φ χ he => ?_
    have := h3 dt (by simp) (by simpa using hdt) φ χ he
    simpa using this

/-- **C131** for `ForestRuthSolver`: seven layers; with `C₃` the constant of the third-order formula, the error of one step is at most
`1e-13 C₃ dt³ + C dt⁵` (the parameters of the solver have 14 digits, C113) -/
theorem C131_forest_ruth {svd : Tensor ℂ → SvdRes ℂ} (hg : GoodSvd svd) (eps : ℝ) {dflt : ℝ} (hd0 : 0 < dflt) (single : Bool)
    (tolerance : ℝ) {H : Ham ℂ} {ds : List Nat} (hH : HamFits H ds) (hh : HamHermitian H ds) (hN : 2 ≤ ds.length) :
    ∃ C₃ C δ : ℝ, 0 < δ ∧
      (∀ dt : ℝ, |dt| < δ → ∀ ψ : ℝ → List Nat → ℂ, Schroedinger H ds 1 ψ →
        wdist ds (layerSteps matrixExp H ds dt steps3 (ψ 0)) (ψ dt) ≤ C₃ * |dt| ^ 3 * wnorm ds (ψ 0)) ∧
      DefaultRunError svd eps dflt single tolerance forestRuth H ds (fun _ => AnyEnd ds) (fun _ => ds.prod) 7 δ
        fun dt => 1e-13 * C₃ * |dt| ^ 3 + C * |dt| ^ 5 := by
  obtain ⟨C3, δ3, -, hδ3, h3⟩ := local3 hH
  obtain ⟨C, δ, -, hδ, h⟩ := localFR hH
  have g3 : ∀ dt : ℝ, |dt| < min δ δ3 → ∀ φ χ, Exact H ds dt φ χ →
      wdist ds (layerSteps matrixExp H ds dt steps3 φ) χ ≤ C3 * |dt| ^ 3 * wnorm ds φ := by
    intro dt hdt φ χ he
    have := h3 dt (by simp) (by simpa using lt_of_lt_of_le hdt (min_le_right _ _)) φ χ he
    simpa using this
  refine ⟨C3, C, min δ δ3, lt_min hδ hδ3, fun dt hdt ψ hψ => g3 dt hdt _ _ ?_, ?_⟩
  · have := exact_of_schroedinger (φ := ψ 0) (dt := dt) hψ 0 dt (by simp) fun _ _ => rfl
    rwa [zero_add] at this
  refine defaultRunError_of (ls := stepsFR) hg hd0 single tolerance (simpCallsFR eps hd0 hN) (okFR ds) hH hh fun dt hdt φ χ he => ?_
  have h1 := h dt (lt_of_lt_of_le hdt (min_le_left _ _)) φ χ he
  have h2 := g3 dt hdt φ χ he
  nlinarith

/-- runs of any length exist: from a state as in C130, for each solver -/
theorem C131_exist {svd : Tensor ℂ → SvdRes ℂ} {eps dflt : ℝ} {single : Bool} {tolerance : ℝ} {S : Solver} {H : Ham ℂ} {ds : List Nat}
    {Ok : Nat → List (Tensor ℂ) → Prop} {D : Nat → Nat} {dt : ℂ} {ls : List (Nat × ℂ)} {U : List Unitary}
    (u2 : StepReturned svd eps dflt single tolerance matrixExp S H ds Ok D dt ls U) {P : List (Tensor ℂ)} {Dmax : Nat} (hP : Ok Dmax P)
    (hD : Dmax ≠ 0) (normalize : Bool) (n : Nat) :
    ∃ Q E, Q 0 = P ∧ DefaultRun svd eps dflt single tolerance S U normalize Dmax n Q E := by
  classical
  have key : ∀ P, Ok Dmax P → ∃ y s', oneStep svd eps dflt (obcCall svd eps dflt single tolerance) S U .eachLayer normalize 0 P Dmax
      = some (y, s') ∧ Ok Dmax y.P := by
    intro P hP
    obtain ⟨y, s', e1, e2, -⟩ := u2 P 0 normalize Dmax hP hD
    exact ⟨y, s', e1, e2⟩
  let next : List (Tensor ℂ) → List (Tensor ℂ) := fun P => if h : Ok Dmax P then (key P h).choose.P else P
  have hn : ∀ P (h : Ok Dmax P), next P = (key P h).choose.P := fun P h => dif_pos h
  have hr : ∀ i, Ok Dmax (next^[i] P) := by
    intro i
    induction i with
    | zero => exact hP
    | succ i ih =>
      rw [Function.iterate_succ_apply', hn _ ih]
      obtain ⟨s', -, e⟩ := (key _ ih).choose_spec
      exact e
  refine ⟨fun i => next^[i] P, fun i => (key _ (hr i)).choose.err, rfl, fun i _ => ?_⟩
  obtain ⟨s', e1, -⟩ := (key _ (hr i)).choose_spec
  exact ⟨_, 0, s', e1, by beta_reduce; rw [Function.iterate_succ_apply', hn _ (hr i)], rfl⟩

/-- the hypotheses of C130 and C131 are met by the interaction of two qubits `pairHam`, a product state of norm one and bond dimension
one: runs of any length, from either end -/
example {svd : Tensor ℂ → SvdRes ℂ} (hg : GoodSvd svd) (single : Bool) (tolerance dt : ℝ) (normalize : Bool) (n : Nat) :
    ∃ P : List (Tensor ℂ), HamFits pairHam [2, 2] ∧ HamHermitian pairHam [2, 2] ∧ AnyEndUpTo [2, 2] 1 P ∧ normSq [2, 2] P = 1 ∧
      ∃ U Q E, (trotter2 (1 / 8)).unitaries matrixExp pairHam dt = some U ∧ Q 0 = P ∧
        DefaultRun svd (1 / 8) (1 / 8) single tolerance (trotter2 (1 / 8)) U normalize 1 n Q E := by
  let A : Tensor ℂ := ⟨[1, 2, 1], fun I => if I.getD 1 0 = 0 then 1 else 0⟩
  have hw : WF 1 [A, A] [2, 2] 1 :=
    WF.cons rfl Nat.one_pos (by decide) Nat.one_pos (WF.cons rfl Nat.one_pos (by decide) Nat.one_pos (WF.nil 1))
  have hR : RightIso A := by
    intro x x' hx hx'
    have : x = 0 := by simpa [A, Tensor.dim] using hx
    have : x' = 0 := by simpa [A, Tensor.dim] using hx'
    subst x; subst x'
    simp [A, Tensor.dim, Finset.sum_range_succ]
  have hr : ReadyFor [2, 2] [A, A] 0 := ⟨hw, by simp, fun _ j h0 hj => by
    obtain rfl : j = 1 := by simp at hj; omega
    exact hR, fun h => absurd h (by decide)⟩
  have hok : AnyEndUpTo [2, 2] 1 [A, A] := ⟨⟨0, hr⟩, fun j h0 hj => by
    obtain rfl : j = 1 := by simp at hj; omega
    simp [site, A, Tensor.dim]⟩
  refine ⟨[A, A], pairHam_fits, pairHam_hermitian, hok, ?_, ?_⟩
  · rw [normSq_at hw (k := 0) (by simp) (fun j hj => by omega) (fun j h0 hj => ?_)]
    · simp [site, A, sumCfg_cons, Finset.sum_range_succ]
    · obtain rfl : j = 1 := by simp at hj; omega
      exact hR
  · obtain ⟨U, u1, u2⟩ := (C130_step hg (eps := 1 / 8) (by norm_num) (dflt := 1 / 8) (by norm_num) single tolerance exists_goodExpm
      pairHam_fits pairHam_hermitian dt).1
    obtain ⟨Q, E, h1, h2⟩ := C131_exist u2 hok one_ne_zero normalize n
    exact ⟨U, Q, E, u1, h1, h2⟩

end MPS.Props
