import Verif.LayerErr10
import Verif.Props.TrotterTruncProps

/-!
# C121, C122: the default strategy of the Trotter solvers (`TRUNCATE_EACH_LAYER`)

`layerState` and `NeverSimplified` (`LayerErrSpec`): the state on which `apply_and_simplify` decides whether it calls `simplify_obc`, and
steps in which it never has to.  `ReadyFor ds P 0`: the state is in canonical form with respect to the first site, as left by
`canonical_form(P, -1)`.  The Hamiltonian is Hermitian and the time step is real.  All singular values are truncated with the default
tolerance `dflt` or with `eps` (both are the machine precision in the code).
-/

set_option linter.unusedSectionVars false
set_option linter.unusedSimpArgs false

namespace MPS.Props
open MPS Tensor Trotter Order Minim

/-- **C121.**  `apply_and_simplify` on a state in canonical form with respect to the first site, with bonds of dimension `D` at most:
before `simplify_obc`, the state `φ` is again in canonical form with respect to the first site, its squared norm is smaller than that of
`P` by a fraction `2 L D max(dflt, eps, tol)` at most, and its distance to the exact layer is at most
`√((L + 1) (loss of squared norm))`.  The result is `φ` if its bonds are not larger than `Dmax`, otherwise what `simplify_obc` makes of
it. -/
theorem C121_layer {svd : Tensor ℂ → SvdRes ℂ} (hg : GoodSvd svd) (eps : ℝ) {dflt : ℝ} (hd0 : 0 < dflt)
    (simplifyObc : List (Tensor ℂ) → Int → Nat → Bool → Nat → List (Tensor ℂ) × ℝ) {expm : Tensor ℂ → Tensor ℂ} (he : GoodExpm expm)
    {H : Ham ℂ} {ds : List Nat} (hH : HamFits H ds) (hh : HamHermitian H ds) (k : Nat) (hk : k ≤ 1) (dt : ℝ) {W : Unitary}
    (hW : mkUnitary expm H k dt = some W) (x : Evo) (hx : ReadyFor ds x.P 0) {D : Nat} (hD : 1 ≤ D)
    (hb : ∀ j, 0 < j → j < ds.length → (site x.P j).dim 0 ≤ D) (tol : ℝ) (htol : tol < 0 ∨ 0 < tol) (Dmax : Nat) (normalize : Bool) :
    ∃ φ, ReadyFor ds φ 0 ∧ normSq ds φ ≤ normSq ds x.P ∧
      normSq ds x.P - normSq ds φ ≤ 2 * ds.length * D * max (max dflt eps) tol * normSq ds x.P ∧
      wdist ds (amp φ) (actOp ds (layerElt ds k (site W.U)) (amp x.P)) ≤ Real.sqrt ((ds.length + 1) * (normSq ds x.P - normSq ds φ)) ∧
      ((largestBond φ ≤ Dmax ∧ (applyAndSimplify svd eps dflt simplifyObc W x tol Dmax normalize).1.P = φ) ∨
        (Dmax < largestBond φ ∧
          (applyAndSimplify svd eps dflt simplifyObc W x tol Dmax normalize).1.P = (simplifyObc φ (-1) 12 normalize Dmax).1)) := by
  obtain ⟨hP, hpos⟩ := ready_iff.1 hx
  have hW' : mkUnitary expm H ((k : Nat) : Int) (dt * (1 : ℂ)) = some W := by rw [mul_one]; exact hW
  have htau : max (effTol dflt tol) (max dflt eps) ≤ max (max dflt eps) tol := by
    refine max_le ?_ (le_max_left _ _)
    unfold effTol
    split
    · exact (le_max_left dflt eps).trans (le_max_left _ _)
    · exact le_max_right _ _
  obtain ⟨a1, a2, a3, a4⟩ := layer_done hg eps hd0 he hH hh hpos dt (k, 1) hk (by simp) hW' x.P hP hD hb tol htol htau
  obtain ⟨W', w1, w2⟩ := C58_gates hH expm (dt * 1) k hk
  rw [hW'] at w1
  cases w1
  refine ⟨layerState svd eps dflt W x.P tol, ready_iff.2 ⟨a1, hpos⟩, a2, a3.trans (le_of_eq (by push_cast; ring)), ?_, ?_⟩
  · rw [show actOp ds (layerElt ds k (site W.U)) (amp x.P) = layerStep expm H ds dt (amp x.P) (k, 1) from ?_]
    · refine a4.trans (le_of_eq ?_)
      congr 1
      push_cast; ring
    · funext t
      unfold layerStep
      exact actOp_congr (fun s t => layerElt_congr (fun p hp => w2 p hp) s t) (fun _ _ => rfl) t
  · rw [simplify_not]
    by_cases hb : largestBond (layerState svd eps dflt W x.P tol) > Dmax
    · exact Or.inr ⟨hb, by rw [if_pos hb]⟩
    · exact Or.inl ⟨by omega, by rw [if_neg hb]⟩

/-- One step with `TRUNCATE_EACH_LAYER`, from a state in canonical form with respect to the first site with bonds of dimension `Dmax` at
most, in which no layer has to be simplified: the new state has the same properties, its squared norm is smaller by a fraction
`2 K L Dmax max(dflt, eps)` at most, and its distance to the exact product of the `K` layers `ls` is at most
`√(K (L + 1) (loss of squared norm))`.  The option `normalize` and the member `sense` do not matter. -/
def StepLayered (svd : Tensor ℂ → SvdRes ℂ) (eps dflt : ℝ)
    (simplifyObc : List (Tensor ℂ) → Int → Nat → Bool → Nat → List (Tensor ℂ) × ℝ) (expm : Tensor ℂ → Tensor ℂ) (S : Solver) (H : Ham ℂ)
    (ds : List Nat) (dt : ℂ) (ls : List (Nat × ℂ)) (U : List Unitary) : Prop :=
  ∀ (P : List (Tensor ℂ)) (sense : Int) (normalize : Bool) (Dmax : Nat), ReadyFor ds P 0 → Dmax ≠ 0 →
    (∀ j, 0 < j → j < ds.length → (site P j).dim 0 ≤ Dmax) → NeverSimplified svd eps dflt U (S.calls .eachLayer normalize Dmax) P →
    ∃ y sense', oneStep svd eps dflt simplifyObc S U .eachLayer normalize sense P Dmax = some (y, sense') ∧ ReadyFor ds y.P 0 ∧
      (∀ j, 0 < j → j < ds.length → (site y.P j).dim 0 ≤ Dmax) ∧ normSq ds y.P ≤ normSq ds P ∧
      normSq ds P - normSq ds y.P ≤ (ls.length * (2 * ds.length) : Nat) * (max dflt eps * (Dmax * normSq ds P)) ∧
      wdist ds (amp y.P) (layerSteps expm H ds dt ls (amp P)) ≤ Real.sqrt ((ls.length * (ds.length + 1) : Nat) * (normSq ds P - normSq ds y.P))

/-- the unitaries of a solver -/
theorem unitaries_exist {expm : Tensor ℂ → Tensor ℂ} (he : GoodExpm expm) {H : Ham ℂ} {ds : List Nat} (hH : HamFits H ds) (dt : ℂ) (S : Solver)
    (hl : ∀ l ∈ S.layers, l.1 = 0 ∨ l.1 = 1) :
    ∃ U, S.unitaries expm H dt = some U ∧ ∀ i, i < S.layers.length →
        mkUnitary expm H (S.layers.getD i (0, 0)).1 (dt * (S.layers.getD i (0, 0)).2) = some (U.getD i ⟨0, 0, []⟩) := by
  have hm : ∀ l ∈ S.layers, ∃ W, mkUnitary expm H l.1 (dt * l.2) = some W := by
    intro l hl'
    have : ∃ k : Nat, k ≤ 1 ∧ l.1 = k := by
      rcases hl l hl' with h | h
      · exact ⟨0, by omega, by simpa using h⟩
      · exact ⟨1, by omega, by simpa using h⟩
    obtain ⟨k, hk, e⟩ := this
    obtain ⟨W, hW, -⟩ := mkUnitary_fits he.dims hH k hk (dt * l.2)
    exact ⟨W, by rw [e]; exact hW⟩
  have hU : ∀ ll : List (Int × ℂ), (∀ l ∈ ll, ∃ W, mkUnitary expm H l.1 (dt * l.2) = some W) →
      ∃ U, ll.mapM (fun l => mkUnitary expm H l.1 (dt * l.2)) = some U ∧ ∀ i, i < ll.length →
        mkUnitary expm H (ll.getD i (0, 0)).1 (dt * (ll.getD i (0, 0)).2) = some (U.getD i ⟨0, 0, []⟩) := by
    intro ll
    induction ll with
    | nil => intro _; exact ⟨[], rfl, fun i hi => by simp at hi⟩
    | cons l ll ih =>
      intro h
      obtain ⟨W, hW⟩ := h l (by simp)
      obtain ⟨U, u1, u2⟩ := ih fun l hl => h l (by simp [hl])
      refine ⟨W :: U, by simp [List.mapM_cons, hW, u1], fun i hi => ?_⟩
      cases i with
      | zero => simpa using hW
      | succ i => simpa using u2 i (by simpa using hi)
  exact hU S.layers hm

/-- what is required from the calls of a solver -/
structure LayerCalls (eps : ℝ) (S : Solver) (ls : List (Nat × ℂ)) : Prop where
  real : ∀ l ∈ ls, l.2.im = 0
  parity : ∀ l ∈ S.layers, l.1 = 0 ∨ l.1 = 1
  steps : ∀ n Dmax, ls = (S.calls .eachLayer n Dmax).map fun c => ((S.layers.getD c.which (0, 0)).1.toNat, (S.layers.getD c.which (0, 0)).2)
  calls : ∀ n Dmax, ∀ c ∈ S.calls .eachLayer n Dmax, c.simplify = true ∧ c.D = Dmax ∧ c.tol = eps ∧ c.which < S.layers.length

theorem layerCalls2 (eps : ℝ) : LayerCalls eps (trotter2 eps) steps2 :=
  ⟨steps_real.1, by simp [trotter2], fun n D => by simp [trotter2, steps2], fun n D => by simp [trotter2]⟩

theorem layerCalls3 (eps : ℝ) : LayerCalls eps (trotter3 eps) steps3 :=
  ⟨steps_real.2.1, by simp [trotter3], fun n D => by simp [trotter3, steps3], fun n D => by simp [trotter3]⟩

/-- the calls with their layers -/
theorem LayerCalls.ok {eps : ℝ} (heps : 0 < eps) {dflt : ℝ} {S : Solver} {ls : List (Nat × ℂ)} (h : LayerCalls eps S ls) {expm : Tensor ℂ → Tensor ℂ}
    {H : Ham ℂ} (dt : ℝ) {U : List Unitary}
    (hU : ∀ i, i < S.layers.length → mkUnitary expm H (S.layers.getD i (0, 0)).1 (dt * (S.layers.getD i (0, 0)).2) = some (U.getD i ⟨0, 0, []⟩))
    (n : Bool) (Dmax : Nat) :
    ∀ c ∈ (S.calls .eachLayer n Dmax).map fun c => (c, (S.layers.getD c.which (0, 0)).1.toNat, (S.layers.getD c.which (0, 0)).2),
      c.1.simplify = true ∧ c.1.D = Dmax ∧ (c.1.tol < 0 ∨ 0 < c.1.tol) ∧ c.1.tol ≤ max dflt eps ∧ c.2.1 ≤ 1 ∧
      ((dt : ℂ) * c.2.2).im = 0 ∧ mkUnitary expm H c.2.1 (dt * c.2.2) = some (U.getD c.1.which ⟨0, 0, []⟩) := by
  intro c hcm
  obtain ⟨c', m, rfl⟩ := List.mem_map.1 hcm
  obtain ⟨h1, h2, h3, h4⟩ := h.calls n Dmax c' m
  have h5 := hU c'.which h4
  have hmem : S.layers.getD c'.which (0, 0) ∈ S.layers := by
    rw [List.getD_eq_getElem _ _ h4]; exact List.getElem_mem h4
  have h6 := h.parity _ hmem
  have h7 : (S.layers.getD c'.which (0, 0)).2.im = 0 := by
    refine h.real ((S.layers.getD c'.which (0, 0)).1.toNat, (S.layers.getD c'.which (0, 0)).2) ?_
    rw [h.steps n Dmax]; exact List.mem_map.2 ⟨c', m, rfl⟩
  refine ⟨h1, h2, Or.inr (by simp only [h3]; exact heps), by simp only [h3]; exact le_max_right _ _, by simp only; omega,
    by simp only [Complex.mul_im, h7, Complex.ofReal_im]; ring, ?_⟩
  rw [← h5]
  simp only
  rw [Int.toNat_of_nonneg (by omega)]

theorem stepLayered_of {svd : Tensor ℂ → SvdRes ℂ} (hg : GoodSvd svd) {eps : ℝ} (heps : 0 < eps) {dflt : ℝ} (hd0 : 0 < dflt) {S : Solver}
    {ls : List (Nat × ℂ)} (h : LayerCalls eps S ls)
    (simplifyObc : List (Tensor ℂ) → Int → Nat → Bool → Nat → List (Tensor ℂ) × ℝ) {expm : Tensor ℂ → Tensor ℂ} (he : GoodExpm expm)
    {H : Ham ℂ} {ds : List Nat} (hH : HamFits H ds) (hh : HamHermitian H ds) (dt : ℝ) :
    ∃ U, S.unitaries expm H dt = some U ∧ StepLayered svd eps dflt simplifyObc expm S H ds dt ls U := by
  obtain ⟨U, u1, u2⟩ := unitaries_exist he hH dt S h.parity
  refine ⟨U, u1, fun P sense n Dmax hP hD hb hns => ?_⟩
  obtain ⟨hP, hpos⟩ := ready_iff.1 hP
  have hd := calls_layered hg eps hd0 simplifyObc he hH hh hpos dt U (show 1 ≤ Dmax by omega) le_rfl _ (h.ok heps (dflt := dflt) dt u2 n Dmax)
    (⟨P, 0, 0⟩, sense) hP hb (by simpa only [List.map_map, Function.comp_def, List.map_id'] using hns)
  simp only [List.map_map, Function.comp_def, List.map_id', List.length_map] at hd
  have hlen : (S.calls .eachLayer n Dmax).length = ls.length := by
    conv_rhs => rw [h.steps n Dmax]
    simp
  rw [← h.steps n Dmax, hlen] at hd
  unfold oneStep
  rw [if_neg (by tauto)]
  exact ⟨_, _, rfl, ready_iff.2 ⟨hd.cent, hpos⟩, hd.bonds, hd.norm, hd.small, hd.dist⟩

/-- **C121**: one step of `Trotter2Solver` and of `Trotter3Solver` with the default strategy, when no layer has to be simplified -/
theorem C121_step {svd : Tensor ℂ → SvdRes ℂ} (hg : GoodSvd svd) {eps : ℝ} (heps : 0 < eps) {dflt : ℝ} (hd0 : 0 < dflt)
    (simplifyObc : List (Tensor ℂ) → Int → Nat → Bool → Nat → List (Tensor ℂ) × ℝ) {expm : Tensor ℂ → Tensor ℂ} (he : GoodExpm expm)
    {H : Ham ℂ} {ds : List Nat} (hH : HamFits H ds) (hh : HamHermitian H ds) (dt : ℝ) :
    (∃ U, (trotter2 eps).unitaries expm H dt = some U ∧ StepLayered svd eps dflt simplifyObc expm (trotter2 eps) H ds dt steps2 U) ∧
    ∃ U, (trotter3 eps).unitaries expm H dt = some U ∧ StepLayered svd eps dflt simplifyObc expm (trotter3 eps) H ds dt steps3 U :=
  ⟨stepLayered_of hg heps hd0 (layerCalls2 eps) simplifyObc he hH hh dt, stepLayered_of hg heps hd0 (layerCalls3 eps) simplifyObc he hH hh dt⟩

theorem never_of {svd : Tensor ℂ → SvdRes ℂ} (hg : GoodSvd svd) (eps : ℝ) {dflt : ℝ} (hd0 : 0 < dflt)
    {expm : Tensor ℂ → Tensor ℂ} (he : GoodExpm expm)
    {H : Ham ℂ} {ds : List Nat} (hH : HamFits H ds) (hh : HamHermitian H ds) (hpos : 0 < ds.length) (hds : ∀ d ∈ ds, 0 < d) (dt : ℂ) (U : List Unitary)
    {D : Nat} (hD : ds.prod ≤ D) {tau : ℝ} :
    ∀ (cs : List (Call × Nat × ℂ)),
    (∀ c ∈ cs, c.1.simplify = true ∧ c.1.D = D ∧ (c.1.tol < 0 ∨ 0 < c.1.tol) ∧ c.1.tol ≤ tau ∧ c.2.1 ≤ 1 ∧
      (dt * c.2.2).im = 0 ∧ mkUnitary expm H c.2.1 (dt * c.2.2) = some (U.getD c.1.which ⟨0, 0, []⟩)) →
    ∀ P, Cent ds P 0 → NeverSimplified svd eps dflt U (cs.map Prod.fst) P := by
  intro cs
  induction cs with
  | nil => intro _ _ _; trivial
  | cons c cs ih =>
    intro hcs P hP
    obtain ⟨c1, c2, c3, c4, c5, c6, c7⟩ := hcs c (by simp)
    obtain ⟨a1, -⟩ := layer_done hg eps hd0 he hH hh hpos dt c.2 c5 c6 c7 P hP (List.prod_pos hds) (fun j _ h2 => cent_bond hP hds j h2) c.1.tol c3 le_rfl
    refine ⟨?_, ih (fun c hc => hcs c (by simp [hc])) _ a1⟩
    show _ ≤ c.1.D
    rw [c2]
    exact (cent_largest a1 hds hpos).trans hD

/-- **C121**: when `Dmax` is at least the dimension of the Hilbert space, no layer is ever simplified and the bonds of every state in
canonical form are small enough: the bounds of `C121_step` hold for all states in canonical form with respect to the first site -/
theorem C121_no_simplification {svd : Tensor ℂ → SvdRes ℂ} (hg : GoodSvd svd) {eps : ℝ} (heps : 0 < eps) {dflt : ℝ} (hd0 : 0 < dflt)
    {expm : Tensor ℂ → Tensor ℂ} (he : GoodExpm expm) {H : Ham ℂ} {ds : List Nat} (hH : HamFits H ds) (hh : HamHermitian H ds) (dt : ℝ)
    {P : List (Tensor ℂ)} (hP : ReadyFor ds P 0) {Dmax : Nat} (hD : ds.prod ≤ Dmax) :
    (∀ j, 0 < j → j < ds.length → (site P j).dim 0 ≤ Dmax) ∧
    (∃ U, (trotter2 eps).unitaries expm H dt = some U ∧ ∀ n, NeverSimplified svd eps dflt U ((trotter2 eps).calls .eachLayer n Dmax) P) ∧
    ∃ U, (trotter3 eps).unitaries expm H dt = some U ∧ ∀ n, NeverSimplified svd eps dflt U ((trotter3 eps).calls .eachLayer n Dmax) P := by
  obtain ⟨hc, hpos⟩ := ready_iff.1 hP
  have hds := WF.dims_pos hc.wf
  have key : ∀ {S : Solver} {ls : List (Nat × ℂ)}, LayerCalls eps S ls →
      ∃ U, S.unitaries expm H dt = some U ∧ ∀ n, NeverSimplified svd eps dflt U (S.calls .eachLayer n Dmax) P := by
    intro S ls h
    obtain ⟨U, u1, u2⟩ := unitaries_exist he hH dt S h.parity
    refine ⟨U, u1, fun n => ?_⟩
    have := never_of hg eps hd0 he hH hh hpos hds dt U hD _ (h.ok heps (dflt := dflt) dt u2 n Dmax) P hc
    simpa only [List.map_map, Function.comp_def, List.map_id'] using this
  exact ⟨fun j _ h2 => (cent_bond hc hds j h2).trans hD, key (layerCalls2 eps), key (layerCalls3 eps)⟩

/-! ### C122 -/

/-- `Q 0, …, Q n` are the states of a simulation with `n` steps of the same solver with the strategy `TRUNCATE_EACH_LAYER`, in which no
layer has to be simplified -/
def LayeredRun (svd : Tensor ℂ → SvdRes ℂ) (eps dflt : ℝ)
    (simplifyObc : List (Tensor ℂ) → Int → Nat → Bool → Nat → List (Tensor ℂ) × ℝ) (S : Solver) (U : List Unitary)
    (normalize : Bool) (Dmax n : Nat) (Q : Nat → List (Tensor ℂ)) : Prop :=
  ∀ i < n, NeverSimplified svd eps dflt U (S.calls .eachLayer normalize Dmax) (Q i) ∧
    ∃ y s s', oneStep svd eps dflt simplifyObc S U .eachLayer normalize s (Q i) Dmax = some (y, s') ∧ Q (i + 1) = y.P

/-- For all real time steps smaller than `δ` and all such runs which begin with a state in canonical form with respect to the first site
and with bonds of dimension `Dmax` at most: the squared norm of the last state is smaller than that of the first one by at most
`2 n K L Dmax max(dflt, eps)` times the latter (`K` layers per step, `L` sites), and the distance to the exact evolution is at most the
number of steps times `bound`, plus the square root of `n K (L + 1)` times the loss of squared norm. -/
def LayeredRunError (svd : Tensor ℂ → SvdRes ℂ) (eps dflt : ℝ)
    (simplifyObc : List (Tensor ℂ) → Int → Nat → Bool → Nat → List (Tensor ℂ) × ℝ) (S : Solver) (H : Ham ℂ)
    (ds : List Nat) (layers : Nat) (δ : ℝ) (bound : ℝ → ℝ) : Prop :=
  ∀ dt : ℝ, |dt| < δ → ∃ U, S.unitaries matrixExp H dt = some U ∧
  ∀ (normalize : Bool) (Dmax n : Nat) (Q : Nat → List (Tensor ℂ)), ReadyFor ds (Q 0) 0 → Dmax ≠ 0 →
    (∀ j, 0 < j → j < ds.length → (site (Q 0) j).dim 0 ≤ Dmax) →
    LayeredRun svd eps dflt simplifyObc S U normalize Dmax n Q →
    ReadyFor ds (Q n) 0 ∧ normSq ds (Q n) ≤ normSq ds (Q 0) ∧
    normSq ds (Q 0) - normSq ds (Q n) ≤ (n * (layers * (2 * ds.length)) : Nat) * (max dflt eps * (Dmax * normSq ds (Q 0))) ∧
    ∀ ψ : ℝ → List Nat → ℂ, Schroedinger H ds 1 ψ → (∀ s, IsCfg ds s → ψ 0 s = amp (Q 0) s) →
      wdist ds (amp (Q n)) (ψ (n * dt)) ≤ n * (bound dt * wnorm ds (amp (Q 0))) +
        Real.sqrt ((n * (layers * (ds.length + 1)) : Nat) * (normSq ds (Q 0) - normSq ds (Q n)))

theorem layeredRunError_of {svd : Tensor ℂ → SvdRes ℂ} {eps dflt : ℝ} (hd0 : 0 < dflt)
    (simplifyObc : List (Tensor ℂ) → Int → Nat → Bool → Nat → List (Tensor ℂ) × ℝ) {S : Solver} {ls : List (Nat × ℂ)}
    (hls : ∀ l ∈ ls, l.2.im = 0) {H : Ham ℂ} {ds : List Nat} (hH : HamFits H ds) (hh : HamHermitian H ds)
    (h : ∀ dt : ℝ, ∃ U, S.unitaries matrixExp H dt = some U ∧ StepLayered svd eps dflt simplifyObc matrixExp S H ds dt ls U)
    {δ : ℝ} {c : ℝ → ℝ}
    (hb : ∀ dt : ℝ, |dt| < δ → ∀ φ χ, Exact H ds dt φ χ → wdist ds (layerSteps matrixExp H ds dt ls φ) χ ≤ c dt * wnorm ds φ) :
    LayeredRunError svd eps dflt simplifyObc S H ds ls.length δ c := by
  intro dt hdt
  obtain ⟨U, u1, u2⟩ := h dt
  refine ⟨U, u1, fun nm Dmax n Q h0 hD hb0 hrun => ?_⟩
  have hstep : ∀ i < n, ReadyFor ds (Q i) 0 → (∀ j, 0 < j → j < ds.length → (site (Q i) j).dim 0 ≤ Dmax) →
      ReadyFor ds (Q (i + 1)) 0 ∧ (∀ j, 0 < j → j < ds.length → (site (Q (i + 1)) j).dim 0 ≤ Dmax) ∧ normSq ds (Q (i + 1)) ≤ normSq ds (Q i) ∧
      normSq ds (Q i) - normSq ds (Q (i + 1)) ≤ (ls.length * (2 * ds.length) : Nat) * (max dflt eps * (Dmax * normSq ds (Q i))) ∧
      wdist ds (amp (Q (i + 1))) (layerSteps matrixExp H ds dt ls (amp (Q i))) ≤
        Real.sqrt ((ls.length * (ds.length + 1) : Nat) * (normSq ds (Q i) - normSq ds (Q (i + 1)))) := by
    intro i hi hr hbi
    obtain ⟨hns, y, s, s', d2, d3⟩ := hrun i hi
    obtain ⟨y', s'', e1, e2, e3, e4, e5, e6⟩ := u2 (Q i) s nm Dmax hr hD hbi hns
    rw [d2] at e1
    obtain ⟨rfl, -⟩ : y = y' ∧ s' = s'' := by simpa using e1
    rw [d3]
    exact ⟨e2, e3, e4, e5, e6⟩
  have tau0 : 0 ≤ max dflt eps := hd0.le.trans (le_max_left _ _)
  have main : ∀ m ≤ n, ReadyFor ds (Q m) 0 ∧ (∀ j, 0 < j → j < ds.length → (site (Q m) j).dim 0 ≤ Dmax) ∧ normSq ds (Q m) ≤ normSq ds (Q 0) ∧
      normSq ds (Q 0) - normSq ds (Q m) ≤ (m * (ls.length * (2 * ds.length)) : Nat) * (max dflt eps * (Dmax * normSq ds (Q 0))) ∧
      ∀ ψ : ℝ → List Nat → ℂ, Schroedinger H ds 1 ψ → (∀ s, IsCfg ds s → ψ 0 s = amp (Q 0) s) →
        wnorm ds (ψ (m * dt)) = wnorm ds (amp (Q 0)) ∧
        wdist ds (amp (Q m)) (ψ (m * dt)) ≤ m * (c dt * wnorm ds (amp (Q 0))) +
          Real.sqrt ((m * (ls.length * (ds.length + 1)) : Nat) * (normSq ds (Q 0) - normSq ds (Q m))) := by
    intro m
    induction m with
    | zero =>
      intro _
      refine ⟨h0, hb0, le_rfl, by simp, fun ψ hψ hi => ?_⟩
      have e : vec ds (ψ (((0 : Nat) : ℝ) * dt)) = vec ds (amp (Q 0)) := by
        funext s
        simp only [vec, Nat.cast_zero, zero_mul]
        exact hi s.1 s.cfg
      refine ⟨wnorm_congr e, ?_⟩
      have e2 : wdist ds (amp (Q 0)) (ψ (((0 : Nat) : ℝ) * dt)) = 0 := by
        rw [← wdist_self ds (amp (Q 0))]
        exact wdist_congr (fun _ _ => rfl) fun s hs => by rw [Nat.cast_zero, zero_mul]; exact hi s hs
      rw [e2]; simp
    | succ m ih =>
      intro hm
      obtain ⟨r1, r2, r3, r4, r5⟩ := ih (by omega)
      obtain ⟨s1, s2, s3, s4, s5⟩ := hstep m (by omega) r1 r2
      refine ⟨s1, s2, s3.trans r3, ?_, fun ψ hψ hi => ?_⟩
      · have q1 : max dflt eps * ((Dmax : ℝ) * normSq ds (Q m)) ≤ max dflt eps * (Dmax * normSq ds (Q 0)) :=
          mul_le_mul_of_nonneg_left (mul_le_mul_of_nonneg_left r3 (Nat.cast_nonneg _)) tau0
        have q2 := mul_le_mul_of_nonneg_left q1 (Nat.cast_nonneg (α := ℝ) (ls.length * (2 * ds.length)))
        have e : (((m + 1) * (ls.length * (2 * ds.length)) : Nat) : ℝ) = (m * (ls.length * (2 * ds.length)) : Nat) + (ls.length * (2 * ds.length) : Nat) := by
          push_cast; ring
        rw [e, add_mul]
        linarith
      obtain ⟨q1, q2⟩ := r5 ψ hψ hi
      have hex : Exact H ds dt (ψ (m * dt)) (ψ ((m + 1 : Nat) * dt)) := exact_run hψ (by simp) m
      refine ⟨by rw [exact_norm hh dt hex, q1], ?_⟩
      have t1 := wdist_tri ds (amp (Q (m + 1))) (layerSteps matrixExp H ds dt ls (amp (Q m))) (ψ ((m + 1 : Nat) * dt))
      have t2 := wdist_tri ds (layerSteps matrixExp H ds dt ls (amp (Q m))) (layerSteps matrixExp H ds dt ls (ψ (m * dt))) (ψ ((m + 1 : Nat) * dt))
      rw [layerSteps_dist exists_goodExpm hH hh dt ls (fun l hl => by simp [hls l hl])] at t2
      have t3 := hb dt hdt _ _ hex
      rw [q1] at t3
      have t4 := sqrt_step (Nat.cast_nonneg (m * (ls.length * (ds.length + 1)))) (sub_nonneg.2 r3) (Nat.cast_nonneg (ls.length * (ds.length + 1)))
        (sub_nonneg.2 s3) le_rfl s5
      have e : (((m + 1) * (ls.length * (ds.length + 1)) : Nat) : ℝ) = (m * (ls.length * (ds.length + 1)) : Nat) + (ls.length * (ds.length + 1) : Nat) := by
        push_cast; ring
      have e2 : normSq ds (Q 0) - normSq ds (Q (m + 1)) = normSq ds (Q 0) - normSq ds (Q m) + (normSq ds (Q m) - normSq ds (Q (m + 1))) := by ring
      have e3 : ((m + 1 : Nat) : ℝ) * (c dt * wnorm ds (amp (Q 0))) = m * (c dt * wnorm ds (amp (Q 0))) + c dt * wnorm ds (amp (Q 0)) := by
        push_cast; ring
      rw [e, e2, e3]
      linarith
  obtain ⟨m1, -, m3, m4, m5⟩ := main n le_rfl
  exact ⟨m1, m3, m4, fun ψ hψ hi => (m5 ψ hψ hi).2⟩

/-- **C122**: simulations with the default strategy in which no layer has to be simplified: `Trotter2Solver` (two layers per step, error
of second order per step) and `Trotter3Solver` (three layers, third order) -/
theorem C122_runs {svd : Tensor ℂ → SvdRes ℂ} (hg : GoodSvd svd) {eps : ℝ} (heps : 0 < eps) {dflt : ℝ} (hd0 : 0 < dflt)
    (simplifyObc : List (Tensor ℂ) → Int → Nat → Bool → Nat → List (Tensor ℂ) × ℝ) {H : Ham ℂ} {ds : List Nat} (hH : HamFits H ds)
    (hh : HamHermitian H ds) :
    (∃ C δ : ℝ, 0 < δ ∧ LayeredRunError svd eps dflt simplifyObc (trotter2 eps) H ds 2 δ fun dt => C * |dt| ^ 2) ∧
    (∃ C δ : ℝ, 0 < δ ∧ LayeredRunError svd eps dflt simplifyObc (trotter3 eps) H ds 3 δ fun dt => C * |dt| ^ 3) := by
  obtain ⟨C2, δ2, -, hδ2, h2⟩ := local2 hH
  obtain ⟨C3, δ3, -, hδ3, h3⟩ := local3 hH
  refine ⟨⟨C2, δ2, hδ2, ?_⟩, ⟨C3, δ3, hδ3, ?_⟩⟩
  · refine layeredRunError_of (ls := steps2) hd0 simplifyObc steps_real.1 hH hh
      (fun dt => (C121_step hg heps hd0 simplifyObc exists_goodExpm hH hh dt).1) fun dt hdt φ χ he => ?_
    have := h2 dt (by simp) (by simpa using hdt) φ χ he
    simpa using this
  · refine layeredRunError_of (ls := steps3) hd0 simplifyObc steps_real.2.1 hH hh
      (fun dt => (C121_step hg heps hd0 simplifyObc exists_goodExpm hH hh dt).2) fun dt hdt φ χ he => ?_
    have := h3 dt (by simp) (by simpa using hdt) φ χ he
    simpa using this

/-- runs as in C122 exist, of any length: with `Dmax` at least the dimension of the Hilbert space every run which begins with a state in
canonical form with respect to the first site is of this kind -/
theorem C122_exist {svd : Tensor ℂ → SvdRes ℂ} (hg : GoodSvd svd) {eps : ℝ} (heps : 0 < eps) {dflt : ℝ} (hd0 : 0 < dflt)
    (simplifyObc : List (Tensor ℂ) → Int → Nat → Bool → Nat → List (Tensor ℂ) × ℝ) {H : Ham ℂ} {ds : List Nat} (hH : HamFits H ds)
    (hh : HamHermitian H ds) (dt : ℝ) {P : List (Tensor ℂ)} (hP : ReadyFor ds P 0) {Dmax : Nat} (hD : ds.prod ≤ Dmax) (normalize : Bool) (n : Nat) :
    ∃ U Q, (trotter2 eps).unitaries matrixExp H dt = some U ∧ Q 0 = P ∧
      LayeredRun svd eps dflt simplifyObc (trotter2 eps) U normalize Dmax n Q := by
  obtain ⟨U, u1, u2⟩ := (C121_step hg heps hd0 simplifyObc exists_goodExpm hH hh dt).1
  have hD0 : Dmax ≠ 0 := by
    have := List.prod_pos (WF.dims_pos hP.wf); omega
  have key : ∀ P, ReadyFor ds P 0 → ∃ y s', oneStep svd eps dflt simplifyObc (trotter2 eps) U .eachLayer normalize 0 P Dmax = some (y, s') ∧
      ReadyFor ds y.P 0 ∧ NeverSimplified svd eps dflt U ((trotter2 eps).calls .eachLayer normalize Dmax) P := by
    intro P hP
    obtain ⟨b, ⟨U', v1, v2⟩, -⟩ := C121_no_simplification hg heps hd0 exists_goodExpm hH hh dt hP hD
    rw [u1] at v1
    cases v1
    obtain ⟨y, s', e1, e2, -⟩ := u2 P 0 normalize Dmax hP hD0 b (v2 normalize)
    exact ⟨y, s', e1, e2, v2 normalize⟩
  classical
  let next : List (Tensor ℂ) → List (Tensor ℂ) := fun P => if h : ReadyFor ds P 0 then (key P h).choose.P else P
  have hn : ∀ P (h : ReadyFor ds P 0), next P = (key P h).choose.P := fun P h => dif_pos h
  have hr : ∀ i, ReadyFor ds (next^[i] P) 0 := by
    intro i
    induction i with
    | zero => exact hP
    | succ i ih =>
      rw [Function.iterate_succ_apply', hn _ ih]
      obtain ⟨s', -, e, -⟩ := (key _ ih).choose_spec
      exact e
  refine ⟨U, fun i => next^[i] P, u1, rfl, fun i _ => ?_⟩
  obtain ⟨s', e1, -, e3⟩ := (key _ (hr i)).choose_spec
  exact ⟨e3, _, 0, s', e1, by beta_reduce; rw [Function.iterate_succ_apply', hn _ (hr i)]⟩

end MPS.Props
