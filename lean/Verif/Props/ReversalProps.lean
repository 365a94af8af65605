import Verif.Props.TrotterTruncProps

/-!
# C129: simulations can be run backwards

`Trotter3Solver` and `ForestRuthSolver` apply a symmetric sequence of layers, hence a solver created with the time step `-dt` undoes
what the solver with `dt` did.  (The layers of `Trotter2Solver` are not symmetric.)
-/

set_option linter.unusedSectionVars false
set_option linter.unusedSimpArgs false

namespace MPS.Props
open MPS Tensor Trotter Order Minim
open scoped Matrix.Norms.Operator Matrix

/-- a layer with `-dt` undoes the layer with `dt` -/
theorem layerStep_undo {H : Ham ℂ} {ds : List Nat} (hH : HamFits H ds) (dt : ℝ) {l : Nat × ℂ} (hl : l.2.im = 0) (φ : List Nat → ℂ) :
    vec ds (layerStep matrixExp H ds ((-dt : ℝ) : ℂ) (layerStep matrixExp H ds dt φ l) l) = vec ds φ := by
  have hz : ∀ r : ℝ, (⟨-|((r : ℂ) * l.2).im|, -((r : ℂ) * l.2).re⟩ : ℂ) = ⟨0, -(r * l.2.re)⟩ := by
    intro r
    apply Complex.ext <;> simp [hl]
  rw [layerStep_vec hH _ l _ (hz (-dt)), layerStep_vec hH _ l _ (hz dt), Matrix.mulVec_mulVec]
  refine (congrArg (fun M => M *ᵥ vec ds φ) (exp_add_smul (genMat H ds l.1) _ _)).trans ?_
  have : (⟨0, -(-dt * l.2.re)⟩ : ℂ) + ⟨0, -(dt * l.2.re)⟩ = 0 := by
    apply Complex.ext <;> simp
  beta_reduce
  rw [this, zero_smul, NormedSpace.exp_zero, Matrix.one_mulVec]

theorem layerSteps_vec_congr {expm : Tensor ℂ → Tensor ℂ} {H : Ham ℂ} {ds : List Nat} (dt : ℂ) (ls : List (Nat × ℂ)) {φ χ : List Nat → ℂ}
    (h : vec ds φ = vec ds χ) : vec ds (layerSteps expm H ds dt ls φ) = vec ds (layerSteps expm H ds dt ls χ) := by
  induction ls generalizing φ χ with
  | nil => exact h
  | cons l ls ih =>
    refine ih ?_
    unfold layerStep
    rw [vec_actOp, vec_actOp, h]

/-- the layers in reverse order and with `-dt` undo the layers -/
theorem layerSteps_undo {H : Ham ℂ} {ds : List Nat} (hH : HamFits H ds) (dt : ℝ) (ls : List (Nat × ℂ)) (hl : ∀ l ∈ ls, l.2.im = 0)
    (φ : List Nat → ℂ) :
    vec ds (layerSteps matrixExp H ds ((-dt : ℝ) : ℂ) ls.reverse (layerSteps matrixExp H ds dt ls φ)) = vec ds φ := by
  induction ls generalizing φ with
  | nil => rfl
  | cons l ls ih =>
    have e : ∀ χ, layerSteps matrixExp H ds ((-dt : ℝ) : ℂ) (l :: ls).reverse χ =
        layerStep matrixExp H ds ((-dt : ℝ) : ℂ) (layerSteps matrixExp H ds ((-dt : ℝ) : ℂ) ls.reverse χ) l := by
      intro χ
      simp [layerSteps, List.foldl_append]
    rw [e]
    have h1 := ih (fun l' h => hl l' (by simp [h])) (layerStep matrixExp H ds dt φ l)
    have h2 : layerSteps matrixExp H ds dt (l :: ls) φ = layerSteps matrixExp H ds dt ls (layerStep matrixExp H ds dt φ l) := rfl
    rw [h2, ← layerStep_undo hH dt (hl l (by simp)) φ]
    have h3 : ∀ {φ χ : List Nat → ℂ}, vec ds φ = vec ds χ → vec ds (layerStep matrixExp H ds ((-dt : ℝ) : ℂ) φ l) =
        vec ds (layerStep matrixExp H ds ((-dt : ℝ) : ℂ) χ l) := by
      intro φ χ h
      unfold layerStep
      rw [vec_actOp, vec_actOp, h]
    exact h3 h1

theorem steps_symmetric : steps3.reverse = steps3 ∧ stepsFR.reverse = stepsFR := ⟨by simp [steps3], by simp [stepsFR]⟩

/-- `n` steps with the layers `ls` -/
noncomputable def evolved (H : Ham ℂ) (ds : List Nat) (dt : ℝ) (ls : List (Nat × ℂ)) (φ : List Nat → ℂ) : Nat → List Nat → ℂ
  | 0 => φ
  | n + 1 => layerSteps matrixExp H ds dt ls (evolved H ds dt ls φ n)

theorem evolved_congr {H : Ham ℂ} {ds : List Nat} (dt : ℝ) (ls : List (Nat × ℂ)) {φ χ : List Nat → ℂ} (h : vec ds φ = vec ds χ) (n : Nat) :
    vec ds (evolved H ds dt ls φ n) = vec ds (evolved H ds dt ls χ n) := by
  induction n with
  | zero => exact h
  | succ n ih => exact layerSteps_vec_congr _ _ ih

theorem evolved_first (H : Ham ℂ) (ds : List Nat) (dt : ℝ) (ls : List (Nat × ℂ)) (φ : List Nat → ℂ) (n : Nat) :
    evolved H ds dt ls φ (n + 1) = evolved H ds dt ls (layerSteps matrixExp H ds dt ls φ) n := by
  induction n with
  | zero => rfl
  | succ n ih =>
    show layerSteps matrixExp H ds dt ls (evolved H ds dt ls φ (n + 1)) = layerSteps matrixExp H ds dt ls _
    rw [ih]

theorem evolved_undo {H : Ham ℂ} {ds : List Nat} (hH : HamFits H ds) (dt : ℝ) {ls : List (Nat × ℂ)} (hl : ∀ l ∈ ls, l.2.im = 0)
    (hs : ls.reverse = ls) (φ : List Nat → ℂ) (n : Nat) :
    vec ds (evolved H ds (-dt) ls (evolved H ds dt ls φ n) n) = vec ds φ := by
  induction n with
  | zero => rfl
  | succ n ih =>
    rw [evolved_first H ds (-dt)]
    have h := layerSteps_undo hH dt ls hl (evolved H ds dt ls φ n)
    rw [hs] at h
    rw [← ih]
    exact evolved_congr _ _ h n

/-- Runs forwards, with the solver created with `dt`, and then the same number of steps backwards, with the solver created with `-dt`:
if no singular values are dropped, the wave function is the initial one. -/
def Reversible (svd : Tensor ℂ → SvdRes ℂ) (eps dflt : ℝ)
    (simplifyObc : List (Tensor ℂ) → Int → Nat → Bool → Nat → List (Tensor ℂ) × ℝ) (S : Solver) (strategy : Strategy) (H : Ham ℂ)
    (ds : List Nat) : Prop :=
  ∀ dt : ℝ, ∃ U V, S.unitaries matrixExp H dt = some U ∧ S.unitaries matrixExp H ((-dt : ℝ) : ℂ) = some V ∧
  ∀ (n : Nat) (Q R : Nat → List (Tensor ℂ)), IsMPS ds (Q 0) → Run svd eps dflt simplifyObc S U strategy n Q → R 0 = Q n →
    Run svd eps dflt simplifyObc S V strategy n R → ∀ s, IsCfg ds s → amp (R n) s = amp (Q 0) s

theorem run_mps {svd : Tensor ℂ → SvdRes ℂ} {eps dflt : ℝ}
    {simplifyObc : List (Tensor ℂ) → Int → Nat → Bool → Nat → List (Tensor ℂ) × ℝ} {S : Solver} {strategy : Strategy} {ls : List (Nat × ℂ)}
    (h : StepIs svd eps dflt S strategy ls) {H : Ham ℂ} {ds : List Nat} (hH : HamFits H ds) (dt : ℂ) {U : List Unitary}
    (hU : S.unitaries matrixExp H dt = some U) {n : Nat} {Q : Nat → List (Tensor ℂ)} (h0 : IsMPS ds (Q 0))
    (hr : Run svd eps dflt simplifyObc S U strategy n Q) : IsMPS ds (Q n) := by
  obtain ⟨U', h1, h2⟩ := h simplifyObc matrixExp exists_goodExpm.dims H ds hH dt
  obtain rfl : U = U' := by rw [hU] at h1; exact Option.some.inj h1
  have : ∀ i ≤ n, IsMPS ds (Q i) := by
    intro i
    induction i with
    | zero => intro _; exact h0
    | succ i ih =>
      intro hi
      obtain ⟨sense, Dmax, y, sense', c1, c2, c3, c4, c5⟩ := hr i (by omega)
      obtain ⟨y', s', g1, g2, -⟩ := h2 (Q i) (ih (by omega)) sense Dmax c1
      rw [c2] at g1
      cases g1
      rw [c5]; exact g2
  exact this n le_rfl

theorem reversible_of {svd : Tensor ℂ → SvdRes ℂ} {eps dflt : ℝ}
    (simplifyObc : List (Tensor ℂ) → Int → Nat → Bool → Nat → List (Tensor ℂ) × ℝ) {S : Solver} {strategy : Strategy} {ls : List (Nat × ℂ)}
    (h : StepIs svd eps dflt S strategy ls) (hl : ∀ l ∈ ls, l.2.im = 0) (hs : ls.reverse = ls) {H : Ham ℂ} {ds : List Nat} (hH : HamFits H ds) :
    Reversible svd eps dflt simplifyObc S strategy H ds := by
  intro dt
  obtain ⟨U, u1, u2⟩ := run_layers simplifyObc h hH (dt : ℂ)
  obtain ⟨V, v1, v2⟩ := run_layers simplifyObc h hH ((-dt : ℝ) : ℂ)
  refine ⟨U, V, u1, v1, fun n Q R hQ hrQ h0 hrR s hc => ?_⟩
  have key : ∀ (dt : ℝ) (X : Nat → List (Tensor ℂ)),
      (∀ i < n, ∀ s, IsCfg ds s → amp (X (i + 1)) s = layerSteps matrixExp H ds dt ls (amp (X i)) s) →
      ∀ i ≤ n, vec ds (amp (X i)) = vec ds (evolved H ds dt ls (amp (X 0)) i) := by
    intro dt X hX i
    induction i with
    | zero => intro _; rfl
    | succ i ih =>
      intro hi
      show _ = vec ds (layerSteps matrixExp H ds dt ls _)
      rw [← layerSteps_vec_congr _ _ (ih (by omega))]
      funext s
      exact hX i (by omega) s.1 s.cfg
  have k1 := key dt Q (u2 n Q hQ hrQ) n le_rfl
  have k2 := key (-dt) R (v2 n R (by rw [h0]; exact run_mps h hH _ u1 hQ hrQ) hrR) n le_rfl
  rw [h0] at k2
  rw [evolved_congr _ _ k1, evolved_undo hH dt hl hs] at k2
  exact congrFun k2 ⟨s, mem_cfgs.2 hc⟩

/-- **C129**: `Trotter3Solver` and `ForestRuthSolver`, any Hamiltonian of nearest neighbours and any real time step: if no singular
values are dropped, the solver with the time step `-dt` undoes the solver with `dt`. -/
theorem C129_reversal {svd : Tensor ℂ → SvdRes ℂ} (hg : GoodSvd svd) {eps : ℝ} (heps : 0 < eps) {dflt : ℝ} (hd0 : 0 < dflt)
    (simplifyObc : List (Tensor ℂ) → Int → Nat → Bool → Nat → List (Tensor ℂ) × ℝ) {H : Ham ℂ} {ds : List Nat} (hH : HamFits H ds)
    (strategy : Strategy) (hst : strategy = .eachUnitary ∨ strategy = .doNotTruncate) :
    Reversible svd eps dflt simplifyObc (trotter3 eps) strategy H ds ∧ Reversible svd eps dflt simplifyObc forestRuth strategy H ds := by
  have h3 := C59_trotter3 hg heps hd0
  have hf := C59_forest_ruth hg eps hd0
  rcases hst with rfl | rfl
  · exact ⟨reversible_of simplifyObc h3.1 steps_real.2.1 steps_symmetric.1 hH, reversible_of simplifyObc hf.1 steps_real.2.2 steps_symmetric.2 hH⟩
  · exact ⟨reversible_of simplifyObc h3.2 steps_real.2.1 steps_symmetric.1 hH, reversible_of simplifyObc hf.2 steps_real.2.2 steps_symmetric.2 hH⟩

/-- Runs forwards and backwards in which singular values are dropped, with `layers` layers in each step: the distance between the
initial and the final wave functions is limited by the weight of the singular values dropped on both ways. -/
def NearlyReversible (svd : Tensor ℂ → SvdRes ℂ) (eps dflt : ℝ)
    (simplifyObc : List (Tensor ℂ) → Int → Nat → Bool → Nat → List (Tensor ℂ) × ℝ) (S : Solver) (H : Ham ℂ) (ds : List Nat)
    (layers : Nat) : Prop :=
  ∀ dt : ℝ, ∃ U V, S.unitaries matrixExp H dt = some U ∧ S.unitaries matrixExp H ((-dt : ℝ) : ℂ) = some V ∧
  ∀ (n : Nat) (Q R : Nat → List (Tensor ℂ)) (sense sense' : Nat → Int) (lost lost' : Nat → ℝ), ReadyFor ds (Q 0) (sense 0) →
    TruncatedRun svd eps dflt simplifyObc S U n Q sense lost → R 0 = Q n → ReadyFor ds (R 0) (sense' 0) →
    TruncatedRun svd eps dflt simplifyObc S V n R sense' lost' →
    wdist ds (amp (R n)) (amp (Q 0)) ≤ Real.sqrt ((n * layers : Nat) * ∑ i ∈ Finset.range n, lost i) +
      Real.sqrt ((n * layers : Nat) * ∑ i ∈ Finset.range n, lost' i)

theorem run_evolved {svd : Tensor ℂ → SvdRes ℂ} {eps dflt : ℝ}
    {simplifyObc : List (Tensor ℂ) → Int → Nat → Bool → Nat → List (Tensor ℂ) × ℝ} {S : Solver} {ls : List (Nat × ℂ)}
    (hls : ∀ l ∈ ls, l.2.im = 0) {H : Ham ℂ} {ds : List Nat} (hH : HamFits H ds) (hh : HamHermitian H ds) (dt : ℝ) {U : List Unitary}
    (h : StepTruncated svd eps dflt simplifyObc matrixExp S H ds dt ls U) {n : Nat} {Q : Nat → List (Tensor ℂ)} {sense : Nat → Int}
    {lost : Nat → ℝ} (h0 : ReadyFor ds (Q 0) (sense 0)) (hr : TruncatedRun svd eps dflt simplifyObc S U n Q sense lost) :
    wdist ds (amp (Q n)) (evolved H ds dt ls (amp (Q 0)) n) ≤ Real.sqrt ((n * ls.length : Nat) * ∑ i ∈ Finset.range n, lost i) := by
  have main : ∀ m ≤ n, ReadyFor ds (Q m) (sense m) ∧ 0 ≤ ∑ i ∈ Finset.range m, lost i ∧
      wdist ds (amp (Q m)) (evolved H ds dt ls (amp (Q 0)) m) ≤ Real.sqrt ((m * ls.length : Nat) * ∑ i ∈ Finset.range m, lost i) := by
    intro m
    induction m with
    | zero => intro _; exact ⟨h0, by simp, by simp [evolved, wdist_self]⟩
    | succ m ih =>
      intro hm
      obtain ⟨r1, r2, r3⟩ := ih (by omega)
      obtain ⟨Dmax, y, d1, d2, d3, d4⟩ := hr m (by omega)
      obtain ⟨y', s', e1, e2, e3, e4, -, e6, -⟩ := h (Q m) (sense m) Dmax r1 d1
      rw [d2] at e1
      obtain ⟨rfl, rfl⟩ : y = y' ∧ sense (m + 1) = s' := by simpa using e1
      rw [Finset.sum_range_succ, d3, d4]
      refine ⟨e2, by linarith, ?_⟩
      have t1 := wdist_tri ds (amp y.P) (layerSteps matrixExp H ds dt ls (amp (Q m))) (evolved H ds dt ls (amp (Q 0)) (m + 1))
      have t2 : wdist ds (layerSteps matrixExp H ds dt ls (amp (Q m))) (evolved H ds dt ls (amp (Q 0)) (m + 1)) =
          wdist ds (amp (Q m)) (evolved H ds dt ls (amp (Q 0)) m) :=
        layerSteps_dist exists_goodExpm hH hh dt ls (fun l hl => by simp [hls l hl]) _ _
      rw [t2] at t1
      have t4 := sqrt_step (Nat.cast_nonneg (m * ls.length)) r2 (Nat.cast_nonneg ls.length) (by linarith : 0 ≤ y.err + y.hidden) r3 e6
      have e : (((m + 1) * ls.length : Nat) : ℝ) = (m * ls.length : Nat) + (ls.length : Nat) := by
        push_cast; ring
      rw [e]
      linarith
  exact (main n le_rfl).2.2

theorem evolved_dist {H : Ham ℂ} {ds : List Nat} (hH : HamFits H ds) (hh : HamHermitian H ds) (dt : ℝ) {ls : List (Nat × ℂ)}
    (hls : ∀ l ∈ ls, l.2.im = 0) (φ χ : List Nat → ℂ) (n : Nat) :
    wdist ds (evolved H ds dt ls φ n) (evolved H ds dt ls χ n) = wdist ds φ χ := by
  induction n with
  | zero => rfl
  | succ n ih => exact (layerSteps_dist exists_goodExpm hH hh dt ls (fun l hl => by simp [hls l hl]) _ _).trans ih

theorem nearlyReversible_of {svd : Tensor ℂ → SvdRes ℂ} {eps dflt : ℝ}
    (simplifyObc : List (Tensor ℂ) → Int → Nat → Bool → Nat → List (Tensor ℂ) × ℝ) {S : Solver} {ls : List (Nat × ℂ)}
    (hls : ∀ l ∈ ls, l.2.im = 0) (hs : ls.reverse = ls) {H : Ham ℂ} {ds : List Nat} (hH : HamFits H ds) (hh : HamHermitian H ds)
    (h : ∀ dt : ℝ, ∃ U, S.unitaries matrixExp H dt = some U ∧ StepTruncated svd eps dflt simplifyObc matrixExp S H ds dt ls U) :
    NearlyReversible svd eps dflt simplifyObc S H ds ls.length := by
  intro dt
  obtain ⟨U, u1, u2⟩ := h dt
  obtain ⟨V, v1, v2⟩ := h (-dt)
  refine ⟨U, V, u1, v1, fun n Q R sense sense' lost lost' hQ hrQ h0 hR hrR => ?_⟩
  have k1 := run_evolved hls hH hh dt u2 hQ hrQ
  have k2 := run_evolved hls hH hh (-dt) v2 hR hrR
  rw [h0] at k2
  have t := wdist_tri ds (amp (R n)) (evolved H ds (-dt) ls (amp (Q n)) n) (amp (Q 0))
  have e1 : wdist ds (evolved H ds (-dt) ls (amp (Q n)) n) (amp (Q 0)) =
      wdist ds (evolved H ds (-dt) ls (amp (Q n)) n) (evolved H ds (-dt) ls (evolved H ds dt ls (amp (Q 0)) n) n) :=
    wdist_congr (fun _ _ => rfl) fun s hc => (congrFun (evolved_undo hH dt hls hs (amp (Q 0)) n) ⟨s, mem_cfgs.2 hc⟩).symm
  rw [e1, evolved_dist hH hh (-dt) hls] at t
  linarith

/-- **C129**: with a Hermitian Hamiltonian and truncation after each gate, the state which comes back is as close to the initial one as
the singular values dropped allow. -/
theorem C129_truncated {svd : Tensor ℂ → SvdRes ℂ} (hg : GoodSvd svd) (eps : ℝ) {dflt : ℝ} (hd0 : 0 < dflt)
    (simplifyObc : List (Tensor ℂ) → Int → Nat → Bool → Nat → List (Tensor ℂ) × ℝ) {H : Ham ℂ} {ds : List Nat} (hH : HamFits H ds)
    (hh : HamHermitian H ds) :
    NearlyReversible svd eps dflt simplifyObc (trotter3 eps) H ds 3 ∧ NearlyReversible svd eps dflt simplifyObc forestRuth H ds 7 :=
  ⟨nearlyReversible_of (ls := steps3) simplifyObc steps_real.2.1 steps_symmetric.1 hH hh
      fun dt => C114_trotter3 hg eps hd0 simplifyObc exists_goodExpm hH hh dt,
    nearlyReversible_of (ls := stepsFR) simplifyObc steps_real.2.2 steps_symmetric.2 hH hh
      fun dt => C114_forest_ruth hg eps hd0 simplifyObc exists_goodExpm hH hh dt⟩

end MPS.Props
