import Verif.Props.ReversalProps
import Verif.Props.NormalizeProps

/-!
# C129: two qubits

Chains of two qubits, where nothing is ever dropped: the symmetric solvers are reversible without further conditions, and
`Trotter2Solver` is not.
-/

set_option linter.unusedSectionVars false
set_option linter.unusedSimpArgs false

namespace MPS.Props
open MPS Tensor Trotter Order Minim
open scoped Matrix.Norms.Operator Matrix
open Asymptotics Filter Topology

/-- the calls which make up a step without truncation -/
def PlainCalls (S : Solver) : Prop :=
  (∀ l ∈ S.layers, l.1 = 0 ∨ l.1 = 1) ∧ ∀ Dmax, ∀ c ∈ S.calls .doNotTruncate false Dmax, (c.tol < 0 ∨ 0 < c.tol) ∧
    (c.simplify = false ∧ c.D = 0 ∧ c.normalize = false) ∧ c.which < S.layers.length

theorem plain_calls {eps : ℝ} (heps : 0 < eps) : PlainCalls (trotter2 eps) ∧ PlainCalls (trotter3 eps) ∧ PlainCalls forestRuth := by
  refine ⟨⟨by simp [trotter2], fun D => ?_⟩, ⟨by simp [trotter3], fun D => ?_⟩, ⟨by simp [forestRuth], fun D => ?_⟩⟩
  · simp [trotter2, heps, heps.ne']
  · simp [trotter3, heps, heps.ne']
  · simp [forestRuth, defaultTol]

/-- on two qubits, no step without truncation drops anything -/
theorem two_qubits_step {svd : Tensor ℂ → SvdRes ℂ} (hg : GoodSvd svd) {eps : ℝ} (he : eps < 1) {dflt : ℝ} (hd0 : 0 < dflt)
    (simplifyObc : List (Tensor ℂ) → Int → Nat → Bool → Nat → List (Tensor ℂ) × ℝ) {S : Solver} (hS : PlainCalls S)
    {H : Ham ℂ} (hH : HamFits H [2, 2]) (dt : ℂ) {U : List Unitary} (hU : S.unitaries matrixExp H dt = some U)
    (P : List (Tensor ℂ)) (hP : WF 1 P [2, 2] 1) (sense : Int) (Dmax : Nat) :
    ∃ y sense', oneStep svd eps dflt simplifyObc S U .doNotTruncate false sense P Dmax = some (y, sense') ∧ WF 1 y.P [2, 2] 1 ∧
      y.err = 0 ∧ y.hidden = 0 := by
  obtain ⟨U', hU', hfit⟩ := unitaries_fit S hS.1 exists_goodExpm.dims hH dt
  obtain rfl : U = U' := by rw [hU] at hU'; exact Option.some.inj hU'
  have key : ∀ cs : List Call, (∀ c ∈ cs, (c.tol < 0 ∨ 0 < c.tol) ∧ (c.simplify = false ∧ c.D = 0 ∧ c.normalize = false) ∧
      c.which < S.layers.length) → ∀ x : Evo × Int, WF 1 x.1.P [2, 2] 1 →
      let y := cs.foldl (runCall svd eps dflt simplifyObc U) x
      WF 1 y.1.P [2, 2] 1 ∧ y.1.err = x.1.err ∧ y.1.hidden = x.1.hidden := by
    intro cs
    induction cs with
    | nil => intro _ x hx; exact ⟨hx, rfl, rfl⟩
    | cons c cs ih =>
      intro hc x hx
      obtain ⟨a1, a2, a3⟩ := hc c (by simp)
      obtain ⟨k, -, -, -, k4⟩ := hfit c.which a3
      obtain ⟨b1, b2, b3, -⟩ := call_two hg he hd0 simplifyObc U x c k4 hx a1 (Or.inr a2)
      obtain ⟨d1, d2, d3⟩ := ih (fun c h => hc c (by simp [h])) _ b1
      exact ⟨d1, d2.trans b2, d3.trans b3⟩
  obtain ⟨h1, h2, h3⟩ := key (S.calls .doNotTruncate false Dmax) (hS.2 Dmax) (⟨P, 0, 0⟩, sense) hP
  exact ⟨_, _, by unfold oneStep; rw [if_neg (by simp)], h1, h2, h3⟩

/-- runs of any length exist -/
theorem two_qubits_run {svd : Tensor ℂ → SvdRes ℂ} (hg : GoodSvd svd) {eps : ℝ} (he : eps < 1) {dflt : ℝ} (hd0 : 0 < dflt)
    (simplifyObc : List (Tensor ℂ) → Int → Nat → Bool → Nat → List (Tensor ℂ) × ℝ) {S : Solver} (hS : PlainCalls S)
    {H : Ham ℂ} (hH : HamFits H [2, 2]) (dt : ℂ) {U : List Unitary} (hU : S.unitaries matrixExp H dt = some U)
    (P : List (Tensor ℂ)) (hP : WF 1 P [2, 2] 1) (n : Nat) :
    ∃ Q, Q 0 = P ∧ WF 1 (Q n) [2, 2] 1 ∧ Run svd eps dflt simplifyObc S U .doNotTruncate n Q := by
  induction n with
  | zero => exact ⟨fun _ => P, rfl, hP, fun i hi => absurd hi (by omega)⟩
  | succ n ih =>
    obtain ⟨Q, q0, q1, q2⟩ := ih
    obtain ⟨y, s', h1, h2, h3, h4⟩ := two_qubits_step hg he hd0 simplifyObc hS hH dt hU (Q n) q1 0 0
    refine ⟨fun i => if i ≤ n then Q i else y.P, by simp [q0], by simp [h2], fun i hi => ?_⟩
    rcases Nat.lt_or_ge i n with h | h
    · have := q2 i h
      simp only [show i ≤ n by omega, show i + 1 ≤ n by omega, if_true]
      exact this
    · obtain rfl : i = n := by omega
      refine ⟨0, 0, y, s', by simp, by simp only [le_refl, if_true]; exact h1, h3, h4, by simp⟩

/-- **C129** without conditions: two qubits, the solvers without truncation. -/
theorem C129_two_qubits {svd : Tensor ℂ → SvdRes ℂ} (hg : GoodSvd svd) {eps : ℝ} (he0 : 0 < eps) (he : eps < 1) {dflt : ℝ} (hd0 : 0 < dflt)
    (simplifyObc : List (Tensor ℂ) → Int → Nat → Bool → Nat → List (Tensor ℂ) × ℝ) {H : Ham ℂ} (hH : HamFits H [2, 2]) (dt : ℝ)
    (P : List (Tensor ℂ)) (hP : WF 1 P [2, 2] 1) (n : Nat) (S : Solver) (hS : S = trotter3 eps ∨ S = forestRuth) :
    ∃ U V Q R, S.unitaries matrixExp H dt = some U ∧ S.unitaries matrixExp H ((-dt : ℝ) : ℂ) = some V ∧ Q 0 = P ∧ R 0 = Q n ∧
      Run svd eps dflt simplifyObc S U .doNotTruncate n Q ∧ Run svd eps dflt simplifyObc S V .doNotTruncate n R ∧
      ∀ s, IsCfg [2, 2] s → amp (R n) s = amp P s := by
  have hp : PlainCalls S := by rcases hS with rfl | rfl; exacts [(plain_calls he0).2.1, (plain_calls he0).2.2]
  have hr : Reversible svd eps dflt simplifyObc S .doNotTruncate H [2, 2] := by
    have := C129_reversal hg he0 hd0 simplifyObc hH .doNotTruncate (Or.inr rfl)
    rcases hS with rfl | rfl; exacts [this.1, this.2]
  obtain ⟨U, V, hU, hV, h⟩ := hr dt
  obtain ⟨Q, q0, q1, q2⟩ := two_qubits_run hg he hd0 simplifyObc hp hH _ hU P hP n
  obtain ⟨R, r0, r1, r2⟩ := two_qubits_run hg he hd0 simplifyObc hp hH _ hV (Q n) q1 n
  refine ⟨U, V, Q, R, hU, hV, q0, r0, q2, r2, fun s hs => ?_⟩
  rw [h n Q R ?_ q2 r0 r2 s hs, q0]
  rw [q0]
  exact ⟨by intro hh; have := hP.length; rw [hh] at this; simp at this, 1, hP⟩

/-! ### `Trotter2Solver` -/

/-- if the exponentials of two matrices commute at all imaginary times, the matrices commute -/
theorem commute_of_exp {𝔸 : Type*} [NormedRing 𝔸] [NormedAlgebra ℂ 𝔸] [CompleteSpace 𝔸] (A B : 𝔸)
    (h : ∀ dt : ℝ, NormedSpace.exp ((-Complex.I * dt) • B) * NormedSpace.exp ((-Complex.I * dt) • A) =
      NormedSpace.exp ((-Complex.I * dt) • A) * NormedSpace.exp ((-Complex.I * dt) • B)) : B * A = A * B := by
  have t := ((T5.exp B).mul (T5.exp A)).sub ((T5.exp A).mul (T5.exp B))
  set f : ℂ → 𝔸 := fun z => NormedSpace.exp (z • B) * NormedSpace.exp (z • A) - NormedSpace.exp (z • A) * NormedSpace.exp (z • B) with hf
  obtain ⟨c3, c4, t⟩ : ∃ c3 c4, T5 f 0 0 (B * A - A * B) c3 c4 := by
    refine ⟨_, _, t.coeff (by simp) ?_ ?_ rfl rfl⟩
    · simp only [one_mul, mul_one]; abel
    · simp only [one_mul, mul_one]; abel
  have hd : ∀ z : ℂ, f z - z ^ 2 • (B * A - A * B) = (f z - poly 0 0 (B * A - A * B) c3 c4 z) + z ^ 3 • c3 + z ^ 4 • c4 := by
    intro z; simp only [poly]; module
  have hO : (fun z => f z - z ^ 2 • (B * A - A * B)) =O[𝓝 0] fun z : ℂ => z ^ 3 := by
    have := ((IsBigO.trans t (pow_bigO (show 3 ≤ 5 by omega))).add (smul_bigO 3 c3)).add ((smul_bigO 4 c4).trans (pow_bigO (show 3 ≤ 4 by omega)))
    exact this.congr_left fun z => (hd z).symm
  obtain ⟨C, hC⟩ := hO.bound
  obtain ⟨δ, hδ, hball⟩ := Metric.eventually_nhds_iff.1 hC
  have hb : ∀ r : ℝ, 0 < r → r < δ → ‖B * A - A * B‖ ≤ C * r := by
    intro r hr hrδ
    have hn : ‖-Complex.I * (r : ℂ)‖ = r := by simp [abs_of_pos hr]
    have := hball (y := -Complex.I * (r : ℂ)) (by rw [dist_zero_right, hn]; exact hrδ)
    have hz : f (-Complex.I * (r : ℂ)) = 0 := by simp only [hf]; rw [h r, sub_self]
    rw [hz, zero_sub, norm_neg, norm_smul, norm_pow, norm_pow, hn] at this
    have h2 : 0 < r ^ 2 := by positivity
    have h3 : r ^ 2 * ‖B * A - A * B‖ ≤ r ^ 2 * (C * r) := by nlinarith
    exact le_of_mul_le_mul_left h3 h2
  have hz : ‖B * A - A * B‖ ≤ 0 := by
    by_contra hlt
    push Not at hlt
    set m := ‖B * A - A * B‖ with hm
    have hc : 0 < C := by
      have := hb (δ / 2) (by linarith) (by linarith)
      by_contra hh; push Not at hh
      nlinarith
    have hr : 0 < min (δ / 2) (m / (2 * C)) := lt_min (by linarith) (by positivity)
    have h1 := hb _ hr (lt_of_le_of_lt (min_le_left _ _) (by linarith))
    have h2 : C * min (δ / 2) (m / (2 * C)) ≤ C * (m / (2 * C)) := mul_le_mul_of_nonneg_left (min_le_right _ _) hc.le
    have h3 : C * (m / (2 * C)) = m / 2 := by field_simp
    linarith
  exact sub_eq_zero.1 (norm_le_zero_iff.1 hz)

/-- every wave function of two qubits is that of an MPS -/
theorem two_qubits_mps (φ : List Nat → ℂ) : ∃ P : List (Tensor ℂ), WF 1 P [2, 2] 1 ∧ ∀ s, IsCfg [2, 2] s → amp P s = φ s := by
  refine ⟨[⟨[1, 2, 2], fun i => if i.getD 1 0 = i.getD 2 0 then 1 else 0⟩, ⟨[2, 2, 1], fun i => φ [i.getD 0 0, i.getD 1 0]⟩],
    WF.cons rfl Nat.one_pos (by decide) (by decide) (WF.cons rfl (by decide) (by decide) Nat.one_pos (WF.nil 1)), fun s hs => ?_⟩
  cases hs with
  | cons h1 h =>
    cases h with
    | cons h2 h3 =>
      cases h3
      rename_i i j
      have hi : i = 0 ∨ i = 1 := by omega
      rcases hi with rfl | rfl <;>
        simp [amp, path, Tensor.dim, Finset.sum_range_succ, Tensor.get, nrm]

/-- **C129**: `Trotter2Solver` is not reversible: the layers of this Hamiltonian of two qubits do not commute, and for some time step and
some initial state the solver with `-dt` does not return to the initial state, although nothing is dropped. -/
theorem C129_trotter2_not_reversible {svd : Tensor ℂ → SvdRes ℂ} (hg : GoodSvd svd) {eps : ℝ} (he0 : 0 < eps) (he : eps < 1) {dflt : ℝ} (hd0 : 0 < dflt)
    (simplifyObc : List (Tensor ℂ) → Int → Nat → Bool → Nat → List (Tensor ℂ) × ℝ) :
    HamFits pairHam [2, 2] ∧ HamHermitian pairHam [2, 2] ∧
    ¬ Reversible svd eps dflt simplifyObc (trotter2 eps) .doNotTruncate pairHam [2, 2] := by
  refine ⟨pairHam_fits, pairHam_hermitian, fun hr => ?_⟩
  set A := genMat pairHam [2, 2] 0 with hA
  set B := genMat pairHam [2, 2] 1 with hB
  have hp := (plain_calls he0).1
  have hlay := (C59_trotter2 hg he0 hd0 (svd := svd)).2
  have key : ∀ dt : ℝ, NormedSpace.exp ((-Complex.I * dt) • B) * NormedSpace.exp ((-Complex.I * dt) • A) =
      NormedSpace.exp ((-Complex.I * dt) • A) * NormedSpace.exp ((-Complex.I * dt) • B) := by
    intro dt
    obtain ⟨U, V, hU, hV, h⟩ := hr dt
    obtain ⟨U', hU', hu⟩ := run_layers simplifyObc hlay pairHam_fits (dt : ℂ)
    obtain ⟨V', hV', hv⟩ := run_layers simplifyObc hlay pairHam_fits ((-dt : ℝ) : ℂ)
    obtain rfl : U = U' := by rw [hU] at hU'; exact Option.some.inj hU'
    obtain rfl : V = V' := by rw [hV] at hV'; exact Option.some.inj hV'
    have hall : ∀ φ : List Nat → ℂ, vec [2, 2] (layerSteps matrixExp pairHam [2, 2] ((-dt : ℝ) : ℂ) steps2
        (layerSteps matrixExp pairHam [2, 2] dt steps2 φ)) = vec [2, 2] φ := by
      intro φ
      obtain ⟨P, hP, hφ⟩ := two_qubits_mps φ
      have mps : ∀ P : List (Tensor ℂ), WF 1 P [2, 2] 1 → IsMPS [2, 2] P := fun P hP =>
        ⟨by intro hh; have := hP.length; rw [hh] at this; simp at this, 1, hP⟩
      obtain ⟨Q, q0, q1, q2⟩ := two_qubits_run hg he hd0 simplifyObc hp pairHam_fits _ hU P hP 1
      obtain ⟨R, r0, r1, r2⟩ := two_qubits_run hg he hd0 simplifyObc hp pairHam_fits _ hV (Q 1) q1 1
      have e0 := h 1 Q R (by rw [q0]; exact mps P hP) q2 r0 r2
      have e1 := hu 1 Q (by rw [q0]; exact mps P hP) q2 0 (by omega)
      have e2 := hv 1 R (by rw [r0]; exact mps _ q1) r2 0 (by omega)
      have hφ' : vec [2, 2] φ = vec [2, 2] (amp (Q 0)) := by
        funext s; rw [q0]; exact (hφ s.1 s.cfg).symm
      rw [layerSteps_vec_congr _ _ (layerSteps_vec_congr _ _ hφ'), hφ']
      have e1' : vec [2, 2] (layerSteps matrixExp pairHam [2, 2] dt steps2 (amp (Q 0))) = vec [2, 2] (amp (R 0)) := by
        funext s; rw [r0]; exact (e1 s.1 s.cfg).symm
      rw [layerSteps_vec_congr _ _ e1']
      funext s
      exact (e2 s.1 s.cfg).symm.trans (e0 s.1 s.cfg)
    have hmat : ∀ v : Cfg [2, 2] → ℂ,
        ((NormedSpace.exp ((-Complex.I * ((-dt : ℝ) : ℂ)) • B) * NormedSpace.exp ((-Complex.I * ((-dt : ℝ) : ℂ)) • A)) *
          (NormedSpace.exp ((-Complex.I * dt) • B) * NormedSpace.exp ((-Complex.I * dt) • A))) *ᵥ v = v := by
      intro v
      have := hall fun s => if hs : s ∈ cfgs [2, 2] then v ⟨s, hs⟩ else 0
      rw [steps2_vec pairHam_fits _ (by simp), steps2_vec pairHam_fits _ (by simp)] at this
      have hv : vec [2, 2] (fun s => if hs : s ∈ cfgs [2, 2] then v ⟨s, hs⟩ else 0) = v := by
        funext s; simp [vec, s.2]
      rw [hv, Matrix.mulVec_mulVec] at this
      exact this
    have hone : (NormedSpace.exp ((-Complex.I * ((-dt : ℝ) : ℂ)) • B) * NormedSpace.exp ((-Complex.I * ((-dt : ℝ) : ℂ)) • A)) *
          (NormedSpace.exp ((-Complex.I * dt) • B) * NormedSpace.exp ((-Complex.I * dt) • A)) = 1 := by
      refine Matrix.ext_of_mulVec_single fun i => ?_
      rw [hmat, Matrix.one_mulVec]
    have inv : ∀ X : Matrix (Cfg [2, 2]) (Cfg [2, 2]) ℂ, NormedSpace.exp ((-Complex.I * dt) • X) * NormedSpace.exp ((-Complex.I * ((-dt : ℝ) : ℂ)) • X) = 1 := by
      intro X
      refine (exp_add_smul X _ _).trans ?_
      have : -Complex.I * (dt : ℂ) + -Complex.I * ((-dt : ℝ) : ℂ) = 0 := by push_cast; ring
      rw [this, zero_smul, NormedSpace.exp_zero]
    have g : ∀ a b a' b' : Matrix (Cfg [2, 2]) (Cfg [2, 2]) ℂ, a * a' = 1 → b * b' = 1 → (b' * a') * (b * a) = 1 → b * a = a * b := by
      intro a b a' b' h1 h2 h3
      calc b * a = (a * (b * b') * a') * (b * a) := by rw [h2, mul_one, h1, one_mul]
        _ = a * b * ((b' * a') * (b * a)) := by simp only [mul_assoc]
        _ = a * b := by rw [h3, mul_one]
    exact g _ _ _ _ (inv A) (inv B) hone
  have hc := commute_of_exp A B key
  have hs : [0, 0] ∈ cfgs [2, 2] := by decide
  have ht : [1, 0] ∈ cfgs [2, 2] := by decide
  have := congrFun (congrFun hc ⟨[0, 0], hs⟩) ⟨[1, 0], ht⟩
  rw [Matrix.mul_apply, Matrix.mul_apply] at this
  have sum : ∀ F : List Nat → ℂ, ∑ s : Cfg [2, 2], F s.1 = F [0, 0] + F [0, 1] + F [1, 0] + F [1, 1] := by
    intro F
    rw [← sumCfg_cfg]
    simp [sumCfg_cons, Finset.sum_range_succ]
    ring
  have this := (sum fun r => genElt [2, 2] 1 (layerGen pairHam 1) [0, 0] r * genElt [2, 2] 0 (layerGen pairHam 0) r [1, 0]).symm.trans
    (this.trans (sum fun r => genElt [2, 2] 0 (layerGen pairHam 0) [0, 0] r * genElt [2, 2] 1 (layerGen pairHam 1) r [1, 0]))
  beta_reduce at this
  have f0 : (Finset.range [2, 2].length).filter (PairAt [2, 2].length 0) = {0} := by decide
  have f1 : (Finset.range [2, 2].length).filter (PairAt [2, 2].length 1) = ∅ := by decide
  have g0 : (Finset.range [2, 2].length).filter (Single [2, 2].length 0) = ∅ := by decide
  have g1 : (Finset.range [2, 2].length).filter (Single [2, 2].length 1) = {0, 1} := by decide
  have p0 : PairAt pairHam.size 0 0 := by show PairAt 2 0 0; decide
  have p1 : ¬ PairAt pairHam.size 1 0 := by show ¬ PairAt 2 1 0; decide
  have p2 : ¬ PairAt pairHam.size 1 1 := by show ¬ PairAt 2 1 1; decide
  simp only [genElt, f0, f1, g0, g1, Finset.sum_singleton, Finset.sum_empty, add_zero, zero_add, layerGen, p0, p1, p2, if_true, if_false,
    Finset.sum_pair (show (0 : Nat) ≠ 1 by decide)] at this
  simp [embed1, embed2, pairHam, Tensor.add, smul, Tensor.get, nrm, kron2, Tensor.kron, Tensor.eye, Tensor.dim, Finset.prod_range_succ] at this

end MPS.Props
