import Verif.Props.LayerSimpProps
import Verif.Props.HamProps3
import Verif.Props.MPSProps
import Verif.Props.HamProps4
import Verif.Props.BondProps

/-!
# C133: expected values along a simulation

What `expected` returns for the states of a simulation with the default strategy, compared with the solution of Schrödinger's equation; and
the energy, which is conserved.
-/

set_option linter.unusedSectionVars false
set_option linter.unusedSimpArgs false

namespace MPS.Props
open MPS Tensor Trotter Order Minim Matrix

/-- the operator `A` on wave functions has norm `o` at most -/
def OpNormLe (ds : List Nat) (A : (List Nat → ℂ) → List Nat → ℂ) (o : ℝ) : Prop := ∀ φ, wnorm ds (A φ) ≤ o * wnorm ds φ

/-- `interaction_left(k,n)`, `interaction_right(k,n)`, `n = 0, …, interaction_depth(k) - 1` are factors of the terms of `interaction(k)` -/
def Splits (H : Ham ℂ) (ds : List Nat) : Prop :=
  ∀ k, k + 1 < ds.length → ∀ i i' j j', i < ds.getD k 0 → i' < ds.getD k 0 → j < ds.getD (k + 1) 0 → j' < ds.getD (k + 1) 0 →
    (H.inter k).get [i + ds.getD k 0 * j, i' + ds.getD k 0 * j'] =
      ∑ n ∈ Finset.range (H.depth k), (H.left k n).get [i, i'] * (H.right k n).get [j, j']

theorem inner_le (ds : List Nat) (φ χ : List Nat → ℂ) : ‖MPS.inner ds φ χ‖ ≤ wnorm ds φ * wnorm ds χ := by
  rw [inner_vec, wnorm_euclid, wnorm_euclid]
  have := norm_inner_le_norm (𝕜 := ℂ) (WithLp.toLp 2 (vec ds φ)) (WithLp.toLp 2 (vec ds χ))
  rw [EuclideanSpace.inner_eq_star_dotProduct] at this
  rwa [dotProduct_comm]

theorem inner_sub_right' (ds : List Nat) (φ χ χ' : List Nat → ℂ) :
    MPS.inner ds φ (fun s => χ s - χ' s) = MPS.inner ds φ χ - MPS.inner ds φ χ' := by
  simp only [inner_vec]
  rw [show vec ds (fun s => χ s - χ' s) = vec ds χ - vec ds χ' from rfl, dotProduct_sub]

theorem inner_sub_left' (ds : List Nat) (φ φ' χ : List Nat → ℂ) :
    MPS.inner ds (fun s => φ s - φ' s) χ = MPS.inner ds φ χ - MPS.inner ds φ' χ := by
  simp only [inner_vec]
  rw [show vec ds (fun s => φ s - φ' s) = vec ds φ - vec ds φ' from rfl, star_sub, sub_dotProduct]

/-- expected values of near wave functions -/
theorem expect_near {ds : List Nat} {A : (List Nat → ℂ) → List Nat → ℂ} {o : ℝ} (ho : OpNormLe ds A o)
    (hlin : ∀ φ χ, A (fun s => φ s - χ s) = fun s => A φ s - A χ s) (φ χ : List Nat → ℂ) :
    ‖MPS.inner ds φ (A φ) - MPS.inner ds χ (A χ)‖ ≤ o * (wnorm ds φ + wnorm ds χ) * wdist ds φ χ := by
  have e : MPS.inner ds φ (A φ) - MPS.inner ds χ (A χ) =
      MPS.inner ds (fun s => φ s - χ s) (A φ) + MPS.inner ds χ (A fun s => φ s - χ s) := by
    rw [hlin, inner_sub_left', inner_sub_right']; ring
  rw [e]
  refine (norm_add_le _ _).trans ?_
  have h1 := inner_le ds (fun s => φ s - χ s) (A φ)
  have h2 := inner_le ds χ (A fun s => φ s - χ s)
  have h3 := mul_le_mul_of_nonneg_left (ho φ) (wnorm_nonneg ds fun s => φ s - χ s)
  have h4 := mul_le_mul_of_nonneg_left (ho fun s => φ s - χ s) (wnorm_nonneg ds χ)
  unfold wdist
  nlinarith [h1, h2, h3, h4]

theorem actSite_sub (d : Nat) (op : Tensor ℂ) (k : Nat) (φ χ : List Nat → ℂ) :
    actSite d op k (fun s => φ s - χ s) = fun s => actSite d op k φ s - actSite d op k χ s := by
  funext s; simp only [actSite, mul_sub, Finset.sum_sub_distrib]

/-- with a Hermitian Hamiltonian the energy of the exact evolution is constant -/
theorem exact_energy {H : Ham ℂ} {ds : List Nat} (hh : HamHermitian H ds) (dt : ℝ) {φ χ : List Nat → ℂ} (h : Exact H ds dt φ χ) :
    MPS.inner ds χ (actOp ds (chainElt H ds) χ) = MPS.inner ds φ (actOp ds (chainElt H ds) φ) := by
  rw [inner_vec, inner_vec, vec_actOp, vec_actOp, h]
  change star (_ *ᵥ _) ⬝ᵥ (hamMat H ds *ᵥ _) = star _ ⬝ᵥ (hamMat H ds *ᵥ _)
  have hc : Commute (hamMat H ds) (NormedSpace.exp ((-Complex.I * (dt : ℂ)) • hamMat H ds)) := by
    letI : NormedRing (Matrix (Cfg ds) (Cfg ds) ℂ) := Matrix.linftyOpNormedRing
    letI : NormedAlgebra ℂ (Matrix (Cfg ds) (Cfg ds) ℂ) := Matrix.linftyOpNormedAlgebra
    letI : NormedAlgebra ℚ (Matrix (Cfg ds) (Cfg ds) ℂ) := NormedAlgebra.restrictScalars ℚ ℂ _
    exact ((Commute.refl (hamMat H ds)).smul_right _).exp_right
  rw [mulVec_mulVec, hc.eq, ← mulVec_mulVec, star_mulVec, ← dotProduct_mulVec, mulVec_mulVec, exact_unitary hh, one_mulVec]

theorem actOp_chain {H : Ham ℂ} {ds : List Nat} (φ : List Nat → ℂ) {s : List Nat} (hs : IsCfg ds s) :
    actOp ds (chainElt H ds) φ s = ∑ k ∈ Finset.range ds.length, actSite (ds.getD k 0) (H.loc k) k φ s +
      ∑ k ∈ Finset.range (ds.length - 1), actPair (ds.getD k 0) (ds.getD (k + 1) 0) (H.inter k) k φ s := by
  have e : actOp ds (chainElt H ds) φ s = ∑ k ∈ Finset.range ds.length, actOp ds (embed1 ds.length k (H.loc k)) φ s +
      ∑ k ∈ Finset.range (ds.length - 1), actOp ds (embed2 ds.length (ds.getD k 0) k (H.inter k)) φ s := by
    unfold actOp
    rw [← sumCfg_sum, ← sumCfg_sum, ← sumCfg_add]
    refine sumCfg_congr fun t _ => ?_
    rw [chainElt, add_mul, Finset.sum_mul, Finset.sum_mul]
  rw [e]
  congr 1
  · exact Finset.sum_congr rfl fun k hk => actOp_embed1 (Finset.mem_range.1 hk) _ _ hs
  · exact Finset.sum_congr rfl fun k hk => actOp_embed2 (by have := Finset.mem_range.1 hk; omega) _ _ hs

theorem actPair_splits {H : Ham ℂ} {ds : List Nat} (hS : Splits H ds) {k : Nat} (hk : k + 1 < ds.length) (φ : List Nat → ℂ)
    {s : List Nat} (hs : IsCfg ds s) : actPair (ds.getD k 0) (ds.getD (k + 1) 0) (H.inter k) k φ s =
      ∑ n ∈ Finset.range (H.depth k), actSite (ds.getD k 0) (H.left k n) k (actSite (ds.getD (k + 1) 0) (H.right k n) (k + 1) φ) s := by
  have h1 : s.getD k 0 < ds.getD k 0 := isCfg_getD hs (by omega)
  have h2 : s.getD (k + 1) 0 < ds.getD (k + 1) 0 := isCfg_getD hs hk
  unfold actPair actSite
  symm
  rw [Finset.sum_comm]
  refine Finset.sum_congr rfl fun i hi => ?_
  simp only [Finset.mul_sum]
  rw [Finset.sum_comm]
  refine Finset.sum_congr rfl fun j hj => ?_
  rw [hS k hk _ _ _ _ h1 (Finset.mem_range.1 hi) h2 (Finset.mem_range.1 hj), Finset.sum_mul]
  refine Finset.sum_congr rfl fun n _ => ?_
  have e : (s.set k i).getD (k + 1) 0 = s.getD (k + 1) 0 := by
    simp [List.getElem?_set]
  rw [e]; ring

/-- the energy returned by `expected(psi, H, t)` on an open chain is that of the operator `chainElt` -/
theorem energy_chain {H : Ham ℂ} {ds : List Nat} (hH : HamFits H ds) (hT : HamTerms H ds False) (hper : H.periodic = false) (hS : Splits H ds)
    {P : List (Tensor ℂ)} (hP : IsMPS ds P) : energy P H = some (MPS.inner ds (amp P) (actOp ds (chainElt H ds) (amp P))) := by
  have hH' : HamTerms H ds (H.periodic = true ∧ 1 < ds.length) :=
    ⟨hT.size, hT.loc, hT.left, hT.right, by simp [hper], by simp [hper]⟩
  rw [C38_energy hP hH', if_neg (by simp [hper]), add_zero]
  congr 1
  have hE : ∀ k, k < ds.length → localEnergy ds H (amp P) k =
      sumCfg ds (fun s => star (amp P s) * actSite (ds.getD k 0) (H.loc k) k (amp P) s) := by
    intro k hk
    obtain ⟨-, D, hW⟩ := hP
    obtain ⟨a, b, -, -, -, -, hd, -⟩ := around_any hW hk
    rw [localEnergy, not_isEmpty (hH.loc k hk) hd]
    rfl
  rw [Finset.sum_congr rfl fun k hk => hE k (Finset.mem_range.1 hk)]
  simp only [bondEnergy, corr, MPS.inner]
  simp only [← sumCfg_sum]
  rw [← sumCfg_add]
  refine sumCfg_congr fun s hs => ?_
  rw [actOp_chain _ hs, mul_add, Finset.mul_sum, Finset.mul_sum]
  congr 1
  refine Finset.sum_congr rfl fun k hk => ?_
  rw [actPair_splits hS (by have := Finset.mem_range.1 hk; omega) _ hs, Finset.mul_sum]

/-- `Q 0, …, Q n` as in C131, from a state of norm one, and a solution `ψ` of Schrödinger's equation with the same initial state.  With
`ε = 2 Σ E + n (bound + 2 κ)`, the bound of C131 for the distance: the expected values of one-site and two-site operators computed
with `Q n` differ from the exact ones by `2 ‖op‖ ε` at most, and the energy of `Q n` from that of `Q 0` by `2 ‖H‖ ε` at most. -/
def RunExpected (svd : Tensor ℂ → SvdRes ℂ) (eps dflt : ℝ) (single : Bool) (tolerance : ℝ) (S : Solver) (H : Ham ℂ)
    (ds : List Nat) (Ok : Nat → List (Tensor ℂ) → Prop) (D : Nat → Nat) (layers : Nat) (δ : ℝ) (bound : ℝ → ℝ) : Prop :=
  ∀ dt : ℝ, |dt| < δ → ∃ U, S.unitaries matrixExp H dt = some U ∧
  ∀ (normalize : Bool) (Dmax n : Nat) (Q : Nat → List (Tensor ℂ)) (E : Nat → ℝ), Ok Dmax (Q 0) → Dmax ≠ 0 → normSq ds (Q 0) = 1 →
    DefaultRun svd eps dflt single tolerance S U normalize Dmax n Q E →
    ∀ ε : ℝ, ε = 2 * ∑ i ∈ Finset.range n, E i + n * (bound dt + 2 * (layers * (2 * ds.length * Real.sqrt (D Dmax * max dflt eps)))) →
    (∀ ψ : ℝ → List Nat → ℂ, Schroedinger H ds 1 ψ → (∀ s, IsCfg ds s → ψ 0 s = amp (Q 0) s) →
      (∀ (op : Tensor ℂ) (k : Nat) (o : ℝ), k < ds.length → op.dims = [ds.getD k 0, ds.getD k 0] →
        OpNormLe ds (actSite (ds.getD k 0) op k) o →
        ∃ v, expected1 (Q n) op k = some v ∧
          ‖v - MPS.inner ds (ψ (n * dt)) (actSite (ds.getD k 0) op k (ψ (n * dt)))‖ ≤ 2 * o * ε) ∧
      (∀ (op1 op2 : Tensor ℂ) (j k : Nat) (o : ℝ), j < ds.length → k < ds.length → op1.dims = [ds.getD j 0, ds.getD j 0] →
        op2.dims = [ds.getD k 0, ds.getD k 0] →
        OpNormLe ds (fun φ => actSite (ds.getD j 0) op1 j (actSite (ds.getD k 0) op2 k φ)) o →
        ∃ v, expected2 (Q n) op1 j op2 k = some v ∧ ‖v - corr ds (ψ (n * dt)) op1 j op2 k‖ ≤ 2 * o * ε)) ∧
    (∀ h : ℝ, OpNormLe ds (actOp ds (chainElt H ds)) h → HamTerms H ds False → H.periodic = false → Splits H ds →
      ∃ e₀ e, energy (Q 0) H = some e₀ ∧ energy (Q n) H = some e ∧ ‖e - e₀‖ ≤ 2 * h * ε)

theorem runExpected_of {svd : Tensor ℂ → SvdRes ℂ} (hg : GoodSvd svd) {eps : ℝ} {dflt : ℝ} (hd0 : 0 < dflt) (single : Bool)
    (tolerance : ℝ) {S : Solver} {ls : List (Nat × ℂ)} {ds : List Nat} {D : Nat → Nat} (h : SimpCalls eps dflt S ls ds D)
    {Ok : Nat → List (Tensor ℂ) → Prop} (hOk : ∀ Dmax P, Dmax ≠ 0 → (Ok Dmax P ↔ 1 ≤ D Dmax ∧ AnyEndUpTo ds (D Dmax) P))
    {H : Ham ℂ} (hH : HamFits H ds) (hh : HamHermitian H ds) {layers : Nat} {δ : ℝ} {c : ℝ → ℝ}
    (hr : DefaultRunError svd eps dflt single tolerance S H ds Ok D layers δ c) :
    RunExpected svd eps dflt single tolerance S H ds Ok D layers δ c := by
  intro dt hdt
  obtain ⟨U, u1, hrun⟩ := hr dt hdt
  obtain ⟨U', u1', u2⟩ := unitaries_exist exists_goodExpm hH dt S h.parity
  obtain rfl : U = U' := by rw [u1] at u1'; simpa using u1'
  have hstep := step_pot hg hd0 single tolerance h hOk exists_goodExpm hH hh dt u2
  refine ⟨U, u1, fun nm Dmax n Q E h0 hD hN hQ ε hε => ?_⟩
  obtain ⟨hn, hdist⟩ := hrun nm Dmax n Q E h0 hD hQ
  have n0 : wnorm ds (amp (Q 0)) = 1 := by rw [wnorm_sq, hN, Real.sqrt_one]
  have hnorm : ∀ m ≤ n, Ok Dmax (Q m) ∧ wnorm ds (amp (Q m)) ≤ 1 := by
    intro m
    induction m with
    | zero => exact fun _ => ⟨h0, n0.le⟩
    | succ m ih =>
      intro hm
      obtain ⟨r1, r2⟩ := ih (by omega)
      obtain ⟨y, s, s', d1, d2, -⟩ := hQ m (by omega)
      obtain ⟨y', s'', e1, e2, -, -, e6⟩ := hstep (Q m) s nm Dmax r1 hD
      rw [d1] at e1
      obtain ⟨rfl, -⟩ : y = y' ∧ s' = s'' := by simpa using e1
      rw [d2]
      exact ⟨e2, (e6 r2).1⟩
  have nn := (hnorm n le_rfl).2
  have mps : ∀ P, Ok Dmax P → IsMPS ds P := by
    intro P hP
    obtain ⟨⟨s, hs⟩, -⟩ := ((hOk Dmax P hD).1 hP).2
    exact ⟨hs.nonempty, 1, hs.wf⟩
  have near : ∀ ψ : ℝ → List Nat → ℂ, Schroedinger H ds 1 ψ → (∀ s, IsCfg ds s → ψ 0 s = amp (Q 0) s) →
      ∀ (A : (List Nat → ℂ) → List Nat → ℂ) (o : ℝ), OpNormLe ds A o → (∀ φ χ, A (fun s => φ s - χ s) = fun s => A φ s - A χ s) →
      ‖MPS.inner ds (amp (Q n)) (A (amp (Q n))) - MPS.inner ds (ψ (n * dt)) (A (ψ (n * dt)))‖ ≤ 2 * o * ε := by
    intro ψ hψ hi A o ho hlin
    have hex : Exact H ds ((n * dt : ℝ) : ℂ) (amp (Q 0)) (ψ (0 + n * dt)) := exact_of_schroedinger hψ 0 (n * dt) (by simp) hi
    rw [zero_add] at hex
    have n1 := exact_norm hh _ hex
    rw [n0] at n1
    have t := expect_near ho hlin (amp (Q n)) (ψ (n * dt))
    have hd := (hdist ψ hψ hi).2 hN
    rw [← hε] at hd
    have o0 : 0 ≤ o := by
      have := (wnorm_nonneg ds _).trans (ho (amp (Q 0)))
      rw [n0, mul_one] at this; exact this
    rw [n1] at t
    have d0 : 0 ≤ wdist ds (amp (Q n)) (ψ (n * dt)) := wnorm_nonneg _ _
    calc _ ≤ o * (wnorm ds (amp (Q n)) + 1) * wdist ds (amp (Q n)) (ψ (n * dt)) := t
      _ ≤ o * (1 + 1) * ε := by gcongr
      _ = 2 * o * ε := by ring
  refine ⟨fun ψ hψ hi => ⟨fun op k o hk hop ho => ?_, fun op1 op2 j k o hj hk h1 h2 ho => ?_⟩, fun o ho hT hper hS => ?_⟩
  · refine ⟨_, C04_expected (mps _ hn) op k ⟨by omega, by omega⟩ k (by rw [if_neg (by omega)]) hop, ?_⟩
    exact near ψ hψ hi _ o ho fun φ χ => actSite_sub _ _ _ φ χ
  · refine ⟨_, C05_expected2_nonneg (mps _ hn) op1 op2 j k hj hk h1 h2, ?_⟩
    exact near ψ hψ hi (fun φ => actSite (ds.getD j 0) op1 j (actSite (ds.getD k 0) op2 k φ)) o ho fun φ χ => by
      rw [actSite_sub, actSite_sub]
  · refine ⟨_, _, energy_chain hH hT hper hS (mps _ h0), energy_chain hH hT hper hS (mps _ hn), ?_⟩
    obtain ⟨ψ, hψ, hi⟩ := schroedinger_exists H ds 1 (amp (Q 0))
    have t := near ψ hψ hi _ o ho fun φ χ => by
      funext s
      simp only [actOp, mul_sub, sumCfg_cfg, Finset.sum_sub_distrib]
    have hex : Exact H ds ((n * dt : ℝ) : ℂ) (amp (Q 0)) (ψ (0 + n * dt)) := exact_of_schroedinger hψ 0 (n * dt) (by simp) hi
    rw [zero_add] at hex
    rwa [exact_energy hh _ hex] at t

/-- **C133**: expected values and energy along a simulation with the default strategy, `Trotter2Solver` and `Trotter3Solver` -/
theorem C133_expected {svd : Tensor ℂ → SvdRes ℂ} (hg : GoodSvd svd) {eps : ℝ} (heps : 0 < eps) {dflt : ℝ} (hd0 : 0 < dflt) (single : Bool)
    (tolerance : ℝ) {H : Ham ℂ} {ds : List Nat} (hH : HamFits H ds) (hh : HamHermitian H ds) :
    (∃ C δ : ℝ, 0 < δ ∧ RunExpected svd eps dflt single tolerance (trotter2 eps) H ds (AnyEndUpTo ds) id 2 δ fun dt => C * |dt| ^ 2) ∧
    (∃ C δ : ℝ, 0 < δ ∧ RunExpected svd eps dflt single tolerance (trotter3 eps) H ds (AnyEndUpTo ds) id 3 δ fun dt => C * |dt| ^ 3) := by
  obtain ⟨⟨C, δ, h1, h2⟩, C', δ', h3, h4⟩ := C131_runs hg heps hd0 single tolerance hH hh
  exact ⟨⟨C, δ, h1, runExpected_of hg hd0 single tolerance (simpCalls2 heps dflt ds) (ok23 ds) hH hh h2⟩,
    ⟨C', δ', h3, runExpected_of hg hd0 single tolerance (simpCalls3 heps dflt ds) (ok23 ds) hH hh h4⟩⟩

/-- **C133** for `ForestRuthSolver`, with the constants of C131 -/
theorem C133_forest_ruth {svd : Tensor ℂ → SvdRes ℂ} (hg : GoodSvd svd) (eps : ℝ) {dflt : ℝ} (hd0 : 0 < dflt) (single : Bool)
    (tolerance : ℝ) {H : Ham ℂ} {ds : List Nat} (hH : HamFits H ds) (hh : HamHermitian H ds) (hN : 2 ≤ ds.length) :
    ∃ C₃ C δ : ℝ, 0 < δ ∧
      (∀ dt : ℝ, |dt| < δ → ∀ ψ : ℝ → List Nat → ℂ, Schroedinger H ds 1 ψ →
        wdist ds (layerSteps matrixExp H ds dt steps3 (ψ 0)) (ψ dt) ≤ C₃ * |dt| ^ 3 * wnorm ds (ψ 0)) ∧
      RunExpected svd eps dflt single tolerance forestRuth H ds (fun _ => AnyEnd ds) (fun _ => ds.prod) 7 δ
        fun dt => 1e-13 * C₃ * |dt| ^ 3 + C * |dt| ^ 5 := by
  obtain ⟨C3, C, δ, h1, h2, h3⟩ := C131_forest_ruth hg eps hd0 single tolerance hH hh hN
  exact ⟨C3, C, δ, h1, h2, runExpected_of hg hd0 single tolerance (simpCallsFR eps hd0 hN) (okFR ds) hH hh h3⟩

/-- every linear operator has a norm: bounds as in C133 exist, for the Hamiltonian and for one-site operators -/
theorem C133_bounded (ds : List Nat) : (∀ O, ∃ o, OpNormLe ds (actOp ds O) o) ∧
    ∀ (op : Tensor ℂ) (k : Nat), k < ds.length → ∃ o, OpNormLe ds (actSite (ds.getD k 0) op k) o := by
  have h1 : ∀ O, ∃ o, OpNormLe ds (actOp ds O) o := by
    intro O
    let L := (Matrix.toEuclideanLin (opMat ds O)).toContinuousLinearMap
    refine ⟨‖L‖, fun φ => ?_⟩
    rw [wnorm_euclid, wnorm_euclid, vec_actOp]
    exact L.le_opNorm (WithLp.toLp 2 (vec ds φ))
  refine ⟨h1, fun op k hk => ?_⟩
  obtain ⟨o, ho⟩ := h1 (embed1 ds.length k op)
  refine ⟨o, fun φ => ?_⟩
  rw [← wnorm_congr (φ := actOp ds (embed1 ds.length k op) φ)]
  · exact ho φ
  · funext s
    exact actOp_embed1 hk op φ s.cfg

/-- the interaction of `pairHam`, with its factors -/
noncomputable def pairHamSplit : Ham ℂ :=
  { pairHam with depth := fun _ => 1, left := fun _ _ => ⟨[2, 2], fun _ => 1⟩, right := fun _ _ => ⟨[2, 2], fun _ => 1⟩ }

/-- the hypotheses of the clause about the energy are met; states and runs as in the example for C131 -/
example : HamFits pairHamSplit [2, 2] ∧ HamHermitian pairHamSplit [2, 2] ∧ HamTerms pairHamSplit [2, 2] False ∧
    pairHamSplit.periodic = false ∧ Splits pairHamSplit [2, 2] := by
  refine ⟨⟨pairHam_fits.size, pairHam_fits.dim, pairHam_fits.loc, pairHam_fits.inter⟩, ⟨pairHam_hermitian.loc, pairHam_hermitian.inter⟩,
    ⟨rfl, fun k hk => Or.inr (pairHam_fits.loc k hk), fun k n hk hn => ?_, fun k n hk hn => ?_, False.elim, False.elim⟩, rfl, ?_⟩
  · obtain rfl : k = 0 := by simp at hk; omega
    rfl
  · obtain rfl : k = 0 := by simp at hk; omega
    rfl
  · intro k hk i i' j j' _ _ _ _
    simp [pairHamSplit, pairHam]

end MPS.Props
