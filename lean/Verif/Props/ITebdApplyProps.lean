import Verif.ITebdApplyLemmas2
import Verif.EckartYoung
import Verif.Props.ITebdCanonProps2

/-!
# C88: two-site operators acting on infinite states
-/

set_option linter.unusedSectionVars false
set_option linter.unusedSimpArgs false

namespace MPS.Props
open MPS Tensor ITebd
open scoped Matrix
variable {K : Type} [RCLike K]

/-- one cell in front of a window -/
theorem path_cell {psi : State K} {D d E e : Nat} (h : Dims psi D d E e) (n : Nat) (i j : Nat) (s : List Nat) {a b : Nat} (_ha : a < D) :
    path (window psi 0 (2 * (n + 1))) (i :: j :: s) a b =
      ∑ c ∈ Finset.range D, path (window psi 0 2) [i, j] a c * path (window psi 0 (2 * n)) s c b := by
  have d1 : (siteT psi 0).dim 2 = E := dim2_of (show _ = [D, d, E] from h.A)
  have d2 : (siteT psi 1).dim 2 = D := dim2_of (show _ = [E, e, D] from h.B)
  have hw := window_cell psi 0
  have e0 : window psi 0 (2 * 0) = [] := rfl
  rw [e0] at hw
  rw [show (2 : Nat) = 2 * (0 + 1) from rfl, hw, show 2 * (0 + 1) = 2 from rfl, window_cell, path_cons, d1]
  simp only [path_cons, d1, d2, path_nil, Finset.mul_sum, Finset.sum_mul]
  rw [Finset.sum_comm]
  refine Finset.sum_congr rfl fun c hc => Finset.sum_congr rfl fun x _ => ?_
  rw [Finset.sum_eq_single_of_mem c hc]
  · rw [if_pos rfl]; ring
  · intro y _ hy; rw [if_neg hy]; ring

/-- an operator which acts on one cell acts on all of them -/
theorem apply_windows {psi phi : State K} {D d E F : Nat} (h : Dims psi D d E d) (h' : Dims phi D d F d) (hl : ∀ a < D, psi.lB.get [a] ≠ 0)
    (hlB : phi.lB = psi.lB) {O : List Nat → List Nat → K} {ρ : K}
    (hO : ∀ a < D, ∀ b < D, ∀ i < d, ∀ j < d, actOp [d, d] O (winAmp psi 0 2 a b) [i, j] = ρ * winAmp phi 0 2 a b [i, j])
    (n : Nat) {s : List Nat} (hs : IsCfg (winDims psi 0 (2 * n)) s) {a b : Nat} (ha : a < D) (hb : b < D) :
    actOp (winDims psi 0 (2 * n)) (cellsOp O) (winAmp psi 0 (2 * n) a b) s = ρ ^ n * winAmp phi 0 (2 * n) a b s := by
  have hd1 : psi.A.dim 1 = d := dim1_of h.A
  have hd2 : psi.B.dim 1 = d := dim1_of h.B
  have hO' : ∀ a < D, ∀ b < D, ∀ i < d, ∀ j < d, ∑ k ∈ Finset.range d, ∑ l ∈ Finset.range d, O [i, j] [k, l] *
      path (window psi 0 2) [k, l] a b = ρ * path (window phi 0 2) [i, j] a b := by
    intro a ha b hb i hi j hj
    have := hO a ha b hb i hi j hj
    rw [actOp, sumCfg_cons] at this
    simp only [sumCfg_cons, sumCfg, winAmp] at this
    rw [show phi.leftVector 0 = psi.lB from hlB, show psi.leftVector 0 = psi.lB from rfl] at this
    apply mul_left_cancel₀ (hl a ha)
    rw [← mul_assoc, mul_comm _ ρ, mul_assoc, ← this, Finset.mul_sum]
    refine Finset.sum_congr rfl fun k _ => ?_
    rw [Finset.mul_sum]
    exact Finset.sum_congr rfl fun l _ => by ring
  have key : ∀ (n : Nat) (s : List Nat), IsCfg (winDims psi 0 (2 * n)) s → ∀ a < D,
      sumCfg (winDims psi 0 (2 * n)) (fun t => cellsOp O s t * path (window psi 0 (2 * n)) t a b) = ρ ^ n * path (window phi 0 (2 * n)) s a b := by
    intro n
    induction n with
    | zero =>
      intro s hs a ha
      cases hs
      simp [sumCfg, winDims, window, cellsOp]
    | succ n ih =>
      intro s hs a ha
      rw [winDims_cell, hd1, hd2] at hs
      obtain ⟨i, j, s, rfl, hi, hj, hs⟩ : ∃ i j s', s = i :: j :: s' ∧ i < d ∧ j < d ∧ IsCfg (winDims psi 0 (2 * n)) s' := by
        cases hs with | cons h1 h2 => cases h2 with | cons h2 h3 => exact ⟨_, _, _, rfl, h1, h2, h3⟩
      rw [winDims_cell, hd1, hd2, sumCfg_cons, path_cell h' n i j s ha]
      simp only [sumCfg_cons, cellsOp, path_cell h n _ _ _ ha]
      calc _ = ∑ k ∈ Finset.range d, ∑ l ∈ Finset.range d, ∑ c ∈ Finset.range D, O [i, j] [k, l] * path (window psi 0 2) [k, l] a c *
              sumCfg (winDims psi 0 (2 * n)) (fun t => cellsOp O s t * path (window psi 0 (2 * n)) t c b) := by
            refine Finset.sum_congr rfl fun k _ => Finset.sum_congr rfl fun l _ => ?_
            rw [sumCfg_congr (fun t _ => by rw [Finset.mul_sum]), sumCfg_sum]
            refine Finset.sum_congr rfl fun c _ => ?_
            rw [← sumCfg_mul_left]
            exact sumCfg_congr fun t _ => by ring
        _ = ∑ c ∈ Finset.range D, (∑ k ∈ Finset.range d, ∑ l ∈ Finset.range d, O [i, j] [k, l] * path (window psi 0 2) [k, l] a c) *
              (ρ ^ n * path (window phi 0 (2 * n)) s c b) := by
            rw [Finset.sum_congr rfl fun k _ => Finset.sum_comm, Finset.sum_comm]
            refine Finset.sum_congr rfl fun c hc => ?_
            rw [Finset.sum_mul]
            refine Finset.sum_congr rfl fun k _ => ?_
            rw [Finset.sum_mul]
            exact Finset.sum_congr rfl fun l _ => by rw [ih s hs c (Finset.mem_range.1 hc)]
        _ = _ := by
            rw [Finset.mul_sum]
            refine Finset.sum_congr rfl fun c hc => ?_
            rw [hO' a ha c (Finset.mem_range.1 hc) i hi j hj]
            ring
  unfold actOp
  simp only [winAmp]
  rw [show phi.leftVector 0 = psi.lB from hlB, show psi.leftVector 0 = psi.lB from rfl, ← mul_assoc, mul_comm (ρ ^ n), mul_assoc, ← key n s hs a ha,
    ← sumCfg_mul_left]
  exact sumCfg_congr fun t _ => by ring

/-- nothing is dropped: the tolerance is zero (`MPS_TRUNCATE_ZEROS`) or at least one (`MPS_DO_NOT_TRUNCATE`) and the bond may grow -/
def KeepsAll (L : Lib K) (tol : ℝ) (M : Int) (n : Nat) : Prop :=
  (effTol L.dflt tol = 0 ∨ 1 ≤ effTol L.dflt tol) ∧ (M ≤ 0 ∨ (n : Int) ≤ M)

/-- the wave function of one cell after the operator `U` has acted on it -/
noncomputable def acted (psi : State K) (U : Tensor K) (a b : Nat) : List Nat → K :=
  actOp (winDims psi 0 2) (pairElt ((psi.matrix 0).dim 1) U) (winAmp psi 0 2 a b)

/-- C88, canonical state and even site -/
theorem C88_apply_operator {L : Lib K} (hg : GoodSvd L.svd) (hn : SortedSvd L.svd) (hd : 0 ≤ L.dflt) (tol : ℝ) (M : Int)
    {psi : State K} (hok : Ok psi) (hcan : psi.canonical = true) (site : Int) (hsite : site % 2 = 0) {D d : Nat}
    (hD : (psi.matrix 0).dim 0 = D) (hd0 : (psi.matrix 0).dim 1 = d) (hd1 : (psi.matrix 1).dim 1 = d)
    (hl : ∀ a < D, psi.lB.get [a] ≠ 0) {U : Tensor K} (hU : U.dims = [d * d, d * d])
    (hne : ∃ a b s, a < D ∧ b < D ∧ IsCfg (winDims psi 0 2) s ∧ acted psi U a b s ≠ 0) :
    ∃ phi c, applyOperator L psi U site tol M = some phi ∧ Ok phi ∧ phi.canonical = false ∧ phi.lB = psi.lB ∧
      phi.A.dims = [D, d, c] ∧ phi.B.dims = [c, d, D] ∧ c ≤ D * d ∧ (0 < M → (c : Int) ≤ M) ∧
      (∃ s : List ℝ, phi.lA = vecOf s ∧ ∀ x ∈ s, 0 ≤ x) ∧ cellNorm D d d (winAmp phi 0 2) = 1 ∧
      ∃ ρ : ℝ, 0 < ρ ∧
        (∀ (x : Nat → Nat → Nat → K) (y : Nat → Nat → Nat → K), cellNorm D d d (fun a b s => acted psi U a b s - (ρ : K) * winAmp phi 0 2 a b s) ≤
          cellNorm D d d fun a b s => acted psi U a b s - ∑ k ∈ Finset.range c, x a (s.getD 0 0) k * y k (s.getD 1 0) b) ∧
        (M = 0 → effTol L.dflt tol < 1 → cellNorm D d d (fun a b s => acted psi U a b s - (ρ : K) * winAmp phi 0 2 a b s) ≤
          max (effTol L.dflt tol) L.eps * cellNorm D d d (acted psi U)) ∧
        (KeepsAll L tol M (D * d) → ∀ (n : Nat) (s : List Nat), IsCfg (winDims psi 0 (2 * n)) s → ∀ a < D, ∀ b < D,
          actOp (winDims psi 0 (2 * n)) (cellsOp (pairElt d U)) (winAmp psi 0 (2 * n) a b) s = (ρ : K) ^ n * winAmp phi 0 (2 * n) a b s) := by
  have h : Dims psi D d (psi.A.dim 2) d := by
    have := hok.dims4
    rw [matrix0] at hD hd0
    rw [matrix1] at hd1
    rwa [hD, hd0, hd1] at this
  have hw : winDims psi 0 2 = [d, d] := by
    rw [winDims_two, dim1_of h.A, dim1_of h.B]
  have hact : ∀ a b, acted psi U a b = actOp [d, d] (pairElt d U) (winAmp psi 0 2 a b) := by
    intro a b; unfold acted; rw [hw, hd0]
  have hact' : acted psi U = fun a b => actOp [d, d] (pairElt d U) (winAmp psi 0 2 a b) := by
    funext a b; exact hact a b
  rw [hw] at hne
  simp only [hact'] at hne ⊢
  obtain ⟨phi, c, a1, a2, a3, a4, a5, a6, a7, a8, a9, a10, a11, ρ, a12, a13⟩ := apply_core hg hn hd tol M hok h hl hU hne
  have hS := hg (thetaMat psi U D d d) (D * d) (d * D) rfl (Nat.mul_pos h.hD h.hd) (Nat.mul_pos h.hd h.hD)
  have happ : applyOperator L psi U site tol M = some phi := by
    unfold applyOperator applyEven
    rw [if_neg (by omega), hcan]
    exact a1
  refine ⟨phi, c, happ, a3, a4, a5, a2.A, a2.B, a6, a7, a8, a10, ρ, a12, ?_, ?_, ?_⟩
  · intro x y
    rw [a13]
    have h0 : ∀ i, 0 ≤ (L.svd (thetaMat psi U D d d)).s.getD i 0 := by
      intro i
      rcases Nat.lt_or_ge i (L.svd (thetaMat psi U D d d)).s.length with h' | h'
      · rw [List.getD_eq_getElem _ _ h']; exact (hn _).1 _ (List.getElem_mem h')
      · rw [List.getD_eq_default _ _ h']
    refine le_trans (eckart_young hS h0 (hn _).2 c (fun i k => x (i % D) (i / D) k) (fun k j => y k (j % d) (j / d))) (le_of_eq ?_)
    rw [sum_pairs]
    unfold cellNorm
    refine Finset.sum_congr rfl fun a ha => Finset.sum_congr rfl fun i hi => Finset.sum_congr rfl fun j hj => Finset.sum_congr rfl fun b hb => ?_
    have ha := Finset.mem_range.1 ha
    have hj' := Finset.mem_range.1 hj
    rw [theta_spec hok h hU ha (Finset.mem_range.1 hi) hj' (Finset.mem_range.1 hb)]
    beta_reduce
    rw [Nat.add_mul_mod_self_left, Nat.mod_eq_of_lt ha, Nat.add_mul_div_left _ _ h.hD, Nat.div_eq_of_lt ha, zero_add,
      Nat.add_mul_mod_self_left, Nat.mod_eq_of_lt hj', Nat.add_mul_div_left _ _ h.hd, Nat.div_eq_of_lt hj', zero_add]
    rfl
  · intro hM ht
    rw [a13, a11, a9, hM]
    exact wtt_weight L.eps L.dflt _ tol hd ht
  · intro hk n s hs a ha b hb
    have hlen : (L.svd (thetaMat psi U D d d)).s.length = D * d := by rw [hS.lenS, mul_comm d D, min_self]
    have hz : discarded (L.svd (thetaMat psi U D d d)).s c = 0 := by
      rw [a9]
      exact wtt_keeps L.eps L.dflt _ tol M (by rw [hlen]; exact hk.2) hd hk.1
    rw [hz] at a13
    refine apply_windows h a2 hl a5 (fun a ha b hb i hi j hj => ?_) n hs ha hb
    have z1 := (Finset.sum_eq_zero_iff_of_nonneg (fun _ _ => Finset.sum_nonneg fun _ _ => Finset.sum_nonneg fun _ _ => Finset.sum_nonneg fun _ _ => by positivity)).1 a13 a
      (Finset.mem_range.2 ha)
    have z2 := (Finset.sum_eq_zero_iff_of_nonneg (fun _ _ => Finset.sum_nonneg fun _ _ => Finset.sum_nonneg fun _ _ => by positivity)).1 z1 i (Finset.mem_range.2 hi)
    have z3 := (Finset.sum_eq_zero_iff_of_nonneg (fun _ _ => Finset.sum_nonneg fun _ _ => by positivity)).1 z2 j (Finset.mem_range.2 hj)
    have z4 := (Finset.sum_eq_zero_iff_of_nonneg (fun _ _ => by positivity)).1 z3 b (Finset.mem_range.2 hb)
    have z5 := pow_eq_zero_iff (two_ne_zero) |>.1 z4
    rw [norm_eq_zero, sub_eq_zero] at z5
    exact z5

end MPS.Props
