import Verif.Props.ITebdProps3
import Verif.Props.HamProps
import Mathlib.Tactic.IntervalCases

/-!
# C85: a state for which the ways to compute expected values disagree
-/

set_option linter.unusedSectionVars false

namespace MPS.Props
open MPS Tensor ITebd

noncomputable def dimerA : Tensor ℝ := ⟨[1, 2, 2], fun i => if i = [0, 0, 0] ∨ i = [0, 1, 1] then 1 else 0⟩
noncomputable def dimerB : Tensor ℝ := ⟨[2, 2, 1], fun i => if i = [0, 0, 0] then 1 else 0⟩
noncomputable def onesVec (n : Nat) : Tensor ℝ := ⟨[n], fun _ => 1⟩

/-- all spins down, written with a superfluous component `Γ_A` of the bond inside of the cell -/
noncomputable def dimer : State ℝ := State.ofParts dimerA (onesVec 2) dimerB (onesVec 1) true

theorem dimer_ok : Ok dimer := by
  refine ⟨rfl, rfl, ?_, ?_, rfl, rfl, rfl, rfl, ?_, rfl, rfl⟩
  · intro d hd
    simp [dimer, State.ofParts, dimerA] at hd
    omega
  · intro d hd
    simp [dimer, State.ofParts, dimerB] at hd
    omega
  · intro a
    simp [dimer, State.ofParts, onesVec]

noncomputable def up : Tensor ℝ := ⟨[2, 2], fun i => if i = [1, 1] then 1 else 0⟩

theorem cfg_cons_cons {d e : Nat} {ds s : List Nat} (h : IsCfg (d :: e :: ds) s) :
    ∃ x y t, s = x :: y :: t ∧ x < d ∧ y < e ∧ IsCfg ds t := by
  cases h with
  | cons h1 h2 => cases h2 with
    | cons h3 h4 => exact ⟨_, _, _, rfl, h1, h3, h4⟩

theorem dimer_amp (n : Nat) : ∀ b < (dimer.matrix (0 + n)).dim 0, IsCfg (winDims dimer 0 n) (List.replicate (n - n % 2) 0 ++ List.replicate (n % 2) b) ∧
    ∀ s, IsCfg (winDims dimer 0 n) s → winAmp dimer 0 n 0 b s =
      if List.replicate (n - n % 2) 0 ++ List.replicate (n % 2) b = s then 1 else 0 := by
  have a0 : ∀ i, (siteT dimer 0).get i = if i = [0, 0, 0] ∨ i = [0, 1, 1] then 1 else 0 := by
    intro i; simp [siteT, State.matrix, dimer, State.ofParts, scale, dimerA, State.rightVector, onesVec]
  have a1 : ∀ i, (siteT dimer 1).get i = if i = [0, 0, 0] then 1 else 0 := by
    intro i; simp [siteT, State.matrix, dimer, State.ofParts, scale, dimerB, State.rightVector, onesVec]
  have d0 : (siteT dimer 0).dim 2 = 2 := rfl
  have d1 : (siteT dimer 1).dim 2 = 1 := rfl
  have l0 : ∀ i, (dimer.leftVector 0).get i = 1 := fun _ => rfl
  induction n using Nat.strong_induction_on with
  | _ n ih =>
    match n with
    | 0 =>
      intro b hb
      have hb : b = 0 := by
        have : (dimer.matrix (0 + ((0 : Nat) : Int))).dim 0 = 1 := rfl
        omega
      subst hb
      refine ⟨List.Forall₂.nil, fun s hs => ?_⟩
      cases hs
      simp [winAmp, window, path_nil, l0]
    | 1 =>
      intro b hb
      have hb : b < 2 := hb
      refine ⟨List.Forall₂.cons hb List.Forall₂.nil, fun s hs => ?_⟩
      cases hs with
      | cons h1 h2 =>
        cases h2
        rename_i x
        have h1 : x < 2 := h1
        have w : window dimer 0 1 = [siteT dimer 0] := rfl
        interval_cases x <;> interval_cases b <;> simp [winAmp, w, path_cons, path_nil, d0, a0, l0, Finset.sum_range_succ]
    | n + 2 =>
      intro b hb
      have e1 : winDims dimer 0 (n + 2) = 2 :: 2 :: winDims dimer 0 n := by
        rw [winDims_succ, winDims_succ]
        rw [winDims_shift dimer (p := 0 + 1 + 1) (q := 0) (by omega)]
        rfl
      have e2 : window dimer 0 (n + 2) = siteT dimer 0 :: siteT dimer 1 :: window dimer 0 n := by
        rw [window_succ, window_succ, window_shift dimer (p := 0 + 1 + 1) (q := 0) (by omega)]
        rfl
      have e3 : (n + 2) % 2 = n % 2 := by omega
      have hb' : b < (dimer.matrix (0 + n)).dim 0 := by
        rw [matrix_parity dimer (p := 0 + n) (q := 0 + (n + 2 : Nat)) (by push_cast; omega)]; exact hb
      obtain ⟨i1, i2⟩ := ih n (by omega) b hb'
      have e4 : List.replicate (n + 2 - (n + 2) % 2) 0 ++ List.replicate ((n + 2) % 2) b =
          0 :: 0 :: (List.replicate (n - n % 2) 0 ++ List.replicate (n % 2) b) := by
        rw [e3, show n + 2 - n % 2 = (n - n % 2) + 1 + 1 by omega, List.replicate_succ, List.replicate_succ]
        rfl
      rw [e4, e1]
      refine ⟨List.Forall₂.cons (by norm_num) (List.Forall₂.cons (by norm_num) i1), fun s hs => ?_⟩
      obtain ⟨x, y, s, rfl, h1, h3, h4⟩ := cfg_cons_cons hs
      have i2 := i2 s h4
      unfold winAmp at i2 ⊢
      rw [l0, one_mul] at i2 ⊢
      rw [e2, path_cons, d0]
      simp only [path_cons, d1, Finset.sum_range_succ, Finset.sum_range_zero, zero_add, a0, a1, i2]
      by_cases c1 : x = 0
      · by_cases c2 : y = 0
        · simp [c1, c2]
        · simp [c1, c2, Ne.symm c2]
      · simp [c1, Ne.symm c1]

theorem dimer_form (n : Nat) (O : List Nat → List Nat → ℝ) : winForm dimer 0 n O =
    ∑ b ∈ Finset.range ((dimer.matrix (0 + n)).dim 0), O (List.replicate (n - n % 2) 0 ++ List.replicate (n % 2) b)
      (List.replicate (n - n % 2) 0 ++ List.replicate (n % 2) b) := by
  rw [winForm_basis dimer 0 n O (fun _ _ => 1) (fun _ b => List.replicate (n - n % 2) 0 ++ List.replicate (n % 2) b)]
  · have : (dimer.matrix 0).dim 0 = 1 := rfl
    rw [this, Finset.sum_range_one]
    simp
  · intro a ha b hb
    have ha : a = 0 := by
      have : (dimer.matrix 0).dim 0 = 1 := rfl
      omega
    subst ha
    exact dimer_amp n b hb

theorem dimer_expected (canon : State ℝ → State ℝ) : ITebd.expected2 canon dimer Tensor.empty 1 up 2 = 1 / 2 := by
  have h := C62_expected2 canon dimer dimer_ok (O1 := Tensor.empty) (O2 := up) (i := 1) (j := 2) (by omega) (Or.inl rfl) (Or.inr rfl)
  rw [h]
  have u : usedState canon dimer = dimer := rfl
  rw [u]
  have e1 : evenDown 1 = 0 := rfl
  have e2 : oddSites 1 2 = 3 := rfl
  rw [e1, e2, winExpect_value dimer_ok]
  unfold winValue
  rw [dimer_form, dimer_form]
  have m3 : (dimer.matrix (0 + (3 : Nat))).dim 0 = 2 := rfl
  rw [m3]
  simp [siteOps, tensorOp, Finset.prod_range_succ, oneElt, orOne, Tensor.isEmpty, Tensor.size, Tensor.empty, up, ones, eye]

theorem dimer_expected12 (canon : State ℝ → State ℝ) : expected12 canon dimer (kron2 (eye 2) up) 1 = 0 := by
  have h := C83_expected12 canon dimer dimer_ok (Op := kron2 (eye 2) up) 1 1 rfl rfl
  rw [h]
  have u : usedState canon dimer = dimer := rfl
  rw [u]
  unfold winValue
  rw [dimer_form]
  simp [widen, pairElt, kron2, kron, eye, up, dim, nrm]

theorem dimer_right : RightFixed dimer 0 2 1 := by
  intro a ha a' ha'
  have e : (dimer.matrix 0).dim 0 = 1 := rfl
  have ha : a = 0 := by omega
  have ha' : a' = 0 := by omega
  subst ha ha'
  have m2 : (dimer.matrix (0 + (2 : Nat))).dim 0 = 1 := rfl
  rw [m2, Finset.sum_range_one]
  obtain ⟨h1, h2⟩ := dimer_amp 2 0 (by rw [m2]; norm_num)
  have l0 : ∀ i, (dimer.leftVector 0).get i = 1 := fun _ => rfl
  simp only [winAmp, l0, one_mul] at h2
  rw [sumCfg_congr (G := fun s => if List.replicate (2 - 2 % 2) 0 ++ List.replicate (2 % 2) 0 = s then 1 else 0)
    fun s hs => by rw [h2 s hs]; split <;> simp]
  rw [sumCfg_pick _ (fun _ => (1 : ℝ)) h1]
  simp

theorem dimer_left : LeftFixed dimer 0 2 1 := by
  intro a ha a' ha'
  have e : (dimer.matrix (0 + (2 : Nat))).dim 0 = 1 := rfl
  have ha : a = 0 := by omega
  have ha' : a' = 0 := by omega
  subst ha ha'
  have m2 : (dimer.matrix 0).dim 0 = 1 := rfl
  rw [m2, Finset.sum_range_one]
  obtain ⟨h1, h2⟩ := dimer_amp 2 0 (by rw [e]; norm_num)
  have l0 : ∀ i, (dimer.leftVector (0 + (2 : Nat))).get i = 1 := fun _ => rfl
  rw [sumCfg_congr (G := fun s => if List.replicate (2 - 2 % 2) 0 ++ List.replicate (2 % 2) 0 = s then 1 else 0)
    fun s hs => by rw [h2 s hs]; split <;> simp]
  rw [sumCfg_pick _ (fun _ => (1 : ℝ)) h1, l0]
  simp

/-- **C85 is violated**: for a state flagged canonical and canonical at the bond between cells, the probability to find site 2 in the
state 1 is 0 in every window of complete cells, and this is what `expected12` returns, but `expected` returns 1/2. -/
theorem C85_violated (canon : State ℝ → State ℝ) : Ok dimer ∧ dimer.canonical = true ∧ LeftFixed dimer 0 2 1 ∧ RightFixed dimer 0 2 1 ∧
    (∀ l r : Nat, winValue dimer (-(2 * l)) (2 * l + 4 + 2 * r) (widen (2 * l + 1) 2 (pairElt 2 (kron2 (eye 2) up))) = 0) ∧
    expected12 canon dimer (kron2 (eye 2) up) 1 = 0 ∧ ITebd.expected2 canon dimer (eye 2) 1 up 2 = 1 / 2 := by
  refine ⟨dimer_ok, rfl, dimer_left, dimer_right, fun l r => ?_, dimer_expected12 canon, ?_⟩
  · have := C84_expected12 canon dimer dimer_ok dimer_left dimer_right one_ne_zero one_ne_zero (Op := kron2 (eye 2) up) 1 1 rfl rfl l r
    rw [dimer_expected12] at this
    exact this.symm
  · rw [← dimer_expected canon, C62_expected2 canon dimer dimer_ok (by omega) (Or.inr rfl) (Or.inr rfl),
      C62_expected2 canon dimer dimer_ok (by omega) (Or.inl rfl) (Or.inr rfl), show usedState canon dimer = dimer from rfl, winExpect_value dimer_ok,
      winExpect_value dimer_ok]
    refine congrArg _ (siteOps_congr fun k hk => ?_)
    split
    · rename_i h1
      rw [h1]
      rfl
    · rfl

variable {K : Type} [RCLike K]

/-- **C85**: in states which are left- and right-canonical at both bonds, `expected12` of a product is the `expected` value of its
factors -/
theorem C85_expected12_partial (canon : State K → State K) (psi : State K) (h : Ok (usedState canon psi))
    (hr : RightCanonical (usedState canon psi)) (hl : LeftCanonical (usedState canon psi)) {O1 O2 : Tensor K} (site : Int)
    (h1 : O1.dims = [((usedState canon psi).matrix site).dim 1, ((usedState canon psi).matrix site).dim 1])
    (h2 : O2.dims = [((usedState canon psi).matrix (site + 1)).dim 1, ((usedState canon psi).matrix (site + 1)).dim 1]) :
    expected12 canon psi (kron2 O1 O2) site = ITebd.expected2 canon psi O1 site O2 (site + 1) := by
  obtain ⟨k, hk⟩ : ∃ k : Nat, site % 2 = k := ⟨(site % 2).toNat, by omega⟩
  have m0 : (usedState canon psi).matrix site = (usedState canon psi).matrix k := matrix_parity _ (by omega)
  have m1 : (usedState canon psi).matrix (site + 1) = (usedState canon psi).matrix (k + 1) := matrix_parity _ (by omega)
  rw [C83_expected12 canon psi h site k hk (by rw [kron2_dims h1 h2, m0, m1])]
  unfold ITebd.expected2
  rw [C85_string_order_partial canon psi h hr hl (i := site) (j := site + 1) (by omega) (Or.inr h1) (Or.inr h2)
    (fun _ _ _ => Or.inl rfl) site 2 (le_refl _) (by push_cast; omega)]
  generalize usedState canon psi = phi at *
  have hw := winValue_widen h 0 k 2 k (hl.block h k _) (hr.block h k _) one_ne_zero one_ne_zero (pairElt ((phi.matrix k).dim 1) (kron2 O1 O2))
  rw [show 2 + 2 * k = k + 2 + k by ring, hw, winExpect_value h, winValue_shift phi (p := site) (q := 0 + k) (by omega)]
  refine winValue_congr phi _ _ fun s hs t ht => ?_
  have w : winDims phi (0 + k) 2 = [(phi.matrix k).dim 1, (phi.matrix (k + 1)).dim 1] := by
    simp [winDims, List.range_succ]
  rw [w] at hs ht
  obtain ⟨i, j, rfl, hi, hj⟩ := cfg_two hs
  obtain ⟨i', j', rfl, hi', hj'⟩ := cfg_two ht
  have e1 := orOne_dims h1 (by rw [m0]; exact (h.dims k).2.2.1)
  have e2 := orOne_dims h2 (by rw [m1]; exact (h.dims (k + 1)).2.2.1)
  rw [m0] at h1
  unfold pairElt siteOps tensorOp
  simp only [List.getD_cons_zero, List.getD_cons_succ, Finset.prod_range_succ, Finset.prod_range_zero, one_mul]
  rw [kron2_get h1 hi hi']
  unfold placed
  rw [if_pos (by simp), if_neg (by simp), if_pos (by simp)]
  simp only [Nat.cast_zero, add_zero, Nat.cast_one]
  rw [e1, e2]

end MPS.Props
