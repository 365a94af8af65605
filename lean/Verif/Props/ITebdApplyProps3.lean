import Verif.Props.ITebdApplyProps2

/-!
# C88: examples
-/

set_option linter.unusedSectionVars false
set_option linter.unusedSimpArgs false

namespace MPS.Props
open MPS Tensor ITebd
variable {K : Type} [RCLike K]

/-- the operator `diag(1, 2, ..., 9)` on two spins 1 -/
noncomputable def ramp : Tensor ℝ := ⟨[3 * 3, 3 * 3], fun i => if i.getD 0 0 = i.getD 1 0 then (i.getD 0 0 : ℝ) + 1 else 0⟩

theorem aklt_ramp : actOp [3, 3] (pairElt 3 ramp) (winAmp (uniform akltT) 0 2 0 0) [1, 1] = 5 / 3 := by
  obtain ⟨x, hx⟩ : ∃ x, x = Real.sqrt (2 / 3) := ⟨_, rfl⟩
  obtain ⟨y, hy⟩ : ∃ y, y = Real.sqrt (1 / 3) := ⟨_, rfl⟩
  obtain ⟨hxx, hyy⟩ := aklt_xy hx hy
  have hd := uniform_dims (A := akltT) (d := 3) rfl (by norm_num)
  have hl : ∀ i, (uniform akltT).lA.get i = 1 := fun _ => rfl
  have hl' : ∀ i, (uniform akltT).lB.get i = 1 := fun _ => rfl
  unfold actOp
  rw [sumCfg_cons]
  simp only [sumCfg_cons, sumCfg, winAmp, cell_path2 hd (show 0 < 2 by norm_num), uniform_left, hl, hl']
  simp only [Finset.sum_range_succ, Finset.sum_range_zero, pairElt, ramp, show (uniform akltT).A = akltT from rfl, show (uniform akltT).B = akltT from rfl,
    aklt_get hx hy]
  norm_num
  nlinarith

/-- the hypotheses of `C88_apply_operator` are met by the AKLT state, flagged canonical as it is at both bonds -/
theorem C88_example : ∃ L : Lib ℝ, GoodSvd L.svd ∧ SortedSvd L.svd ∧ 0 ≤ L.dflt ∧ Ok akltC ∧ akltC.canonical = true ∧
    (akltC.matrix 0).dim 0 = 2 ∧ (akltC.matrix 0).dim 1 = 3 ∧ (akltC.matrix 1).dim 1 = 3 ∧ (∀ a < 2, akltC.lB.get [a] ≠ 0) ∧
    ramp.dims = [3 * 3, 3 * 3] ∧ (∃ a b s, a < 2 ∧ b < 2 ∧ IsCfg (winDims akltC 0 2) s ∧ acted akltC ramp a b s ≠ 0) ∧ KeepsAll L 0 0 (2 * 3) := by
  obtain ⟨svd, hsvd, hsort⟩ := exists_goodSvd_sorted (K := ℝ)
  refine ⟨⟨svd, fun A => ⟨A, []⟩, fun _ _ v => v, fun H => H, 0, 0⟩, hsvd, hsort, le_refl _, akltC_ok, rfl, rfl, rfl, rfl, ?_, rfl, ?_, ?_⟩
  · intro a _
    show (1 : ℝ) ≠ 0
    norm_num
  · refine ⟨0, 0, [1, 1], by norm_num, by norm_num, .cons (by decide) (.cons (by decide) .nil), ?_⟩
    have : acted akltC ramp 0 0 [1, 1] = 5 / 3 := aklt_ramp
    rw [this]; norm_num
  · exact ⟨Or.inl (by simp [effTol]), Or.inl (le_refl _)⟩

/-- the hypotheses of `C88_apply_anywhere` are met by the AKLT state, not canonical, and an odd site -/
theorem C88_example_odd : ∃ L : Lib ℝ, GoodSvd L.svd ∧ SortedSvd L.svd ∧ GoodEigSym L.eigSym ∧ 0 ≤ L.dflt ∧ Ok (uniform akltT) ∧
    ((uniform akltT).matrix 1).dim 0 = 2 ∧ (∀ a < 2, ((uniform akltT).leftVector 1).get [a] ≠ 0) ∧
    EigOk L ((uniform akltT).startingAt 1) 2 (-1) 1 1 ∧ EigOk L ((uniform akltT).startingAt 1) 2 1 1 1 ∧
    (∃ s a b, IsCfg (winDims (uniform akltT) 1 2) s ∧ a < 2 ∧ b < 2 ∧
      actOp (winDims (uniform akltT) 1 2) (pairElt 3 ramp) (winAmp (uniform akltT) 1 2 a b) s ≠ 0) ∧ KeepsAll L 0 0 (2 * 3) := by
  obtain ⟨svd, hsvd, hsort⟩ := exists_goodSvd_sorted (K := ℝ)
  obtain ⟨sym, hsym⟩ := exists_goodEigSym (K := ℝ)
  let L : Lib ℝ := ⟨svd, sym, fun _ _ _ => oneVec4, fun H => H, 0, 0⟩
  have hL : ∀ f n v, L.eigs f n v = oneVec4 := fun _ _ _ => rfl
  refine ⟨L, hsvd, hsort, hsym, le_refl _, aklt_ok, rfl, ?_, ⟨aklt_eig (-1), oneVec4_definite hL (-1)⟩, ⟨aklt_eig 1, oneVec4_definite hL 1⟩, ?_, ?_⟩
  · intro a _
    show (1 : ℝ) ≠ 0
    norm_num
  · refine ⟨[1, 1], 0, 0, .cons (by decide) (.cons (by decide) .nil), by norm_num, by norm_num, ?_⟩
    have e : winAmp (uniform akltT) 1 2 = winAmp (uniform akltT) 0 2 := by
      have := swap_winAmp (uniform akltT) 0 2
      rw [zero_add] at this
      rw [← this]; rfl
    have : actOp (winDims (uniform akltT) 1 2) (pairElt 3 ramp) (winAmp (uniform akltT) 1 2 0 0) [1, 1] = 5 / 3 := by
      rw [e]; exact aklt_ramp
    rw [this]; norm_num
  · exact ⟨Or.inl (by simp [effTol, L]), Or.inl (le_refl _)⟩

/-- the operator cannot be applied if the local dimensions of the two sites differ: `split_tensor` reshapes the second tensor with the
dimension of the first site -/
theorem C88_unequal_violated (L : Lib K) (tol : ℝ) (M : Int) {psi : State K} (hok : Ok psi) (hcan : psi.canonical = true) {d e : Nat}
    (hd0 : (psi.matrix 0).dim 1 = d) (hd1 : (psi.matrix 1).dim 1 = e) (hne : d ≠ e) {U : Tensor K} (hU : U.dims = [d * e, d * e]) :
    applyOperator L psi U 0 tol M = none := by
  have h : Dims psi (psi.A.dim 0) d (psi.A.dim 2) e := by
    have := hok.dims4
    rw [matrix0] at hd0
    rw [matrix1] at hd1
    rwa [hd0, hd1] at this
  obtain ⟨hg, -⟩ := gab_spec hok h hU
  unfold applyOperator applyEven
  rw [if_neg (by decide), hcan, if_pos rfl, applyCanon_eq]
  unfold splitTensor
  have g1 : (gab psi U).dim 1 = d := by simp [dim, hg, nrm]
  have g2 : (gab psi U).dim 2 = e := by simp [dim, hg, nrm]
  simp only [g1, g2, hne, if_false]

end MPS.Props
