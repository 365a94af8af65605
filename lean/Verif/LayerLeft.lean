import Verif.LayerErr9
import Verif.ApplyOpt

/-! # Chains of contractions: truncations in a chain which is an isometry on its left side only -/

set_option linter.unusedSectionVars false
set_option linter.unusedSimpArgs false

namespace MPS.Trotter
open MPS Tensor Minim Order

/-- squared norm of the coefficients of a tensor with three indices -/
noncomputable def sq3 (A : Tensor ℂ) : ℝ :=
  ∑ x ∈ Finset.range (A.dim 0), ∑ i ∈ Finset.range (A.dim 1), ∑ y ∈ Finset.range (A.dim 2), ‖A.get [x, i, y]‖ ^ 2

/-- a tensor which does not increase norms, as a map from its right index to the other two -/
def LCon (A : Tensor ℂ) : Prop :=
  ∀ v : Nat → ℂ, ∑ x ∈ Finset.range (A.dim 0), ∑ i ∈ Finset.range (A.dim 1), ‖∑ y ∈ Finset.range (A.dim 2), A.get [x, i, y] * v y‖ ^ 2 ≤
    ∑ y ∈ Finset.range (A.dim 2), ‖v y‖ ^ 2

theorem LCon.of_iso {A : Tensor ℂ} {a d b : Nat} (hd : A.dims = [a, d, b]) (h : LeftIso A) : LCon A := by
  intro v
  have := norm_fold_left (K := ℂ) (V := ⟨[b, 1], fun I => v (I.getD 0 0)⟩) (l := 1) hd h
  simp only [Finset.sum_range_one, List.getD_cons_zero] at this
  rw [dim0_of hd, dim1_of hd, dim2_of hd, this]

/-- all tensors but the last one are contractions, the last one has squared norm `n0` at most -/
def LChain (n0 : ℝ) : List (Tensor ℂ) → Prop
  | [] => True
  | [A] => sq3 A ≤ n0
  | A :: B :: R => LCon A ∧ LChain n0 (B :: R)

theorem LChain.cons_iff {n0 : ℝ} {A : Tensor ℂ} {R : List (Tensor ℂ)} (h : R ≠ []) : LChain n0 (A :: R) ↔ LCon A ∧ LChain n0 R := by
  cases R with
  | nil => exact absurd rfl h
  | cons B R => rfl

theorem LChain.append_iff {n0 : ℝ} {pre R : List (Tensor ℂ)} (h : R ≠ []) : LChain n0 (pre ++ R) ↔ (∀ A ∈ pre, LCon A) ∧ LChain n0 R := by
  induction pre with
  | nil => simp
  | cons A pre ih =>
    rw [List.cons_append, LChain.cons_iff (by simp [h]), ih]
    simp [and_assoc]

theorem rNorm_con {ds : List Nat} {c d g : Nat} {R : List (Tensor ℂ)} {B : Tensor ℂ} (hB : B.dims = [c, d, g]) (hI : LCon B) :
    rNorm c (d :: ds) (B :: R) ≤ rNorm g ds R := by
  unfold rNorm
  simp only [sumCfg_cons, path_cons, dim2_of hB]
  rw [← sumCfg_sum, Finset.sum_congr rfl fun x _ => (sumCfg_sum _ _ _).symm, ← sumCfg_sum]
  refine sumCfg_le fun s _ => ?_
  have := hI fun y => path R s y 0
  rwa [dim0_of hB, dim1_of hB, dim2_of hB] at this

theorem LChain.rNorm {n0 : ℝ} {a b : Nat} {R : List (Tensor ℂ)} {ds : List Nat} (w : WF a R ds b) (hb : b = 1) (h : LChain n0 R) (hne : R ≠ []) :
    rNorm a ds R ≤ n0 := by
  induction w with
  | nil => exact absurd rfl hne
  | @cons a d c b A As ds h1 _ _ _ w ih =>
    by_cases hR : As = []
    · subst hR
      cases w
      subst hb
      refine le_trans (le_of_eq ?_) h
      unfold Trotter.rNorm sq3
      rw [dim0_of h1, dim1_of h1, dim2_of h1]
      refine Finset.sum_congr rfl fun x _ => ?_
      rw [sumCfg_single]
      refine Finset.sum_congr rfl fun i _ => ?_
      rw [Finset.sum_range_one, path_single h1 Nat.one_pos]
    · obtain ⟨h2, h3⟩ := (LChain.cons_iff hR).1 h
      exact (rNorm_con h1 h2).trans (ih hb h3 hR)

theorem LBound.snocCon {ds1 : List Nat} {c d g : Nat} {pre : List (Tensor ℂ)} {C : ℝ} (hC : 0 ≤ C) (h : LBound ds1 c pre C) (w1 : WF 1 pre ds1 c)
    {B : Tensor ℂ} (hB : B.dims = [c, d, g]) (hI : LCon B) : LBound (ds1 ++ [d]) g (pre ++ [B]) C := by
  intro v
  have e : sumCfg (ds1 ++ [d]) (fun s => ‖∑ x ∈ Finset.range g, path (pre ++ [B]) s 0 x * v x‖ ^ 2) =
      sumCfg ds1 fun s => sumCfg [d] fun t => ‖∑ x ∈ Finset.range c, path pre s 0 x * ∑ m ∈ Finset.range g, B.get [x, t.getD 0 0, m] * v m‖ ^ 2 := by
    rw [sumCfg_append]
    refine sumCfg_congr fun s hs => ?_
    rw [sumCfg_single, sumCfg_single]
    refine Finset.sum_congr rfl fun i _ => ?_
    have : ∀ y ∈ Finset.range g, path (pre ++ [B]) (s ++ [i]) 0 y * v y = ∑ x ∈ Finset.range c, path pre s 0 x * (B.get [x, i, y] * v y) := by
      intro y hy
      rw [path_append w1 (by rw [hs.length, w1.length]) Nat.one_pos, Finset.sum_mul]
      exact Finset.sum_congr rfl fun x _ => by rw [path_single hB (Finset.mem_range.1 hy)]; ring
    rw [Finset.sum_congr rfl this, Finset.sum_comm]
    simp only [Finset.mul_sum, List.getD_cons_zero]
  rw [e]
  refine (h.apply [d] _).trans (mul_le_mul_of_nonneg_left ?_ hC)
  have := hI v
  rw [dim0_of hB, dim1_of hB, dim2_of hB] at this
  refine le_trans (le_of_eq ?_) this
  exact Finset.sum_congr rfl fun x _ => by rw [sumCfg_single]; simp

theorem LBound.of_con {ds : List Nat} {pre : List (Tensor ℂ)} : ∀ {c : Nat} (_ : WF 1 pre ds c), (∀ A ∈ pre, LCon A) → LBound ds c pre 1 := by
  induction pre using List.reverseRecOn generalizing ds with
  | nil =>
    intro c w _
    cases w
    intro v
    simp [sumCfg_nil, path_nil]
  | append_singleton pre B ih =>
    intro c w h
    obtain ⟨ds1, ds2, b, rfl, w1, w2⟩ := w.split
    cases w2 with
    | cons hB _ _ _ w3 =>
      cases w3
      exact (ih w1 fun A hA => h A (by simp [hA])).snocCon zero_le_one w1 hB (h B (by simp))

/-- the bonds of such a chain -/
theorem LChain.bal {ds : List Nat} {P : List (Tensor ℂ)} {n0 : ℝ} (w : WF 1 P ds 1) (h : LChain n0 P) {j : Nat} (hj : j < ds.length) : Bal ds P j n0 := by
  have hlen := w.length
  obtain ⟨a, b, w1, w2, w3, p1, p2, p3⟩ := WF.around w hj
  have wd : WF a (P.drop j) (ds.drop j) 1 := by
    rw [Form.drop_site (by omega), show ds.drop j = ds.getD j 0 :: ds.drop (j + 1) by rw [List.drop_eq_getElem_cons hj]; simp [hj]]
    exact WF.cons w2 p1 p2 p3 w3
  have hne : P.drop j ≠ [] := by intro h0; have := congrArg List.length h0; simp at this; omega
  rw [← List.take_append_drop j P, LChain.append_iff hne] at h
  refine ⟨P.take j, P.drop j, ds.take j, ds.drop j, a, 1, (List.take_append_drop _ _).symm, by simp; omega,
    (List.take_append_drop _ _).symm, w1, wd, zero_le_one, LBound.of_con w1 h.1, ?_⟩
  rw [one_mul]
  exact h.2.rNorm wd rfl hne

theorem LChain.normSq {ds : List Nat} {P : List (Tensor ℂ)} {n0 : ℝ} (w : WF 1 P ds 1) (h : LChain n0 P) (hne : P ≠ []) : normSq ds P ≤ n0 := by
  refine le_trans (le_of_eq ?_) (h.rNorm w rfl hne)
  unfold Minim.normSq Trotter.rNorm
  rw [Finset.sum_range_one]
  exact sumCfg_congr fun s _ => by rw [amp_of_WF w hne, Finset.sum_range_one]

end MPS.Trotter
