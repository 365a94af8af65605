import Verif.LayerLeft

/-! # A two-site gate in a chain of contractions -/

set_option linter.unusedSectionVars false
set_option linter.unusedSimpArgs false

namespace MPS.Trotter
open MPS Tensor Minim Order

/-- two neighbouring tensors after a gate -/
noncomputable def gated (U X Y : Tensor ℂ) (d d2 e : Nat) (x i j y : Nat) : ℂ :=
  ∑ i' ∈ Finset.range d, ∑ j' ∈ Finset.range d2, U.get [i + d * j, i' + d * j'] * ∑ z ∈ Finset.range e, X.get [x, i', z] * Y.get [z, j', y]

theorem unit_pair {d d2 : Nat} {U : Tensor ℂ} (hU : IsUnitary (d * d2) U) (w : Nat → Nat → ℂ) :
    ∑ i ∈ Finset.range d, ∑ j ∈ Finset.range d2, ‖∑ i' ∈ Finset.range d, ∑ j' ∈ Finset.range d2, U.get [i + d * j, i' + d * j'] * w i' j'‖ ^ 2 =
      ∑ i ∈ Finset.range d, ∑ j ∈ Finset.range d2, ‖w i j‖ ^ 2 := by
  have h := sumSq_of_inner (inner_actPair (ds := [d, d2]) (k := 0) (by simp) (U := U) (by simpa using hU) fun s => w (s.getD 0 0) (s.getD 1 0))
  simpa [sumCfg_cons, sumCfg_nil, actPair] using h

theorem bessel_left {B : Tensor ℂ} {c d g : Nat} (hB : B.dims = [c, d, g]) (hI : LeftIso B) (F : Nat → Nat → ℂ) :
    ∑ m ∈ Finset.range g, ‖∑ x ∈ Finset.range c, ∑ i ∈ Finset.range d, star (B.get [x, i, m]) * F x i‖ ^ 2 ≤
      ∑ x ∈ Finset.range c, ∑ i ∈ Finset.range d, ‖F x i‖ ^ 2 := by
  have h := bessel (K := ℂ) (ds := [c, d]) (n := g) (L := fun l m => B.get [l.getD 0 0, l.getD 1 0, m]) (fun m m' hm hm' => by
    have := hI m m' (by rw [dim2_of hB]; exact hm) (by rw [dim2_of hB]; exact hm')
    rw [dim0_of hB, dim1_of hB] at this
    simpa [sumCfg_cons, sumCfg_nil] using this) fun l => F (l.getD 0 0) (l.getD 1 0)
  simpa [sumCfg_cons, sumCfg_nil] using h

/-- a gate and a contraction in front of a tensor -/
theorem gated_apply {U X Y : Tensor ℂ} {c d e d2 f : Nat} (hX : X.dims = [c, d, e]) (hU : IsUnitary (d * d2) U) (cX : LCon X) (v : Nat → ℂ) :
    ∑ x ∈ Finset.range c, ∑ i ∈ Finset.range d, ∑ j ∈ Finset.range d2, ‖∑ y ∈ Finset.range f, gated U X Y d d2 e x i j y * v y‖ ^ 2 ≤
      ∑ z ∈ Finset.range e, ∑ j ∈ Finset.range d2, ‖∑ y ∈ Finset.range f, Y.get [z, j, y] * v y‖ ^ 2 := by
  have e1 : ∀ x i j, ∑ y ∈ Finset.range f, gated U X Y d d2 e x i j y * v y = ∑ i' ∈ Finset.range d, ∑ j' ∈ Finset.range d2,
      U.get [i + d * j, i' + d * j'] * ∑ z ∈ Finset.range e, X.get [x, i', z] * ∑ y ∈ Finset.range f, Y.get [z, j', y] * v y := by
    intro x i j
    unfold gated
    simp only [Finset.sum_mul, Finset.mul_sum]
    rw [Finset.sum_comm]
    refine Finset.sum_congr rfl fun i' _ => ?_
    rw [Finset.sum_comm]
    refine Finset.sum_congr rfl fun j' _ => ?_
    rw [Finset.sum_comm]
    exact Finset.sum_congr rfl fun z _ => Finset.sum_congr rfl fun y _ => by ring
  simp only [e1]
  rw [Finset.sum_congr rfl fun x _ => unit_pair hU fun i' j' => ∑ z ∈ Finset.range e, X.get [x, i', z] * ∑ y ∈ Finset.range f, Y.get [z, j', y] * v y]
  rw [Finset.sum_congr rfl fun x _ => Finset.sum_comm, Finset.sum_comm, Finset.sum_comm (s := Finset.range e)]
  refine Finset.sum_le_sum fun j' _ => ?_
  have := cX fun z => ∑ y ∈ Finset.range f, Y.get [z, j', y] * v y
  rwa [dim0_of hX, dim1_of hX, dim2_of hX] at this

theorem delta_sum {f y0 : Nat} (h : y0 < f) (a : Nat → ℂ) : ∑ y ∈ Finset.range f, a y * (if y = y0 then 1 else 0) = a y0 := by
  simp only [mul_ite, mul_one, mul_zero]
  rw [Finset.sum_ite_eq' (Finset.range f) y0, if_pos (Finset.mem_range.2 h)]

/-- squared norm of the gated pair -/
theorem gated_total {U X Y : Tensor ℂ} {c d e d2 f : Nat} (hX : X.dims = [c, d, e]) (hY : Y.dims = [e, d2, f]) (hU : IsUnitary (d * d2) U) (cX : LCon X) :
    ∑ x ∈ Finset.range c, ∑ i ∈ Finset.range d, ∑ j ∈ Finset.range d2, ∑ y ∈ Finset.range f, ‖gated U X Y d d2 e x i j y‖ ^ 2 ≤ sq3 Y := by
  unfold sq3
  rw [dim0_of hY, dim1_of hY, dim2_of hY]
  have e1 : ∑ x ∈ Finset.range c, ∑ i ∈ Finset.range d, ∑ j ∈ Finset.range d2, ∑ y ∈ Finset.range f, ‖gated U X Y d d2 e x i j y‖ ^ 2 =
      ∑ y ∈ Finset.range f, ∑ x ∈ Finset.range c, ∑ i ∈ Finset.range d, ∑ j ∈ Finset.range d2, ‖gated U X Y d d2 e x i j y‖ ^ 2 := by
    rw [Finset.sum_congr rfl fun x _ => Finset.sum_congr rfl fun i _ => Finset.sum_comm, Finset.sum_congr rfl fun x _ => Finset.sum_comm, Finset.sum_comm]
  have e2 : ∑ z ∈ Finset.range e, ∑ j ∈ Finset.range d2, ∑ y ∈ Finset.range f, ‖Y.get [z, j, y]‖ ^ 2 =
      ∑ y ∈ Finset.range f, ∑ z ∈ Finset.range e, ∑ j ∈ Finset.range d2, ‖Y.get [z, j, y]‖ ^ 2 := by
    rw [Finset.sum_congr rfl fun z _ => Finset.sum_comm, Finset.sum_comm]
  rw [e1, e2]
  refine Finset.sum_le_sum fun y hy => ?_
  have := gated_apply (Y := Y) (d2 := d2) (f := f) hX hU cX fun y' => if y' = y then 1 else 0
  simpa only [delta_sum (Finset.mem_range.1 hy)] using this

/-- squared norm of the gated pair when both tensors are contractions -/
theorem LCon.total {Y : Tensor ℂ} {e d2 f : Nat} (hY : Y.dims = [e, d2, f]) (cY : LCon Y) : sq3 Y ≤ f := by
  unfold sq3
  rw [dim0_of hY, dim1_of hY, dim2_of hY, Finset.sum_congr rfl fun z _ => Finset.sum_comm, Finset.sum_comm]
  calc _ ≤ ∑ y ∈ Finset.range f, (1 : ℝ) := Finset.sum_le_sum fun y hy => ?_
    _ = f := by simp
  have := cY fun y' => if y' = y then 1 else 0
  rw [dim0_of hY, dim1_of hY, dim2_of hY] at this
  simp only [delta_sum (Finset.mem_range.1 hy)] at this
  refine this.trans (le_of_eq ?_)
  rw [Finset.sum_eq_single y]
  · simp
  · intro b _ hb; simp [hb]
  · intro h; exact absurd hy h

/-- the second tensor after the gate -/
theorem second_con {U X Y B1 B2 : Tensor ℂ} {c d e d2 f g : Nat} (hX : X.dims = [c, d, e]) (hY : Y.dims = [e, d2, f]) (hB1 : B1.dims = [c, d, g])
    (hB2 : B2.dims = [g, d2, f]) (hU : IsUnitary (d * d2) U) (cX : LCon X) (hI : LeftIso B1)
    (h : ∀ m j y, m < g → j < d2 → y < f → ∑ x ∈ Finset.range c, ∑ i ∈ Finset.range d, star (B1.get [x, i, m]) * gated U X Y d d2 e x i j y = B2.get [m, j, y]) :
    (LCon Y → LCon B2) ∧ sq3 B2 ≤ sq3 Y := by
  have key : ∀ v : Nat → ℂ, ∑ m ∈ Finset.range g, ∑ j ∈ Finset.range d2, ‖∑ y ∈ Finset.range f, B2.get [m, j, y] * v y‖ ^ 2 ≤
      ∑ x ∈ Finset.range c, ∑ i ∈ Finset.range d, ∑ j ∈ Finset.range d2, ‖∑ y ∈ Finset.range f, gated U X Y d d2 e x i j y * v y‖ ^ 2 := by
    intro v
    rw [Finset.sum_comm, Finset.sum_congr rfl fun x _ => Finset.sum_comm, Finset.sum_comm (s := Finset.range c)]
    refine Finset.sum_le_sum fun j hj => ?_
    refine le_trans (le_of_eq ?_) (bessel_left hB1 hI fun x i => ∑ y ∈ Finset.range f, gated U X Y d d2 e x i j y * v y)
    refine Finset.sum_congr rfl fun m hm => ?_
    congr 2
    rw [Finset.sum_congr rfl fun y hy => by rw [← h m j y (Finset.mem_range.1 hm) (Finset.mem_range.1 hj) (Finset.mem_range.1 hy)]]
    simp only [Finset.sum_mul, Finset.mul_sum]
    rw [Finset.sum_comm]
    refine Finset.sum_congr rfl fun x _ => ?_
    rw [Finset.sum_comm]
    exact Finset.sum_congr rfl fun i _ => Finset.sum_congr rfl fun y _ => by ring
  constructor
  · intro cY v
    rw [dim0_of hB2, dim1_of hB2, dim2_of hB2]
    refine ((key v).trans (gated_apply hX hU cX v)).trans ?_
    have := cY v
    rwa [dim0_of hY, dim1_of hY, dim2_of hY] at this
  · unfold sq3
    rw [dim0_of hY, dim1_of hY, dim2_of hY, dim0_of hB2, dim1_of hB2, dim2_of hB2]
    rw [Finset.sum_congr rfl fun z _ => Finset.sum_comm, Finset.sum_comm, Finset.sum_congr (s₁ := Finset.range e) rfl fun z _ => Finset.sum_comm,
      Finset.sum_comm (s := Finset.range e)]
    refine Finset.sum_le_sum fun y hy => ?_
    have := (key fun y' => if y' = y then 1 else 0).trans (gated_apply hX hU cX _)
    simpa only [delta_sum (Finset.mem_range.1 hy)] using this

/-- distance of two chains which differ on a pair of sites, behind contractions and in front of anything -/
theorem pair_con_dist {c f d d2 e g : Nat} {pre post : List (Tensor ℂ)} {E1 E2 B1 B2 : Tensor ℂ} {ds1 ds3 : List Nat}
    (w1 : WF 1 pre ds1 c) (hE1 : E1.dims = [c, d, e]) (hE2 : E2.dims = [e, d2, f]) (hB1 : B1.dims = [c, d, g]) (hB2 : B2.dims = [g, d2, f])
    (hpos : 0 < c ∧ 0 < d ∧ 0 < e ∧ 0 < d2 ∧ 0 < f ∧ 0 < g) (w4 : WF f post ds3 1) {C : ℝ} (hC0 : 0 ≤ C)
    (hC : LBound ds1 c pre C) :
    sumCfg (ds1 ++ d :: d2 :: ds3) (fun s => ‖path (pre ++ B1 :: B2 :: post) s 0 0 - path (pre ++ E1 :: E2 :: post) s 0 0‖ ^ 2) ≤
      C * ((∑ x ∈ Finset.range c, ∑ i ∈ Finset.range d, ∑ j ∈ Finset.range d2, ∑ y ∈ Finset.range f,
        ‖(∑ m ∈ Finset.range e, E1.get [x, i, m] * E2.get [m, j, y]) - ∑ m ∈ Finset.range g, B1.get [x, i, m] * B2.get [m, j, y]‖ ^ 2) * rNorm f ds3 post) := by
  obtain ⟨p1, p2, p3, p4, p5, p6⟩ := hpos
  rw [sumCfg_append]
  refine le_trans (le_of_eq ?_) ((hC.apply (d :: d2 :: ds3) fun x t => ∑ y ∈ Finset.range f, ((∑ m ∈ Finset.range g, B1.get [x, t.getD 0 0, m] * B2.get [m, t.getD 1 0, y]) -
      ∑ m ∈ Finset.range e, E1.get [x, t.getD 0 0, m] * E2.get [m, t.getD 1 0, y]) * path post t.tail.tail y 0).trans (mul_le_mul_of_nonneg_left ?_ hC0))
  · refine sumCfg_congr fun s1 hs1 => ?_
    simp only [sumCfg_cons]
    refine Finset.sum_congr rfl fun i _ => Finset.sum_congr rfl fun j _ => sumCfg_congr fun s3 _ => ?_
    rw [path_pair_expand w1 hB1 hB2 ⟨p1, p2, p6, p4, p5⟩ w4 hs1 i j Nat.one_pos 0, path_pair_expand w1 hE1 hE2 ⟨p1, p2, p3, p4, p5⟩ w4 hs1 i j Nat.one_pos 0]
    simp only [List.getD_cons_zero, List.getD_cons_succ, List.tail_cons, sub_mul, Finset.sum_sub_distrib, mul_sub]
  · simp only [sumCfg_cons, List.getD_cons_zero, List.getD_cons_succ, List.tail_cons, Finset.sum_mul]
    refine Finset.sum_le_sum fun x _ => Finset.sum_le_sum fun i _ => Finset.sum_le_sum fun j _ => ?_
    rw [← Finset.sum_mul]
    unfold Trotter.rNorm
    rw [← sumCfg_sum, ← sumCfg_mul_left]
    refine sumCfg_le fun s _ => ?_
    refine (pow_le_pow_left₀ (norm_nonneg _) (norm_sum_le _ _) 2).trans ?_
    simp only [norm_mul]
    refine (Finset.sum_mul_sq_le_sq_mul_sq _ _ _).trans (le_of_eq ?_)
    congr 1
    exact Finset.sum_congr rfl fun y _ => by rw [norm_sub_rev]

end MPS.Trotter
