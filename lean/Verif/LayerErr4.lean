import Verif.LayerErr3

/-! # The invariant of a sweep without maximal dimension: bounds for both sides of every bond -/

set_option linter.unusedSectionVars false
set_option linter.unusedSimpArgs false

namespace MPS.Trotter
open MPS Tensor Minim

/-- (bound for the left part) × (squared norm of the right part) `≤ v` at the bond `j` -/
def Bal (ds : List Nat) (P : List (Tensor ℂ)) (j : Nat) (v : ℝ) : Prop :=
  ∃ pre post ds1 ds2 c C, P = pre ++ post ∧ pre.length = j ∧ ds = ds1 ++ ds2 ∧ WF 1 pre ds1 c ∧ WF c post ds2 1 ∧ 0 ≤ C ∧ LBound ds1 c pre C ∧
    C * rNorm c ds2 post ≤ v

theorem rNorm_nonneg (c : Nat) (ds : List Nat) (R : List (Tensor ℂ)) : 0 ≤ rNorm c ds R :=
  Finset.sum_nonneg fun _ _ => sumCfg_nonneg _ _ fun _ _ => by positivity

/-- a pair of tensors transformed by a unitary and projected -/
structure PairStep (U X Y B1 B2 : Tensor ℂ) (c d e d2 f g : Nat) : Prop where
  hX : X.dims = [c, d, e]
  hY : Y.dims = [e, d2, f]
  hB1 : B1.dims = [c, d, g]
  hB2 : B2.dims = [g, d2, f]
  hpos : 0 < c ∧ 0 < d ∧ 0 < e ∧ 0 < d2 ∧ 0 < f ∧ 0 < g
  hU : IsUnitary (d * d2) U
  hproj : ∀ x < c, ∀ x' < c, ∀ i < d, ∑ j ∈ Finset.range d2, ∑ y ∈ Finset.range f, star (∑ m ∈ Finset.range g, B1.get [x', i, m] * B2.get [m, j, y]) *
        ((∑ i' ∈ Finset.range d, ∑ j' ∈ Finset.range d2, U.get [i + d * j, i' + d * j'] *
            ∑ z ∈ Finset.range e, X.get [x, i', z] * Y.get [z, j', y]) - ∑ m ∈ Finset.range g, B1.get [x, i, m] * B2.get [m, j, y]) = 0

theorem PairStep.norms {U X Y B1 B2 : Tensor ℂ} {c d e d2 f g : Nat} (h : PairStep U X Y B1 B2 c d e d2 f g) {a : Nat} {pre post : List (Tensor ℂ)}
    {ds1 ds3 : List Nat} (w1 : WF a pre ds1 c) (w4 : WF f post ds3 1) (hpost : ∀ A ∈ post, RightIso A) {x0 : Nat} (hx0 : x0 < a) :
    sumCfg (ds1 ++ d :: d2 :: ds3) (fun s => ‖path (pre ++ B1 :: B2 :: post) s x0 0‖ ^ 2) +
      sumCfg (ds1 ++ d :: d2 :: ds3) (fun s => ‖path (pre ++ B1 :: B2 :: post) s x0 0 -
        actPair d d2 U pre.length (fun s => path (pre ++ X :: Y :: post) s x0 0) s‖ ^ 2) =
      sumCfg (ds1 ++ d :: d2 :: ds3) (fun s => ‖path (pre ++ X :: Y :: post) s x0 0‖ ^ 2) := by
  obtain ⟨p1, p2, p3, p4, p5, p6⟩ := h.hpos
  obtain ⟨E1, E2, e1, e2, e3⟩ := exists_pair (c := c) (d := d) (d2 := d2) (f := f) p1 fun x i j y => ∑ i' ∈ Finset.range d, ∑ j' ∈ Finset.range d2, U.get [i + d * j, i' + d * j'] *
            ∑ z ∈ Finset.range e, X.get [x, i', z] * Y.get [z, j', y]
  have hact := path_pair_act U w1 h.hX h.hY e1 e2 ⟨p1, p2, p3, p4, p5, Nat.mul_pos p1 p2⟩ w4 fun x i j y hx hi _ _ => e3 x i j y hx hi
  have hcut := pair_cut w1 e1 e2 h.hB1 h.hB2 ⟨p1, p2, Nat.mul_pos p1 p2, p4, p5, p6⟩ w4 hpost (fun x hx x' hx' i hi => by
    rw [← h.hproj x hx x' hx' i hi]
    exact Finset.sum_congr rfl fun j _ => Finset.sum_congr rfl fun y _ => by rw [e3 x i j y hx hi]) hx0
  have hl := w1.length
  have hg1 : (ds1 ++ d :: d2 :: ds3).getD pre.length 0 = d := by rw [hl]; simp
  have hg2 : (ds1 ++ d :: d2 :: ds3).getD (pre.length + 1) 0 = d2 := by rw [hl]; simp
  have hun := inner_actPair (ds := ds1 ++ d :: d2 :: ds3) (k := pre.length) (by simp; omega) (U := U) (by rw [hg1, hg2]; exact h.hU)
    (fun s => path (pre ++ X :: Y :: post) s x0 0)
  rw [hg1, hg2] at hun
  have hun := sumSq_of_inner hun
  have t1 : sumCfg (ds1 ++ d :: d2 :: ds3) (fun s => ‖path (pre ++ E1 :: E2 :: post) s x0 0‖ ^ 2) =
      sumCfg (ds1 ++ d :: d2 :: ds3) (fun s => ‖actPair d d2 U pre.length (fun s => path (pre ++ X :: Y :: post) s x0 0) s‖ ^ 2) :=
    sumCfg_congr fun s hs => by rw [hact s hs x0 hx0 0]
  have t2 : sumCfg (ds1 ++ d :: d2 :: ds3) (fun s => ‖path (pre ++ B1 :: B2 :: post) s x0 0 - path (pre ++ E1 :: E2 :: post) s x0 0‖ ^ 2) =
      sumCfg (ds1 ++ d :: d2 :: ds3) (fun s => ‖path (pre ++ B1 :: B2 :: post) s x0 0 -
        actPair d d2 U pre.length (fun s => path (pre ++ X :: Y :: post) s x0 0) s‖ ^ 2) :=
    sumCfg_congr fun s hs => by rw [hact s hs x0 hx0 0]
  rw [← hun, ← t1, ← t2]
  exact hcut

theorem PairStep.rNorm_le {U X Y B1 B2 : Tensor ℂ} {c d e d2 f g : Nat} (h : PairStep U X Y B1 B2 c d e d2 f g) {a : Nat} {pre post : List (Tensor ℂ)}
    {ds1 ds3 : List Nat} (w1 : WF a pre ds1 c) (w4 : WF f post ds3 1) (hpost : ∀ A ∈ post, RightIso A) :
    rNorm a (ds1 ++ d :: d2 :: ds3) (pre ++ B1 :: B2 :: post) ≤ rNorm a (ds1 ++ d :: d2 :: ds3) (pre ++ X :: Y :: post) := by
  refine Finset.sum_le_sum fun x hx => ?_
  have h1 := h.norms w1 w4 hpost (Finset.mem_range.1 hx)
  have h2 := sumCfg_nonneg (ds1 ++ d :: d2 :: ds3) (fun s => ‖path (pre ++ B1 :: B2 :: post) s x 0 -
        actPair d d2 U pre.length (fun s => path (pre ++ X :: Y :: post) s x 0) s‖ ^ 2) fun _ _ => by positivity
  linarith

/-- distance to the state without truncation -/
theorem PairStep.dist {U X Y B1 B2 : Tensor ℂ} {c d e d2 f g : Nat} (h : PairStep U X Y B1 B2 c d e d2 f g) {pre post : List (Tensor ℂ)}
    {ds1 ds3 : List Nat} (w1 : WF 1 pre ds1 c) (w4 : WF f post ds3 1) (hpost : ∀ A ∈ post, RightIso A) {C : ℝ} (hC : LBound ds1 c pre C) :
    sumCfg (ds1 ++ d :: d2 :: ds3) (fun s => ‖path (pre ++ B1 :: B2 :: post) s 0 0 -
        actPair d d2 U pre.length (fun s => path (pre ++ X :: Y :: post) s 0 0) s‖ ^ 2) ≤
      C * ∑ x ∈ Finset.range c, ∑ i ∈ Finset.range d, ∑ j ∈ Finset.range d2, ∑ y ∈ Finset.range f,
        ‖(∑ i' ∈ Finset.range d, ∑ j' ∈ Finset.range d2, U.get [i + d * j, i' + d * j'] *
            ∑ z ∈ Finset.range e, X.get [x, i', z] * Y.get [z, j', y]) - ∑ m ∈ Finset.range g, B1.get [x, i, m] * B2.get [m, j, y]‖ ^ 2 := by
  obtain ⟨p1, p2, p3, p4, p5, p6⟩ := h.hpos
  obtain ⟨E1, E2, e1, e2, e3⟩ := exists_pair (c := c) (d := d) (d2 := d2) (f := f) p1 fun x i j y => ∑ i' ∈ Finset.range d, ∑ j' ∈ Finset.range d2, U.get [i + d * j, i' + d * j'] *
            ∑ z ∈ Finset.range e, X.get [x, i', z] * Y.get [z, j', y]
  have hact := path_pair_act U w1 h.hX h.hY e1 e2 ⟨p1, p2, p3, p4, p5, Nat.mul_pos p1 p2⟩ w4 fun x i j y hx hi _ _ => e3 x i j y hx hi
  have hcut := pair_cut_dist w1 e1 e2 h.hB1 h.hB2 ⟨p1, p2, Nat.mul_pos p1 p2, p4, p5, p6⟩ w4 hpost hC
  rw [sumCfg_congr fun s hs => by rw [hact s hs 0 Nat.one_pos 0]] at hcut
  refine hcut.trans (le_of_eq ?_)
  congr 1
  exact Finset.sum_congr rfl fun x hx => Finset.sum_congr rfl fun i hi => Finset.sum_congr rfl fun j _ => Finset.sum_congr rfl fun y _ => by
    rw [e3 x i j y (Finset.mem_range.1 hx) (Finset.mem_range.1 hi)]

/-- norm of the transformed pair -/
theorem PairStep.total {U X Y B1 B2 : Tensor ℂ} {c d e d2 f g : Nat} (h : PairStep U X Y B1 B2 c d e d2 f g) {post : List (Tensor ℂ)}
    {ds3 : List Nat} (w4 : WF f post ds3 1) (hpost : ∀ A ∈ post, RightIso A) :
    ∑ x ∈ Finset.range c, ∑ i ∈ Finset.range d, ∑ j ∈ Finset.range d2, ∑ y ∈ Finset.range f,
        ‖∑ i' ∈ Finset.range d, ∑ j' ∈ Finset.range d2, U.get [i + d * j, i' + d * j'] *
            ∑ z ∈ Finset.range e, X.get [x, i', z] * Y.get [z, j', y]‖ ^ 2 = rNorm c (d :: d2 :: ds3) (X :: Y :: post) := by
  obtain ⟨p1, p2, p3, p4, p5, p6⟩ := h.hpos
  obtain ⟨E1, E2, e1, e2, e3⟩ := exists_pair (c := c) (d := d) (d2 := d2) (f := f) p1 fun x i j y => ∑ i' ∈ Finset.range d, ∑ j' ∈ Finset.range d2, U.get [i + d * j, i' + d * j'] *
            ∑ z ∈ Finset.range e, X.get [x, i', z] * Y.get [z, j', y]
  have w0 : WF c ([] : List (Tensor ℂ)) [] c := WF.nil c
  have hact := path_pair_act U w0 h.hX h.hY e1 e2 ⟨p1, p2, p3, p4, p5, Nat.mul_pos p1 p2⟩ w4 fun x i j y hx hi _ _ => e3 x i j y hx hi
  have hun : ∀ x, sumCfg (d :: d2 :: ds3) (fun s => ‖actPair d d2 U 0 (fun s => path (X :: Y :: post) s x 0) s‖ ^ 2) =
      sumCfg (d :: d2 :: ds3) fun s => ‖path (X :: Y :: post) s x 0‖ ^ 2 := fun x =>
    sumSq_of_inner (inner_actPair (ds := d :: d2 :: ds3) (k := 0) (by simp) (U := U) (by simpa using h.hU) _)
  unfold rNorm
  refine Finset.sum_congr rfl fun x hx => ?_
  have hx := Finset.mem_range.1 hx
  rw [← hun x]
  have : sumCfg (d :: d2 :: ds3) (fun s => ‖actPair d d2 U 0 (fun s => path (X :: Y :: post) s x 0) s‖ ^ 2) =
      sumCfg (d :: d2 :: ds3) fun s => ‖path (E1 :: E2 :: post) s x 0‖ ^ 2 :=
    sumCfg_congr fun s hs => by
      have := hact s hs x hx 0
      simp only [List.nil_append, List.length_nil] at this
      rw [this]
  rw [this, sumCfg_cons]
  refine Finset.sum_congr rfl fun i hi => ?_
  rw [sumCfg_cons]
  refine Finset.sum_congr rfl fun j hj => ?_
  have hexp : ∀ s3, path (E1 :: E2 :: post) (i :: j :: s3) x 0 = ∑ v ∈ Finset.range f, (∑ m ∈ Finset.range (c * d), E1.get [x, i, m] * E2.get [m, j, v]) * path post s3 v 0 := by
    intro s3
    have := path_pair_expand (s3 := s3) w0 e1 e2 ⟨p1, p2, Nat.mul_pos p1 p2, p4, p5⟩ w4 List.Forall₂.nil i j hx 0
    simp only [List.nil_append, path_nil, ite_mul, one_mul, zero_mul] at this
    rw [this, Finset.sum_ite_eq, if_pos (Finset.mem_range.2 hx)]
  rw [sumCfg_congr fun s _ => by rw [hexp s], right_norm w4 hpost]
  exact Finset.sum_congr rfl fun y _ => by rw [e3 x i j y hx (Finset.mem_range.1 hi)]

end MPS.Trotter
