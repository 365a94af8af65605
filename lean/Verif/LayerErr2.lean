import Verif.LayerErr

/-! # A two-site gate followed by a truncated SVD, and one step of `canonical_form`, on any state whose right part is an isometry -/

set_option linter.unusedSectionVars false
set_option linter.unusedSimpArgs false

namespace MPS.Trotter
open MPS Tensor Minim

/-- two chains which only differ in a pair of neighbouring tensors, in front of an isometry -/
theorem pair_cut {a c f d d2 e g : Nat} {pre post : List (Tensor ℂ)} {E1 E2 B1 B2 : Tensor ℂ} {ds1 ds3 : List Nat}
    (w1 : WF a pre ds1 c) (hE1 : E1.dims = [c, d, e]) (hE2 : E2.dims = [e, d2, f]) (hB1 : B1.dims = [c, d, g]) (hB2 : B2.dims = [g, d2, f])
    (hpos : 0 < c ∧ 0 < d ∧ 0 < e ∧ 0 < d2 ∧ 0 < f ∧ 0 < g) (w4 : WF f post ds3 1) (hpost : ∀ A ∈ post, RightIso A)
    (hproj : ∀ x < c, ∀ x' < c, ∀ i < d, ∑ j ∈ Finset.range d2, ∑ y ∈ Finset.range f, star (∑ m ∈ Finset.range g, B1.get [x', i, m] * B2.get [m, j, y]) *
      ((∑ m ∈ Finset.range e, E1.get [x, i, m] * E2.get [m, j, y]) - ∑ m ∈ Finset.range g, B1.get [x, i, m] * B2.get [m, j, y]) = 0) {x0 : Nat} (hx0 : x0 < a) :
    sumCfg (ds1 ++ d :: d2 :: ds3) (fun s => ‖path (pre ++ B1 :: B2 :: post) s x0 0‖ ^ 2) +
      sumCfg (ds1 ++ d :: d2 :: ds3) (fun s => ‖path (pre ++ B1 :: B2 :: post) s x0 0 - path (pre ++ E1 :: E2 :: post) s x0 0‖ ^ 2) =
      sumCfg (ds1 ++ d :: d2 :: ds3) (fun s => ‖path (pre ++ E1 :: E2 :: post) s x0 0‖ ^ 2) := by
  obtain ⟨p1, p2, p3, p4, p5, p6⟩ := hpos
  rw [sumCfg_append, sumCfg_append, sumCfg_append, ← sumCfg_add]
  refine sumCfg_congr fun s1 hs1 => ?_
  rw [sumCfg_cons, sumCfg_cons, sumCfg_cons, ← Finset.sum_add_distrib]
  refine Finset.sum_congr rfl fun i hi => ?_
  have hi := Finset.mem_range.1 hi
  have key : RProj c (d2 :: ds3) (fun x s => ∑ y ∈ Finset.range f, (∑ m ∈ Finset.range e, E1.get [x, i, m] * E2.get [m, s.getD 0 0, y]) * path post s.tail y 0)
      (fun x s => ∑ y ∈ Finset.range f, (∑ m ∈ Finset.range g, B1.get [x, i, m] * B2.get [m, s.getD 0 0, y]) * path post s.tail y 0) := by
    intro x hx x' hx'
    rw [sumCfg_cons, ← hproj x hx x' hx' i hi]
    refine Finset.sum_congr rfl fun j _ => ?_
    simp only [List.getD_cons_zero, List.tail_cons]
    rw [← right_inner w4 hpost]
    refine sumCfg_congr fun s _ => ?_
    simp only [sub_mul, Finset.sum_sub_distrib]
  have := key.pyth fun x => path pre s1 x0 x
  rw [sumCfg_cons, sumCfg_cons, sumCfg_cons] at this
  simp only [List.getD_cons_zero, List.tail_cons] at this
  rw [sumCfg_cons, sumCfg_cons, sumCfg_cons]
  rw [← Finset.sum_add_distrib] at this ⊢
  have eB : ∀ j s3, path (pre ++ B1 :: B2 :: post) (s1 ++ i :: j :: s3) x0 0 = _ := fun j s3 =>
    path_pair_expand w1 hB1 hB2 ⟨p1, p2, p6, p4, p5⟩ w4 hs1 i j hx0 0
  have eE : ∀ j s3, path (pre ++ E1 :: E2 :: post) (s1 ++ i :: j :: s3) x0 0 = _ := fun j s3 =>
    path_pair_expand w1 hE1 hE2 ⟨p1, p2, p3, p4, p5⟩ w4 hs1 i j hx0 0
  simp only [eB, eE]
  exact this

/-- distance of the two chains -/
theorem pair_cut_dist {c f d d2 e g : Nat} {pre post : List (Tensor ℂ)} {E1 E2 B1 B2 : Tensor ℂ} {ds1 ds3 : List Nat}
    (w1 : WF 1 pre ds1 c) (hE1 : E1.dims = [c, d, e]) (hE2 : E2.dims = [e, d2, f]) (hB1 : B1.dims = [c, d, g]) (hB2 : B2.dims = [g, d2, f])
    (hpos : 0 < c ∧ 0 < d ∧ 0 < e ∧ 0 < d2 ∧ 0 < f ∧ 0 < g) (w4 : WF f post ds3 1) (hpost : ∀ A ∈ post, RightIso A) {C : ℝ}
    (hC : LBound ds1 c pre C) :
    sumCfg (ds1 ++ d :: d2 :: ds3) (fun s => ‖path (pre ++ B1 :: B2 :: post) s 0 0 - path (pre ++ E1 :: E2 :: post) s 0 0‖ ^ 2) ≤
      C * ∑ x ∈ Finset.range c, ∑ i ∈ Finset.range d, ∑ j ∈ Finset.range d2, ∑ y ∈ Finset.range f,
        ‖(∑ m ∈ Finset.range e, E1.get [x, i, m] * E2.get [m, j, y]) - ∑ m ∈ Finset.range g, B1.get [x, i, m] * B2.get [m, j, y]‖ ^ 2 := by
  obtain ⟨p1, p2, p3, p4, p5, p6⟩ := hpos
  rw [sumCfg_append]
  refine le_trans (le_of_eq ?_) ((hC.apply (d :: d2 :: ds3) fun x t => ∑ y ∈ Finset.range f, ((∑ m ∈ Finset.range g, B1.get [x, t.getD 0 0, m] * B2.get [m, t.getD 1 0, y]) -
      ∑ m ∈ Finset.range e, E1.get [x, t.getD 0 0, m] * E2.get [m, t.getD 1 0, y]) * path post t.tail.tail y 0).trans (le_of_eq ?_))
  · refine sumCfg_congr fun s1 hs1 => ?_
    simp only [sumCfg_cons]
    refine Finset.sum_congr rfl fun i _ => Finset.sum_congr rfl fun j _ => sumCfg_congr fun s3 _ => ?_
    rw [path_pair_expand w1 hB1 hB2 ⟨p1, p2, p6, p4, p5⟩ w4 hs1 i j Nat.one_pos 0, path_pair_expand w1 hE1 hE2 ⟨p1, p2, p3, p4, p5⟩ w4 hs1 i j Nat.one_pos 0]
    simp only [List.getD_cons_zero, List.getD_cons_succ, List.tail_cons, sub_mul, Finset.sum_sub_distrib, mul_sub]
  · congr 1
    simp only [sumCfg_cons, List.getD_cons_zero, List.getD_cons_succ, List.tail_cons]
    refine Finset.sum_congr rfl fun x _ => Finset.sum_congr rfl fun i _ => Finset.sum_congr rfl fun j _ => ?_
    rw [right_norm w4 hpost]
    exact Finset.sum_congr rfl fun y _ => by rw [norm_sub_rev]

/-- a pair of tensors with a given product -/
theorem exists_pair {c d d2 f : Nat} (hc : 0 < c) (T : Nat → Nat → Nat → Nat → ℂ) :
    ∃ E1 E2 : Tensor ℂ, E1.dims = [c, d, c * d] ∧ E2.dims = [c * d, d2, f] ∧ ∀ x i j y, x < c → i < d →
      ∑ m ∈ Finset.range (c * d), E1.get [x, i, m] * E2.get [m, j, y] = T x i j y := by
  refine ⟨⟨[c, d, c * d], fun I => if I.getD 2 0 = I.getD 0 0 + c * I.getD 1 0 then 1 else 0⟩,
    ⟨[c * d, d2, f], fun I => T (I.getD 0 0 % c) (I.getD 0 0 / c) (I.getD 1 0) (I.getD 2 0)⟩, rfl, rfl, fun x i j y hx hi => ?_⟩
  simp only [List.getD_cons_zero, List.getD_cons_succ]
  rw [Finset.sum_eq_single (x + c * i)]
  · rw [if_pos rfl, one_mul, Nat.add_mul_mod_self_left, Nat.mod_eq_of_lt hx, Nat.add_mul_div_left _ _ hc, Nat.div_eq_of_lt hx, Nat.zero_add]
  · intro m _ hm; rw [if_neg hm, zero_mul]
  · intro h; exact absurd (Finset.mem_range.2 (add_mul_lt hx hi)) h

end MPS.Trotter
