import Verif.Props.CanonProps2

/-! # The pair of tensors stored by `set_canonical_2_sites` is a projection of the pair tensor -/

set_option linter.unusedSectionVars false

namespace MPS
open Tensor
variable {K : Type} [RCLike K]

theorem re_line (a b : K) : ‖a - b‖ ^ 2 = ‖a‖ ^ 2 + ‖b‖ ^ 2 - 2 * RCLike.re (star b * a) := by
  have h := RCLike.add_conj ((starRingEnd K) b * a)
  rw [map_mul, RCLike.conj_conj] at h
  apply RCLike.ofReal_injective (K := K)
  have h2 : ((2 : ℝ) : K) = 2 := RCLike.ofReal_ofNat 2
  simp only [RCLike.ofReal_add, RCLike.ofReal_sub, RCLike.ofReal_mul, RCLike.ofReal_pow]
  rw [← RCLike.conj_mul, ← RCLike.conj_mul, ← RCLike.conj_mul, RCLike.star_def, h2, ← h]
  simp only [map_sub]
  ring

/-- `C = U† T` with orthonormal columns of `U`: the squared distance of `U C` to `T` is the squared norm lost -/
theorem left_proj {a i1 j1 c g : Nat} {U C : Nat → Nat → Nat → K} {T : Nat → Nat → Nat → Nat → K}
    (hU : ∀ m m', m < g → m' < g → ∑ x ∈ Finset.range a, ∑ i ∈ Finset.range i1, star (U x i m) * U x i m' = if m = m' then 1 else 0)
    (hC : ∀ m j y, m < g → j < j1 → y < c → ∑ x ∈ Finset.range a, ∑ i ∈ Finset.range i1, star (U x i m) * T x i j y = C m j y) :
    ∑ x ∈ Finset.range a, ∑ i ∈ Finset.range i1, ∑ j ∈ Finset.range j1, ∑ y ∈ Finset.range c,
      ‖T x i j y - ∑ m ∈ Finset.range g, U x i m * C m j y‖ ^ 2 =
    (∑ x ∈ Finset.range a, ∑ i ∈ Finset.range i1, ∑ j ∈ Finset.range j1, ∑ y ∈ Finset.range c, ‖T x i j y‖ ^ 2) -
    ∑ x ∈ Finset.range a, ∑ i ∈ Finset.range i1, ∑ j ∈ Finset.range j1, ∑ y ∈ Finset.range c,
      ‖∑ m ∈ Finset.range g, U x i m * C m j y‖ ^ 2 := by
  -- the sum over the rows, for one column
  have col : ∀ j y, j < j1 → y < c → ∑ x ∈ Finset.range a, ∑ i ∈ Finset.range i1, ‖T x i j y - ∑ m ∈ Finset.range g, U x i m * C m j y‖ ^ 2 =
      (∑ x ∈ Finset.range a, ∑ i ∈ Finset.range i1, ‖T x i j y‖ ^ 2) -
        ∑ x ∈ Finset.range a, ∑ i ∈ Finset.range i1, ‖∑ m ∈ Finset.range g, U x i m * C m j y‖ ^ 2 := by
    intro j y hj hy
    have ov : ∀ G : Nat → Nat → K, ∑ x ∈ Finset.range a, ∑ i ∈ Finset.range i1, star (∑ m ∈ Finset.range g, U x i m * C m j y) * G x i =
        ∑ m ∈ Finset.range g, star (C m j y) * ∑ x ∈ Finset.range a, ∑ i ∈ Finset.range i1, star (U x i m) * G x i := by
      intro G
      simp only [star_sum, star_mul', Finset.sum_mul, Finset.mul_sum]
      rw [Finset.sum_congr rfl fun x _ => Finset.sum_comm, Finset.sum_comm]
      exact Finset.sum_congr rfl fun m _ => Finset.sum_congr rfl fun x _ => Finset.sum_congr rfl fun i _ => by ring
    have o1 := ov fun x i => T x i j y
    have e1 : ∀ m ∈ Finset.range g, star (C m j y) * (∑ x ∈ Finset.range a, ∑ i ∈ Finset.range i1, star (U x i m) * T x i j y) =
        star (C m j y) * C m j y := fun m hm => by rw [hC m j y (Finset.mem_range.1 hm) hj hy]
    rw [Finset.sum_congr rfl e1] at o1
    have o2 := ov fun x i => ∑ m ∈ Finset.range g, U x i m * C m j y
    have e2 : ∀ m ∈ Finset.range g, star (C m j y) * ∑ x ∈ Finset.range a, ∑ i ∈ Finset.range i1, star (U x i m) * ∑ m' ∈ Finset.range g, U x i m' * C m' j y =
        star (C m j y) * C m j y := by
      intro m hm
      congr 1
      have : ∑ x ∈ Finset.range a, ∑ i ∈ Finset.range i1, star (U x i m) * ∑ m' ∈ Finset.range g, U x i m' * C m' j y =
          ∑ m' ∈ Finset.range g, (∑ x ∈ Finset.range a, ∑ i ∈ Finset.range i1, star (U x i m) * U x i m') * C m' j y := by
        simp only [Finset.sum_mul, Finset.mul_sum]
        rw [Finset.sum_congr rfl fun x _ => Finset.sum_comm, Finset.sum_comm]
        exact Finset.sum_congr rfl fun m _ => Finset.sum_congr rfl fun x _ => Finset.sum_congr rfl fun i _ => by ring
      rw [this, Finset.sum_congr rfl fun m' hm' => by rw [hU m m' (Finset.mem_range.1 hm) (Finset.mem_range.1 hm')]]
      simp only [ite_mul, one_mul, zero_mul]
      rw [Finset.sum_ite_eq, if_pos hm]
    rw [Finset.sum_congr rfl e2, ← o1] at o2
    have r : ∑ x ∈ Finset.range a, ∑ i ∈ Finset.range i1, RCLike.re (star (∑ m ∈ Finset.range g, U x i m * C m j y) * T x i j y) =
        ∑ x ∈ Finset.range a, ∑ i ∈ Finset.range i1, ‖∑ m ∈ Finset.range g, U x i m * C m j y‖ ^ 2 := by
      have := congrArg RCLike.re o2
      simp only [map_sum] at this
      rw [← this]
      refine Finset.sum_congr rfl fun x _ => Finset.sum_congr rfl fun i _ => ?_
      rw [RCLike.star_def, RCLike.conj_mul, ← RCLike.ofReal_pow, RCLike.ofReal_re]
    simp only [re_line, Finset.sum_sub_distrib, Finset.sum_add_distrib, ← Finset.mul_sum]
    rw [r]; ring
  have re : ∀ F : Nat → Nat → Nat → Nat → ℝ, ∑ x ∈ Finset.range a, ∑ i ∈ Finset.range i1, ∑ j ∈ Finset.range j1, ∑ y ∈ Finset.range c, F x i j y =
      ∑ j ∈ Finset.range j1, ∑ y ∈ Finset.range c, ∑ x ∈ Finset.range a, ∑ i ∈ Finset.range i1, F x i j y := by
    intro F
    rw [Finset.sum_congr rfl fun x _ => Finset.sum_comm, Finset.sum_comm]
    refine Finset.sum_congr rfl fun j _ => ?_
    rw [Finset.sum_congr rfl fun x _ => Finset.sum_comm, Finset.sum_comm]
  rw [re, re, re, ← Finset.sum_sub_distrib]
  refine Finset.sum_congr rfl fun j hj => ?_
  rw [← Finset.sum_sub_distrib]
  exact Finset.sum_congr rfl fun y hy => col j y (Finset.mem_range.1 hj) (Finset.mem_range.1 hy)

/-- the same from the right: `B = T V†` with orthonormal rows of `V` -/
theorem right_proj {a i1 j1 c g : Nat} {B V : Nat → Nat → Nat → K} {T : Nat → Nat → Nat → Nat → K}
    (hV : ∀ m m', m < g → m' < g → ∑ j ∈ Finset.range j1, ∑ y ∈ Finset.range c, V m j y * star (V m' j y) = if m = m' then 1 else 0)
    (hB : ∀ x i m, x < a → i < i1 → m < g → ∑ j ∈ Finset.range j1, ∑ y ∈ Finset.range c, T x i j y * star (V m j y) = B x i m) :
    ∑ x ∈ Finset.range a, ∑ i ∈ Finset.range i1, ∑ j ∈ Finset.range j1, ∑ y ∈ Finset.range c,
      ‖T x i j y - ∑ m ∈ Finset.range g, B x i m * V m j y‖ ^ 2 =
    (∑ x ∈ Finset.range a, ∑ i ∈ Finset.range i1, ∑ j ∈ Finset.range j1, ∑ y ∈ Finset.range c, ‖T x i j y‖ ^ 2) -
    ∑ x ∈ Finset.range a, ∑ i ∈ Finset.range i1, ∑ j ∈ Finset.range j1, ∑ y ∈ Finset.range c,
      ‖∑ m ∈ Finset.range g, B x i m * V m j y‖ ^ 2 := by
  have := left_proj (a := j1) (i1 := c) (j1 := a) (c := i1) (g := g) (U := fun j y m => V m j y) (C := fun m x i => B x i m) (T := fun j y x i => T x i j y)
    (by
      intro m m' hm hm'
      rw [← Finset.sum_congr rfl fun j _ => Finset.sum_congr rfl fun y _ => mul_comm (V m' j y) (star (V m j y)), hV m' m hm' hm]
      simp only [eq_comm])
    (by
      intro m x i hm hx hi
      rw [← hB x i m hx hi hm]
      exact Finset.sum_congr rfl fun _ _ => Finset.sum_congr rfl fun _ _ => mul_comm _ _)
  have re : ∀ F : Nat → Nat → Nat → Nat → ℝ, ∑ j ∈ Finset.range j1, ∑ y ∈ Finset.range c, ∑ x ∈ Finset.range a, ∑ i ∈ Finset.range i1, F x i j y =
      ∑ x ∈ Finset.range a, ∑ i ∈ Finset.range i1, ∑ j ∈ Finset.range j1, ∑ y ∈ Finset.range c, F x i j y := by
    intro F
    rw [Finset.sum_congr rfl fun x _ => Finset.sum_comm, Finset.sum_comm]
    refine Finset.sum_congr rfl fun j _ => ?_
    rw [Finset.sum_congr rfl fun x _ => Finset.sum_comm, Finset.sum_comm]
  rw [re (fun x i j y => ‖T x i j y - ∑ m ∈ Finset.range g, V m j y * B x i m‖ ^ 2), re (fun x i j y => ‖T x i j y‖ ^ 2),
    re (fun x i j y => ‖∑ m ∈ Finset.range g, V m j y * B x i m‖ ^ 2)] at this
  simpa only [mul_comm] using this

end MPS
