import Verif.ConstraintSpec
import Verif.MinimizerLemmas6

set_option linter.unusedSectionVars false
set_option linter.unusedSimpArgs false

namespace MPS.Minim
open MPS Tensor Form
variable {K : Type} [RCLike K]

theorem joined_unit {a d d' b : Nat} {I J : List Nat} (hI : IsCfg [a, d, d', b] I) (hJ : IsCfg [a, d, d', b] J) :
    joined 1 (unitTensor (K := K) [a, d, 1] [I.getD 0 0, I.getD 1 0, 0]) (unitTensor [1, d', b] [0, I.getD 2 0, I.getD 3 0]) J =
      if J = I then 1 else 0 := by
  obtain ⟨x, i, j, y, rfl, -⟩ := isCfg4 hI
  obtain ⟨x', i', j', y', rfl, -⟩ := isCfg4 hJ
  simp only [joined, unitTensor, Finset.sum_range_one, List.getD_cons_zero, List.getD_cons_succ, List.cons.injEq, and_true, true_and]
  by_cases h1 : x' = x <;> by_cases h2 : i' = i <;> by_cases h3 : j' = j <;> by_cases h4 : y' = y <;> simp [h1, h2, h3, h4]

/-- a state which differs at a pair of sites as a combination of block states -/
theorem expand_blocks {a b d d' n : Nat} {pre post : List (Tensor K)} {A B : Tensor K} {ds1 ds3 : List Nat}
    (w1 : WF 1 pre ds1 a) (hA : A.dims = [a, d, n]) (hB : B.dims = [n, d', b])
    (hpos : 0 < a ∧ 0 < d ∧ 0 < n ∧ 0 < d' ∧ 0 < b) (w4 : WF b post ds3 1) {s : List Nat} (hs : IsCfg (ds1 ++ d :: d' :: ds3) s) :
    amp (pre ++ A :: B :: post) s = sumCfg [a, d, d', b] fun I => joined n A B I *
      amp (pre ++ unitTensor [a, d, 1] [I.getD 0 0, I.getD 1 0, 0] :: unitTensor [1, d', b] [0, I.getD 2 0, I.getD 3 0] :: post) s := by
  obtain ⟨p1, p2, p3, p4, p5⟩ := hpos
  obtain ⟨s1, s2, rfl, hs1, hs2⟩ := isCfg_split hs
  cases hs2 with
  | @cons i _ s2 _ hi hs2 =>
  cases hs2 with
  | @cons j _ s3 _ hj hs3 =>
  have wA : WF 1 (pre ++ A :: B :: post) (ds1 ++ d :: d' :: ds3) 1 := w1.append (WF.cons hA p1 p2 p3 (WF.cons hB p3 p4 p5 w4))
  rw [amp_of_WF wA (by simp), Finset.sum_range_one, path_pair_expand w1 hA hB ⟨p1, p2, p3, p4, p5⟩ w4 hs1 i j (by omega)]
  have hblk : ∀ x < a, ∀ i' < d, ∀ j' < d', ∀ y < b, amp (pre ++ unitTensor [a, d, 1] [x, i', 0] :: unitTensor [1, d', b] [0, j', y] :: post)
      (s1 ++ i :: j :: s3) = if i' = i ∧ j' = j then path pre s1 0 x * path post s3 y 0 else 0 := by
    intro x hx i' hi' j' hj' y hy
    have wU : WF 1 (pre ++ unitTensor (K := K) [a, d, 1] [x, i', 0] :: unitTensor [1, d', b] [0, j', y] :: post) (ds1 ++ d :: d' :: ds3) 1 :=
      w1.append (WF.cons rfl p1 p2 Nat.one_pos (WF.cons rfl Nat.one_pos p4 p5 w4))
    rw [amp_of_WF wU (by simp), Finset.sum_range_one, path_pair_expand w1 rfl rfl ⟨p1, p2, Nat.one_pos, p4, p5⟩ w4 hs1 i j (by omega),
      Finset.sum_eq_single_of_mem x (Finset.mem_range.2 hx), Finset.sum_eq_single_of_mem y (Finset.mem_range.2 hy)]
    · by_cases h : i' = i ∧ j' = j
      · obtain ⟨rfl, rfl⟩ := h; simp [unitTensor]
      · rw [if_neg h]
        rw [not_and_or] at h
        rcases h with h | h <;> simp [unitTensor, Ne.symm h]
    · intro y' _ hy'
      simp [unitTensor, hy']
    · intro x' _ hx'
      simp [unitTensor, hx']
  simp only [sumCfg_cons, sumCfg_nil, List.getD_cons_zero, List.getD_cons_succ]
  refine Finset.sum_congr rfl fun x hx => ?_
  rw [Finset.mul_sum, Finset.sum_eq_single_of_mem i (Finset.mem_range.2 hi), Finset.sum_eq_single_of_mem j (Finset.mem_range.2 hj)]
  · refine Finset.sum_congr rfl fun y hy => ?_
    rw [hblk x (Finset.mem_range.1 hx) i hi j hj y (Finset.mem_range.1 hy), if_pos ⟨rfl, rfl⟩]
    simp only [joined, List.getD_cons_zero, List.getD_cons_succ]
    ring
  · intro j' hj' hne
    refine Finset.sum_eq_zero fun y hy => ?_
    rw [hblk x (Finset.mem_range.1 hx) i hi j' (Finset.mem_range.1 hj') y (Finset.mem_range.1 hy), if_neg (by tauto), mul_zero]
  · intro i' hi' hne
    refine Finset.sum_eq_zero fun j' hj' => Finset.sum_eq_zero fun y hy => ?_
    rw [hblk x (Finset.mem_range.1 hx) i' (Finset.mem_range.1 hi') j' (Finset.mem_range.1 hj') y (Finset.mem_range.1 hy), if_neg (by tauto), mul_zero]

/-- sums over the elements of a sublist of `0, …, n-1` -/
theorem sum_filter {M : Type} [AddCommMonoid M] (p : Nat → Bool) (f : Nat → M) (n : Nat) :
    ∑ j ∈ Finset.range ((List.range n).filter p).length, f (((List.range n).filter p).getD j 0) =
      ∑ m ∈ Finset.range n, if p m = true then f m else 0 := by
  have h1 : ∀ l : List Nat, ∑ j ∈ Finset.range l.length, f (l.getD j 0) = (l.map f).sum := by
    intro l
    induction l with
    | nil => simp
    | cons x l ih =>
      rw [List.length_cons, Finset.sum_range_succ', List.map_cons, List.sum_cons, ← ih, add_comm]
      simp
  rw [h1]
  induction n with
  | zero => simp
  | succ n ih =>
    rw [List.range_succ, List.filter_append, List.map_append, List.sum_append, ih, Finset.sum_range_succ]
    congr 1
    by_cases h : p n = true
    · simp [h]
    · simp [h]

end MPS.Minim
