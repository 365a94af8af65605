import Verif.ApplyProj3
import Verif.SchmidtSpec
import Verif.EckartYoung
import Verif.SvdSorted

/-! # A truncated pair is the best approximation with the given bond -/

set_option linter.unusedSectionVars false
set_option linter.unusedSimpArgs false

namespace MPS.Trotter
open MPS Tensor Minim Order MPS.Props
variable {K : Type} [RCLike K]

theorem wtt_cap (eps dflt : ℝ) (s : List ℝ) (tol : ℝ) {D : Nat} (hD : 0 < D) (hd : 0 ≤ dflt) (h : 0 < effTol dflt tol) :
    let g := whereToTruncate eps dflt s tol D
    g = D ∨ discarded s g ≤ max (effTol dflt tol) eps * discarded s 0 := by
  intro g
  rcases Nat.lt_or_ge D s.length with hl | hl
  swap
  · exact Or.inr (wtt_lost eps dflt s tol D (by omega) hd h)
  have key : ∀ t, 0 < t → whereToTruncate eps dflt s t D = D ∨ discarded s (whereToTruncate eps dflt s t D) ≤ max t eps * discarded s 0 := by
    intro t ht
    obtain ⟨c1, c2, c3, c4, c5, c6⟩ := C18_truncate eps dflt s t ht.le D
    rw [if_pos (by omega)] at c3 c5
    by_cases h1 : 1 ≤ t
    · left; simpa using c3 h1
    · by_cases hn : whereToTruncate eps dflt s t D < D
      · exact Or.inr (c5 ht (by linarith) (by simpa using hn))
      · left
        have := c2 (by omega)
        omega
  simp only [g]
  unfold effTol at h ⊢
  by_cases ht : tol < 0
  · rw [if_pos ht] at h ⊢
    rw [C18_default eps dflt s tol ht hd]
    exact key dflt h
  · rw [if_neg ht] at h ⊢
    exact key tol h

theorem sumCfg_mono {ds : List Nat} {F G : List Nat → ℝ} (h : ∀ s, IsCfg ds s → F s ≤ G s) : sumCfg ds F ≤ sumCfg ds G := by
  have := sumCfg_nonneg ds (fun s => G s - F s) fun s hs => by have := h s hs; linarith
  have e : sumCfg ds G = sumCfg ds F + sumCfg ds fun s => G s - F s := by
    rw [← sumCfg_add]; exact sumCfg_congr fun s _ => by ring
  linarith

/-- Bessel's inequality -/
theorem bessel {ds : List Nat} {n : Nat} {L : List Nat → Nat → K}
    (h : ∀ x x', x < n → x' < n → sumCfg ds (fun l => star (L l x) * L l x') = if x = x' then 1 else 0) (F : List Nat → K) :
    ∑ x ∈ Finset.range n, ‖sumCfg ds (fun l => star (L l x) * F l)‖ ^ 2 ≤ sumCfg ds fun l => ‖F l‖ ^ 2 := by
  set c : Nat → K := fun x => sumCfg ds (fun l => star (L l x) * F l) with hc
  let f : List Nat → K := fun l => ∑ x ∈ Finset.range n, L l x * c x
  have e := Obc.dist_expand ds f F
  have hpos : 0 ≤ sumCfg ds (fun s => ‖f s - F s‖ ^ 2) := sumCfg_nonneg _ _ fun _ _ => by positivity
  have hin : ∀ G : List Nat → K, sumCfg ds (fun l => star (f l) * G l) = ∑ x ∈ Finset.range n, star (c x) * sumCfg ds (fun l => star (L l x) * G l) := by
    intro G
    simp only [← sumCfg_mul_left]
    rw [← sumCfg_sum]
    refine sumCfg_congr fun l _ => ?_
    simp only [f, star_sum, Finset.sum_mul, star_mul']
    exact Finset.sum_congr rfl fun x _ => by ring
  have h1 : sumCfg ds (fun l => star (f l) * F l) = ((∑ x ∈ Finset.range n, ‖c x‖ ^ 2 : ℝ) : K) := by
    rw [hin, RCLike.ofReal_sum]
    exact Finset.sum_congr rfl fun x _ => by rw [ofReal_normSq]
  have h2 : ∀ x ∈ Finset.range n, sumCfg ds (fun l => star (L l x) * f l) = c x := by
    intro x hx
    have : ∀ l, star (L l x) * f l = ∑ x' ∈ Finset.range n, (star (L l x) * L l x') * c x' := by
      intro l; simp only [f, Finset.mul_sum]; exact Finset.sum_congr rfl fun _ _ => by ring
    simp only [this]
    rw [sumCfg_sum, Finset.sum_congr rfl fun x' hx' => by rw [sumCfg_mul_right, h x x' (Finset.mem_range.1 hx) (Finset.mem_range.1 hx')]]
    simp only [ite_mul, one_mul, zero_mul]
    rw [Finset.sum_ite_eq, if_pos hx]
  have h3 : sumCfg ds (fun l => star (f l) * f l) = ((∑ x ∈ Finset.range n, ‖c x‖ ^ 2 : ℝ) : K) := by
    rw [hin, RCLike.ofReal_sum]
    exact Finset.sum_congr rfl fun x hx => by rw [h2 x hx, ofReal_normSq]
  have h4 : sumCfg ds (fun l => ‖f l‖ ^ 2) = ∑ x ∈ Finset.range n, ‖c x‖ ^ 2 := by
    have := inner_self_ofReal ds f
    unfold MPS.inner at this
    rw [h3] at this
    exact (RCLike.ofReal_injective this).symm
  rw [h1, h4, RCLike.ofReal_re] at e
  linarith

/-- overlap of a wave function with the block states on both sides of a pair -/
noncomputable def ovP (ds1 ds3 : List Nat) (pre post : List (Tensor K)) (F : List Nat → K) (x i j y : Nat) : K :=
  sumCfg ds3 fun r => star (path post r y 0) * sumCfg ds1 fun l => star (path pre l 0 x) * F (l ++ i :: j :: r)

theorem ovP_sub (ds1 ds3 : List Nat) (pre post : List (Tensor K)) (F G : List Nat → K) (x i j y : Nat) :
    ovP ds1 ds3 pre post (fun s => F s - G s) x i j y = ovP ds1 ds3 pre post F x i j y - ovP ds1 ds3 pre post G x i j y := by
  have sub : ∀ (ds : List Nat) (f g : List Nat → K), sumCfg ds (fun s => f s - g s) = sumCfg ds f - sumCfg ds g := by
    intro ds f g
    have h := sumCfg_add ds (fun s => f s - g s) g
    simp only [sub_add_cancel] at h
    rw [h]; ring
  unfold ovP
  rw [← sub]
  refine sumCfg_congr fun r _ => ?_
  rw [← mul_sub, ← sub]
  exact congrArg _ (sumCfg_congr fun l _ => by ring)

theorem bessel_pair {ds1 ds3 : List Nat} {pre post : List (Tensor K)} {c d d2 f : Nat} (w1 : WF 1 pre ds1 c) (w4 : WF f post ds3 1)
    (hpre : ∀ A ∈ pre, LeftIso A) (hpost : ∀ A ∈ post, RightIso A) (F : List Nat → K) :
    ∑ x ∈ Finset.range c, ∑ i ∈ Finset.range d, ∑ j ∈ Finset.range d2, ∑ y ∈ Finset.range f, ‖ovP ds1 ds3 pre post F x i j y‖ ^ 2 ≤
      sumCfg (ds1 ++ d :: d2 :: ds3) fun s => ‖F s‖ ^ 2 := by
  have b1 : ∀ x i j, ∑ y ∈ Finset.range f, ‖ovP ds1 ds3 pre post F x i j y‖ ^ 2 ≤
      sumCfg ds3 fun r => ‖sumCfg ds1 fun l => star (path pre l 0 x) * F (l ++ i :: j :: r)‖ ^ 2 := by
    intro x i j
    refine bessel (L := fun r y => path post r y 0) (fun y y' hy hy' => ?_) _
    have := right_chain w4 hpost y' y hy' hy
    rw [Finset.sum_range_one] at this
    rw [show (if y = y' then (1 : K) else 0) = if y' = y then 1 else 0 by simp [eq_comm], ← this]
    exact sumCfg_congr fun _ _ => by ring
  have b2 : ∀ i j r, ∑ x ∈ Finset.range c, ‖sumCfg ds1 fun l => star (path pre l 0 x) * F (l ++ i :: j :: r)‖ ^ 2 ≤ sumCfg ds1 fun l => ‖F (l ++ i :: j :: r)‖ ^ 2 := by
    intro i j r
    refine bessel (L := fun l x => path pre l 0 x) (fun x x' hx hx' => ?_) _
    have := left_chain w1 hpre x x' hx hx'
    rwa [Finset.sum_range_one] at this
  refine (Finset.sum_le_sum fun x _ => Finset.sum_le_sum fun i _ => Finset.sum_le_sum fun j _ => b1 x i j).trans ?_
  rw [sumCfg_append, sumCfg_comm]
  rw [sumCfg_cons, Finset.sum_comm]
  refine Finset.sum_le_sum fun i _ => ?_
  rw [sumCfg_cons, Finset.sum_comm]
  refine Finset.sum_le_sum fun j _ => ?_
  rw [← sumCfg_sum]
  exact sumCfg_mono fun r _ => b2 i j r

/-- the truncation of a pair compared with any state of the same Schmidt rank -/
theorem pair_total {svd : Tensor K → SvdRes K} (hg : GoodSvd svd) {ds1 ds3 : List Nat} {pre post : List (Tensor K)} {c d d2 f : Nat}
    (hpos : 0 < c ∧ 0 < d ∧ 0 < d2 ∧ 0 < f) (w1 : WF 1 pre ds1 c) (w4 : WF f post ds3 1) (hpre : ∀ A ∈ pre, LeftIso A) (hpost : ∀ A ∈ post, RightIso A)
    {A : Tensor K} (hA : A.dims = [c * d, d2 * f]) (T : List Nat → K)
    (hget : ∀ x i j y, x < c → i < d → j < d2 → y < f → A.get [x + c * i, j + d2 * y] = ovP ds1 ds3 pre post T x i j y) :
    discarded (svd A).s 0 ≤ (sumCfg (ds1 ++ d :: d2 :: ds3) fun s => ‖T s‖ ^ 2) := by
  obtain ⟨hc, hd, hd2, hf⟩ := hpos
  have hsvd := hg A _ _ hA (Nat.mul_pos hc hd) (Nat.mul_pos hd2 hf)
  have re : ∀ G : Nat → Nat → ℝ, ∑ p ∈ Finset.range (c * d), ∑ q ∈ Finset.range (d2 * f), G p q =
      ∑ x ∈ Finset.range c, ∑ i ∈ Finset.range d, ∑ j ∈ Finset.range d2, ∑ y ∈ Finset.range f, G (x + c * i) (j + d2 * y) := by
    intro G
    rw [sum_range_mul, Finset.sum_comm]
    refine Finset.sum_congr rfl fun x _ => Finset.sum_congr rfl fun i _ => ?_
    rw [sum_range_mul, Finset.sum_comm]
  rw [← hsvd.total, re]
  refine le_trans (le_of_eq ?_) (bessel_pair w1 w4 hpre hpost T)
  exact Finset.sum_congr rfl fun x hx => Finset.sum_congr rfl fun i hi => Finset.sum_congr rfl fun j hj => Finset.sum_congr rfl fun y hy => by
    rw [hget x i j y (Finset.mem_range.1 hx) (Finset.mem_range.1 hi) (Finset.mem_range.1 hj) (Finset.mem_range.1 hy)]

theorem pair_opt {svd : Tensor K → SvdRes K} (hg : GoodSvd svd) (hsort : SortedSvd svd) {ds1 ds3 : List Nat} {pre post : List (Tensor K)} {c d d2 f : Nat}
    (hpos : 0 < c ∧ 0 < d ∧ 0 < d2 ∧ 0 < f) (w1 : WF 1 pre ds1 c) (w4 : WF f post ds3 1) (hpre : ∀ A ∈ pre, LeftIso A) (hpost : ∀ A ∈ post, RightIso A)
    {A : Tensor K} (hA : A.dims = [c * d, d2 * f]) (T : List Nat → K)
    (hget : ∀ x i j y, x < c → i < d → j < d2 → y < f → A.get [x + c * i, j + d2 * y] = ovP ds1 ds3 pre post T x i j y) :
    discarded (svd A).s 0 ≤ (sumCfg (ds1 ++ d :: d2 :: ds3) fun s => ‖T s‖ ^ 2) ∧
    ∀ (D : Nat) (φ : List Nat → K), SchmidtRank (ds1 ++ d :: d2 :: ds3) (pre.length + 1) D φ →
      discarded (svd A).s D ≤ sumCfg (ds1 ++ d :: d2 :: ds3) fun s => ‖T s - φ s‖ ^ 2 := by
  refine ⟨pair_total hg hpos w1 w4 hpre hpost hA T hget, ?_⟩
  obtain ⟨hc, hd, hd2, hf⟩ := hpos
  have hsvd := hg A _ _ hA (Nat.mul_pos hc hd) (Nat.mul_pos hd2 hf)
  have re : ∀ G : Nat → Nat → ℝ, ∑ p ∈ Finset.range (c * d), ∑ q ∈ Finset.range (d2 * f), G p q =
      ∑ x ∈ Finset.range c, ∑ i ∈ Finset.range d, ∑ j ∈ Finset.range d2, ∑ y ∈ Finset.range f, G (x + c * i) (j + d2 * y) := by
    intro G
    rw [sum_range_mul, Finset.sum_comm]
    refine Finset.sum_congr rfl fun x _ => Finset.sum_congr rfl fun i _ => ?_
    rw [sum_range_mul, Finset.sum_comm]
  rintro D φ ⟨X, Y, hφ⟩
  have hlen := w1.length
  let X' : Nat → Nat → Nat → K := fun x i k => sumCfg ds1 fun l => star (path pre l 0 x) * X k (l ++ [i])
  let Y' : Nat → Nat → Nat → K := fun k j y => sumCfg ds3 fun r => star (path post r y 0) * Y k (j :: r)
  have h0 : ∀ i, 0 ≤ (svd A).s.getD i 0 := by
    intro i
    by_cases hi : i < (svd A).s.length
    · rw [List.getD_eq_getElem _ _ hi]; exact (hsort A).1 _ (List.getElem_mem hi)
    · rw [List.getD_eq_default _ _ (by omega)]
  refine (eckart_young hsvd h0 (hsort A).2 D (fun p k => X' (p % c) (p / c) k) (fun k q => Y' k (q % d2) (q / d2))).trans ?_
  rw [re]
  refine le_trans (le_of_eq ?_) (bessel_pair w1 w4 hpre hpost fun s => T s - φ s)
  refine Finset.sum_congr rfl fun x hx => Finset.sum_congr rfl fun i hi => Finset.sum_congr rfl fun j hj => Finset.sum_congr rfl fun y hy => ?_
  have hx := Finset.mem_range.1 hx
  have hi := Finset.mem_range.1 hi
  have hj := Finset.mem_range.1 hj
  have hy := Finset.mem_range.1 hy
  rw [hget x i j y hx hi hj hy, Nat.add_mul_mod_self_left, Nat.mod_eq_of_lt hx, Nat.add_mul_mod_self_left, Nat.mod_eq_of_lt hj,
    Nat.add_mul_div_left _ _ hc, Nat.div_eq_of_lt hx, Nat.add_mul_div_left _ _ hd2, Nat.div_eq_of_lt hj, Nat.zero_add, Nat.zero_add]
  congr 2
  have hT : ∀ l r, IsCfg ds1 l → IsCfg ds3 r → φ (l ++ i :: j :: r) = ∑ k ∈ Finset.range D, X k (l ++ [i]) * Y k (j :: r) := by
    intro l r hl hr
    have hll : pre.length = l.length := by rw [hlen, hl.length]
    rw [hφ _ (isCfg_append hl (.cons hi (.cons hj hr)))]
    refine Finset.sum_congr rfl fun k _ => ?_
    rw [hll]
    have e1 : (l ++ i :: j :: r).take (l.length + 1) = l ++ [i] := by simp [List.take_append]
    have e2 : (l ++ i :: j :: r).drop (l.length + 1) = j :: r := by simp [List.drop_append]
    rw [e1, e2]
  have e : ovP ds1 ds3 pre post φ x i j y = ∑ k ∈ Finset.range D, X' x i k * Y' k j y := by
    unfold ovP
    simp only [X', Y']
    have e1 : ∀ r, IsCfg ds3 r → star (path post r y 0) * sumCfg ds1 (fun l => star (path pre l 0 x) * φ (l ++ i :: j :: r)) =
        ∑ k ∈ Finset.range D, (sumCfg ds1 fun l => star (path pre l 0 x) * X k (l ++ [i])) * (star (path post r y 0) * Y k (j :: r)) := by
      intro r hr
      have e2 : sumCfg ds1 (fun l => star (path pre l 0 x) * φ (l ++ i :: j :: r)) = ∑ k ∈ Finset.range D, (sumCfg ds1 fun l => star (path pre l 0 x) * X k (l ++ [i])) * Y k (j :: r) := by
        simp only [← sumCfg_mul_right]
        rw [← sumCfg_sum]
        refine sumCfg_congr fun l hl => ?_
        rw [hT l r hl hr, Finset.mul_sum]
        exact Finset.sum_congr rfl fun _ _ => by ring
      rw [e2, Finset.mul_sum]
      exact Finset.sum_congr rfl fun _ _ => by ring
    rw [sumCfg_congr e1, sumCfg_sum]
    exact Finset.sum_congr rfl fun k _ => by rw [sumCfg_mul_left]
  rw [← e, ← ovP_sub]

end MPS.Trotter
