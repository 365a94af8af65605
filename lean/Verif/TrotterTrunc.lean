import Verif.TrotterLemmas4
import Verif.ObcLemmas

/-! # Weight lost by `set_canonical` on a state in canonical form -/

set_option linter.unusedSectionVars false
set_option linter.unusedSimpArgs false

namespace MPS
open Tensor Props
variable {K : Type} [RCLike K]

theorem wtt_lost (eps dflt : ℝ) (s : List ℝ) (tol : ℝ) (M : Int) (hM : (s.length : Int) ≤ M) (hd : 0 ≤ dflt) (h : 0 < effTol dflt tol) :
    discarded s (whereToTruncate eps dflt s tol M) ≤ max (effTol dflt tol) eps * discarded s 0 := by
  have hpos : 0 ≤ max (effTol dflt tol) eps * discarded s 0 := mul_nonneg (h.le.trans (le_max_left _ _)) (discarded_nonneg _ _)
  by_cases h1 : 1 ≤ effTol dflt tol
  · rw [wtt_lossless eps dflt s tol M hM hd (Or.inr h1)]; exact hpos
  have key : ∀ t, 0 < t → t < 1 → discarded s (whereToTruncate eps dflt s t M) ≤ max t eps * discarded s 0 := by
    intro t ht ht1
    obtain ⟨c1, c2, c3, c4, c5, c6⟩ := C18_truncate eps dflt s t ht.le M
    rw [if_neg (by omega)] at c5
    by_cases hn : whereToTruncate eps dflt s t M < s.length
    · exact c5 ht ht1 hn
    · have e : discarded s (whereToTruncate eps dflt s t M) = 0 := by
        unfold discarded; rw [Finset.Ico_eq_empty (by omega)]; rfl
      rw [e]
      exact mul_nonneg (ht.le.trans (le_max_left _ _)) (discarded_nonneg _ _)
  unfold effTol at h h1 ⊢
  by_cases ht : tol < 0
  · rw [if_pos ht] at h h1 ⊢
    rw [C18_default eps dflt s tol ht hd]
    exact key dflt h (by linarith)
  · rw [if_neg ht] at h h1 ⊢
    exact key tol h (by linarith)

theorem IsSVD.rowsV {A : Tensor K} {m n : Nat} {r : SvdRes K} (h : IsSVD A m n r) {k : Nat} (hk : k < min m n) :
    ∑ j ∈ Finset.range n, ‖r.V.get [k, j] * ((r.s.getD k 0 : ℝ) : K)‖ ^ 2 = r.s.getD k 0 ^ 2 := by
  have h1 := h.isoV k k hk hk
  rw [if_pos rfl] at h1
  have h2 : ∑ j ∈ Finset.range n, ‖r.V.get [k, j]‖ ^ 2 = 1 := by
    apply RCLike.ofReal_injective (K := K)
    rw [RCLike.ofReal_sum, RCLike.ofReal_one, ← h1]
    exact Finset.sum_congr rfl fun j _ => by rw [ofReal_normSq, mul_comm]
  simp only [norm_mul, mul_pow, RCLike.norm_ofReal, sq_abs]
  rw [← Finset.sum_mul, h2, one_mul]

theorem IsSVD.colsU {A : Tensor K} {m n : Nat} {r : SvdRes K} (h : IsSVD A m n r) {k : Nat} (hk : k < min m n) :
    ∑ i ∈ Finset.range m, ‖r.U.get [i, k] * ((r.s.getD k 0 : ℝ) : K)‖ ^ 2 = r.s.getD k 0 ^ 2 := by
  have h1 := h.isoU k k hk hk
  rw [if_pos rfl] at h1
  have h2 : ∑ i ∈ Finset.range m, ‖r.U.get [i, k]‖ ^ 2 = 1 := by
    apply RCLike.ofReal_injective (K := K)
    rw [RCLike.ofReal_sum, RCLike.ofReal_one, ← h1]
    exact Finset.sum_congr rfl fun j _ => by rw [ofReal_normSq]
  simp only [norm_mul, mul_pow, RCLike.norm_ofReal, sq_abs]
  rw [← Finset.sum_mul, h2, one_mul]

theorem kept_sum {s : List ℝ} {p : Nat} (hp : p ≤ s.length) : ∑ k ∈ Finset.range p, s.getD k 0 ^ 2 = discarded s 0 - discarded s p := by
  unfold discarded
  rw [← Finset.range_eq_Ico, ← Finset.sum_range_add_sum_Ico (fun k => s.getD k 0 ^ 2) hp, add_sub_cancel_right]

theorem splitRight_norm {svd : Tensor K → SvdRes K} (hg : GoodSvd svd) (eps : ℝ) {dflt : ℝ} (hd0 : 0 < dflt)
    {t : Tensor K} {a d b : Nat} (h : t.dims = [a, d, b]) (ha : 0 < a) (hd : 0 < d) (hb : 0 < b) :
    let r := splitRight svd eps dflt t true
    ∃ l, r.V.dims = [l, b] ∧ ∑ k ∈ Finset.range l, ∑ y ∈ Finset.range b, ‖r.V.get [k, y]‖ ^ 2 = sumCfg t.dims (fun I => ‖t.get I‖ ^ 2) - r.lost ∧
      r.lost ≤ max dflt eps * sumCfg t.dims (fun I => ‖t.get I‖ ^ 2) := by
  intro r
  have hai : t.size / b = a * d := by rw [size3 h, Nat.mul_div_cancel _ hb]
  have hbd : t.dims.getD (t.rank - 1) 0 = b := by simp [rank, h]
  set A := reshape t [a * d, b] with hA
  have hm : 0 < a * d := Nat.mul_pos ha hd
  have hsvd := hg A (a * d) b rfl hm hb
  set res := svd A with hres
  set l := whereToTruncate eps dflt res.s (splitTol true) (min (a * d) b : Nat) with hl
  have hAget : ∀ x i y, x < a → i < d → y < b → A.get [x + a * i, y] = t.get [x, i, y] := by
    intro x i y hx hi hy
    apply reshape_get
    · rw [h]; simp [hx, hi, hy]
    · rw [h]; simp only [flat]; ring
  have hlle : l ≤ res.s.length := wtt_le _ _ _ _ _ hd0.le
  have htot : sumCfg t.dims (fun I => ‖t.get I‖ ^ 2) = discarded res.s 0 := by
    rw [← hsvd.total, h, sum_range_mul]
    simp only [sumCfg_cons, sumCfg_nil]
    rw [Finset.sum_comm]
    refine Finset.sum_congr rfl fun i hi => Finset.sum_congr rfl fun x hx => Finset.sum_congr rfl fun y hy => ?_
    rw [hAget _ _ _ (Finset.mem_range.1 hx) (Finset.mem_range.1 hi) (Finset.mem_range.1 hy)]
  have hrV : r.V = scale (if l ≠ res.s.length then changeDim res.V 0 l else res.V) 0
      (vecOf (if l ≠ res.s.length then res.s.take l else res.s)) := by
    simp only [r, splitRight, hbd, hai, ← hA, ← hres, ← hl]
  have hrl : r.lost = discarded res.s l := by
    simp only [r, splitRight, hbd, hai, ← hA, ← hres, ← hl]
    exact cumulated_eq _ _
  have hVget : ∀ k y, k < l → y < b → r.V.get [k, y] = res.V.get [k, y] * ((res.s.getD k 0 : ℝ) : K) := by
    intro k y hk hy
    rw [hrV]
    simp only [scale, nrm_zero, List.getD_cons_zero, vecOf]
    congr 1
    · split
      · have hk2 : k < min (a * d) b := by rw [← hsvd.lenS]; omega
        simp only [changeDim, hsvd.dimsV, nrm_zero, List.getD_cons_zero]
        rw [if_pos hk2]
      · rfl
    · congr 1
      split
      · simp [List.getD_eq_getElem?_getD, List.getElem?_take, hk]
      · rfl
  refine ⟨l, ?_, ?_, ?_⟩
  · rw [hrV]
    simp only [scale]
    split
    · simp [changeDim, hsvd.dimsV]
    · next hh => rw [hsvd.dimsV, ← hsvd.lenS, not_not.mp hh]
  · rw [htot, hrl, ← kept_sum hlle]
    refine Finset.sum_congr rfl fun k hk => ?_
    have hk := Finset.mem_range.1 hk
    rw [← hsvd.rowsV (by rw [← hsvd.lenS]; omega)]
    exact Finset.sum_congr rfl fun y hy => by rw [hVget k y hk (Finset.mem_range.1 hy)]
  · rw [htot, hrl]
    have := wtt_lost eps dflt res.s (splitTol true) (min (a * d) b : Nat) (by rw [hsvd.lenS]) hd0.le (by rw [effTol_default]; exact hd0)
    rwa [effTol_default] at this

theorem splitLeft_norm {svd : Tensor K → SvdRes K} (hg : GoodSvd svd) (eps : ℝ) {dflt : ℝ} (hd0 : 0 < dflt)
    {t : Tensor K} {a d b : Nat} (h : t.dims = [a, d, b]) (ha : 0 < a) (hd : 0 < d) (hb : 0 < b) :
    let r := splitLeft svd eps dflt t true
    ∃ l, r.V.dims = [a, l] ∧ ∑ x ∈ Finset.range a, ∑ k ∈ Finset.range l, ‖r.V.get [x, k]‖ ^ 2 = sumCfg t.dims (fun I => ‖t.get I‖ ^ 2) - r.lost ∧
      r.lost ≤ max dflt eps * sumCfg t.dims (fun I => ‖t.get I‖ ^ 2) := by
  intro r
  have hai : t.size / a = d * b := by rw [size3 h, mul_assoc, Nat.mul_div_cancel_left _ ha]
  have hbd : t.dims.getD 0 0 = a := by simp [h]
  set A := reshape t [a, d * b] with hA
  have hn : 0 < d * b := Nat.mul_pos hd hb
  have hsvd := hg A a (d * b) rfl ha hn
  set res := svd A with hres
  set l := whereToTruncate eps dflt res.s (splitTol true) (min a (d * b) : Nat) with hl
  have hAget : ∀ x i y, x < a → i < d → y < b → A.get [x, i + d * y] = t.get [x, i, y] := by
    intro x i y hx hi hy
    apply reshape_get
    · rw [h]; simp [hx, hi, hy]
    · rw [h]; simp only [flat]; ring
  have hlle : l ≤ res.s.length := wtt_le _ _ _ _ _ hd0.le
  have htot : sumCfg t.dims (fun I => ‖t.get I‖ ^ 2) = discarded res.s 0 := by
    rw [← hsvd.total, h]
    simp only [sumCfg_cons, sumCfg_nil]
    refine Finset.sum_congr rfl fun x hx => ?_
    rw [sum_range_mul, Finset.sum_comm]
    refine Finset.sum_congr rfl fun i hi => Finset.sum_congr rfl fun y hy => ?_
    rw [hAget _ _ _ (Finset.mem_range.1 hx) (Finset.mem_range.1 hy) (Finset.mem_range.1 hi)]
  have hrV : r.V = scale (if l ≠ res.s.length then changeDim res.U 1 l else res.U) (-1)
      (vecOf (if l ≠ res.s.length then res.s.take l else res.s)) := by
    simp only [r, splitLeft, hbd, hai, ← hA, ← hres, ← hl]
  have hrl : r.lost = discarded res.s l := by
    simp only [r, splitLeft, hbd, hai, ← hA, ← hres, ← hl]
    exact cumulated_eq _ _
  have hUd : (if l ≠ res.s.length then changeDim res.U 1 l else res.U).dims = [a, l] := by
    split
    · simp [changeDim, hsvd.dimsU]
    · next hh => rw [hsvd.dimsU, ← hsvd.lenS, not_not.mp hh]
  have hVget : ∀ x k, x < a → k < l → r.V.get [x, k] = res.U.get [x, k] * ((res.s.getD k 0 : ℝ) : K) := by
    intro x k hx hk
    rw [hrV]
    simp only [scale, hUd, nrm_neg1, List.length_cons, List.length_nil, vecOf]
    congr 1
    · split
      · have hk2 : k < min a (d * b) := by rw [← hsvd.lenS]; omega
        simp only [changeDim, hsvd.dimsU, nrm_one, List.getD_cons_succ, List.getD_cons_zero]
        rw [if_pos hk2]
      · rfl
    · simp only [List.getD_cons_zero]
      congr 1
      split
      · simp [List.getD_eq_getElem?_getD, List.getElem?_take, hk]
      · simp
  refine ⟨l, ?_, ?_, ?_⟩
  · rw [hrV]
    simp only [scale]
    exact hUd
  · rw [htot, hrl, ← kept_sum hlle, Finset.sum_comm]
    refine Finset.sum_congr rfl fun k hk => ?_
    have hk := Finset.mem_range.1 hk
    rw [← hsvd.colsU (by rw [← hsvd.lenS]; omega)]
    exact Finset.sum_congr rfl fun y hy => by rw [hVget y k (Finset.mem_range.1 hy) hk]
  · rw [htot, hrl]
    have := wtt_lost eps dflt res.s (splitTol true) (min a (d * b) : Nat) (by rw [hsvd.lenS]) hd0.le (by rw [effTol_default]; exact hd0)
    rwa [effTol_default] at this

/-- a matrix times a right isometry -/
theorem norm_fold_right {V B : Tensor K} {l c d e : Nat} (hB : B.dims = [c, d, e]) (hi : RightIso B) :
    ∑ k ∈ Finset.range l, ∑ i ∈ Finset.range d, ∑ y ∈ Finset.range e, ‖∑ z ∈ Finset.range c, V.get [k, z] * B.get [z, i, y]‖ ^ 2
      = ∑ k ∈ Finset.range l, ∑ z ∈ Finset.range c, ‖V.get [k, z]‖ ^ 2 := by
  refine Finset.sum_congr rfl fun k _ => ?_
  apply RCLike.ofReal_injective (K := K)
  simp only [RCLike.ofReal_sum, ofReal_normSq]
  have := iso_normL (c := c) d [e] (fun s u x => B.get (x :: u :: s)) (fun z => V.get [k, z]) ?_
  · simp only [sumCfg_cons, sumCfg_nil] at this
    rw [← this]
    refine Finset.sum_congr rfl fun i _ => Finset.sum_congr rfl fun y _ => ?_
    simp only [mul_comm (V.get _)]
  · intro x x' hx hx'
    have := hi x' x (by rw [dim0_of hB]; exact hx') (by rw [dim0_of hB]; exact hx)
    rw [dim1_of hB, dim2_of hB] at this
    simp only [sumCfg_cons, sumCfg_nil]
    rw [show (if x = x' then (1 : K) else 0) = if x' = x then 1 else 0 by simp [eq_comm], ← this]
    refine Finset.sum_congr rfl fun i _ => Finset.sum_congr rfl fun y _ => mul_comm _ _

/-- a left isometry times a matrix -/
theorem norm_fold_left {V B : Tensor K} {l c d e : Nat} (hB : B.dims = [e, d, c]) (hi : LeftIso B) :
    ∑ x ∈ Finset.range e, ∑ i ∈ Finset.range d, ∑ k ∈ Finset.range l, ‖∑ z ∈ Finset.range c, B.get [x, i, z] * V.get [z, k]‖ ^ 2
      = ∑ z ∈ Finset.range c, ∑ k ∈ Finset.range l, ‖V.get [z, k]‖ ^ 2 := by
  apply RCLike.ofReal_injective (K := K)
  simp only [RCLike.ofReal_sum, ofReal_normSq]
  rw [Finset.sum_comm (s := Finset.range c), Finset.sum_congr rfl fun x _ => Finset.sum_comm, Finset.sum_comm]
  refine Finset.sum_congr rfl fun k _ => ?_
  have := iso_normL (c := c) e [d] (fun s u x => B.get (u :: (s ++ [x]))) (fun z => V.get [z, k]) ?_
  · simp only [sumCfg_cons, sumCfg_nil] at this
    rw [← this]
    rfl
  · intro x x' hx hx'
    have := hi x x' (by rw [dim2_of hB]; exact hx) (by rw [dim2_of hB]; exact hx')
    rw [dim0_of hB, dim1_of hB] at this
    simp only [sumCfg_cons, sumCfg_nil]
    exact this

end MPS
