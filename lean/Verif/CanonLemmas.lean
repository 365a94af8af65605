import Verif.CanonSpec
import Verif.Props.ToolsProps

/-! # Lemmas about splittings and canonical forms -/

set_option linter.unusedSectionVars false
set_option linter.unusedSimpArgs false

namespace MPS
open Tensor MPS.Props
variable {K : Type} [RCLike K]

/-! ### where_to_truncate -/

/-- the tolerance in force -/
noncomputable def effTol (dflt tol : ℝ) : ℝ := if tol < 0 then dflt else tol

theorem wtt_le (eps dflt : ℝ) (s : List ℝ) (tol : ℝ) (M : Int) (hd : 0 ≤ dflt) :
    whereToTruncate eps dflt s tol M ≤ s.length := by
  by_cases ht : tol < 0
  · rw [C18_default eps dflt s tol ht hd]; exact (C18_truncate eps dflt s dflt hd M).1
  · exact (C18_truncate eps dflt s tol (not_lt.mp ht) M).1

theorem wtt_pos (eps dflt : ℝ) (s : List ℝ) (tol : ℝ) (M : Int) (hd : 0 ≤ dflt) (hs : s ≠ [])
    (h : 0 < effTol dflt tol ∨ ∃ x ∈ s, x ≠ 0) : 0 < whereToTruncate eps dflt s tol M := by
  have key : ∀ t, 0 ≤ t → (0 < t ∨ ∃ x ∈ s, x ≠ 0) → 0 < whereToTruncate eps dflt s t M := by
    intro t ht h
    rcases h with h | h
    · have hM : 0 < effDim s.length M := effDim_pos M (List.length_pos_iff.mpr hs)
      unfold whereToTruncate
      simp only [if_neg (not_lt.mpr ht), if_neg (ne_of_gt h)]
      split
      · exact hM
      · exact (limitLoop_spec s _ _ _ 0 (by omega)).2.1 hM
    · exact (C18_truncate eps dflt s t ht M).2.2.2.2.2 h
  unfold effTol at h
  by_cases ht : tol < 0
  · rw [C18_default eps dflt s tol ht hd]
    rw [if_pos ht] at h
    exact key dflt hd h
  · rw [if_neg ht] at h
    exact key tol (not_lt.mp ht) h

theorem wtt_lossless (eps dflt : ℝ) (s : List ℝ) (tol : ℝ) (M : Int) (hM : (s.length : Int) ≤ M) (hd : 0 ≤ dflt)
    (h : effTol dflt tol = 0 ∨ 1 ≤ effTol dflt tol) : discarded s (whereToTruncate eps dflt s tol M) = 0 := by
  have hlt : ¬ (0 < M ∧ M < s.length) := by omega
  have key : ∀ t, 0 ≤ t → t = 0 ∨ 1 ≤ t → discarded s (whereToTruncate eps dflt s t M) = 0 := by
    intro t ht h
    obtain ⟨c1, c2, c3, c4, c5, c6⟩ := C18_truncate eps dflt s t ht M
    rw [if_neg hlt] at c3 c4
    unfold discarded
    apply Finset.sum_eq_zero
    intro j hj
    obtain ⟨h1, h2⟩ := Finset.mem_Ico.1 hj
    rcases h with h | h
    · rw [c4 h (by omega) j h1 h2]; ring
    · rw [c3 h] at h1; omega
  unfold effTol at h
  by_cases ht : tol < 0
  · rw [C18_default eps dflt s tol ht hd]
    rw [if_pos ht] at h
    exact key _ hd h
  · rw [if_neg ht] at h; exact key _ (not_lt.1 ht) h

theorem discarded_nonneg (s : List ℝ) (n : Nat) : 0 ≤ discarded s n :=
  Finset.sum_nonneg fun _ _ => by positivity

theorem discarded_zero {s : List ℝ} {n : Nat} (h : discarded s n = 0) {k : Nat} (h1 : n ≤ k) (h2 : k < s.length) :
    s.getD k 0 = 0 := by
  have := (Finset.sum_eq_zero_iff_of_nonneg (fun _ _ => by positivity)).1 h k (Finset.mem_Ico.2 ⟨h1, h2⟩)
  exact pow_eq_zero_iff (two_ne_zero) |>.1 this

/-! ### truncated singular value decompositions -/

section Svd
variable {A : Tensor K} {m n : Nat} {r : SvdRes K}

theorem IsSVD.tail (h : IsSVD A m n r) {p i j : Nat} (hp : p ≤ min m n) (hi : i < m) (hj : j < n) :
    A.get [i, j] - ∑ k ∈ Finset.range p, r.U.get [i, k] * ((r.s.getD k 0 : ℝ) : K) * r.V.get [k, j]
      = ∑ k ∈ Finset.Ico p (min m n), r.U.get [i, k] * ((r.s.getD k 0 : ℝ) : K) * r.V.get [k, j] := by
  rw [← h.prod i j hi hj, ← Finset.sum_range_add_sum_Ico _ hp]
  ring

theorem IsSVD.exact (h : IsSVD A m n r) {p i j : Nat} (hp : p ≤ min m n) (hl : discarded r.s p = 0) (hi : i < m)
    (hj : j < n) :
    ∑ k ∈ Finset.range p, r.U.get [i, k] * ((r.s.getD k 0 : ℝ) : K) * r.V.get [k, j] = A.get [i, j] := by
  have := h.tail hp hi hj
  have hz : ∑ k ∈ Finset.Ico p (min m n), r.U.get [i, k] * ((r.s.getD k 0 : ℝ) : K) * r.V.get [k, j] = 0 := by
    apply Finset.sum_eq_zero
    intro k hk
    obtain ⟨h1, h2⟩ := Finset.mem_Ico.1 hk
    rw [discarded_zero hl h1 (by rw [h.lenS]; exact h2)]
    simp
  rw [hz, sub_eq_zero] at this
  exact this.symm

/-- the squared Frobenius distance between the matrix and its truncation is the discarded weight -/
theorem IsSVD.error (h : IsSVD A m n r) {p : Nat} (hp : p ≤ min m n) :
    ∑ i ∈ Finset.range m, ∑ j ∈ Finset.range n,
      ‖A.get [i, j] - ∑ k ∈ Finset.range p, r.U.get [i, k] * ((r.s.getD k 0 : ℝ) : K) * r.V.get [k, j]‖ ^ 2
      = discarded r.s p := by
  have e1 : ∀ i ∈ Finset.range m, ∀ j ∈ Finset.range n,
      ((‖A.get [i, j] - ∑ k ∈ Finset.range p, r.U.get [i, k] * ((r.s.getD k 0 : ℝ) : K) * r.V.get [k, j]‖ ^ 2 : ℝ) : K)
      = ∑ k ∈ Finset.Ico p (min m n), ∑ k' ∈ Finset.Ico p (min m n), ((r.s.getD k 0 : ℝ) : K) * ((r.s.getD k' 0 : ℝ) : K) *
          ((star (r.U.get [i, k]) * r.U.get [i, k']) * (r.V.get [k', j] * star (r.V.get [k, j]))) := by
    intro i hi j hj
    rw [h.tail hp (Finset.mem_range.1 hi) (Finset.mem_range.1 hj)]
    have : ∀ x : K, ((‖x‖ ^ 2 : ℝ) : K) = star x * x := by
      intro x; have := RCLike.conj_mul x; simpa using this.symm
    rw [this, star_sum, Finset.sum_mul]
    refine Finset.sum_congr rfl fun k _ => ?_
    rw [Finset.mul_sum]
    refine Finset.sum_congr rfl fun k' _ => ?_
    rw [star_mul', star_mul', RCLike.star_def, RCLike.conj_ofReal]
    ring
  have e2 : ((∑ i ∈ Finset.range m, ∑ j ∈ Finset.range n,
      ‖A.get [i, j] - ∑ k ∈ Finset.range p, r.U.get [i, k] * ((r.s.getD k 0 : ℝ) : K) * r.V.get [k, j]‖ ^ 2 : ℝ) : K)
      = ((discarded r.s p : ℝ) : K) := by
    rw [RCLike.ofReal_sum]
    rw [Finset.sum_congr rfl (fun i hi => by rw [RCLike.ofReal_sum, Finset.sum_congr rfl (e1 i hi)])]
    have : ∀ i ∈ Finset.range m, ∑ j ∈ Finset.range n, ∑ k ∈ Finset.Ico p (min m n), ∑ k' ∈ Finset.Ico p (min m n),
        ((r.s.getD k 0 : ℝ) : K) * ((r.s.getD k' 0 : ℝ) : K) *
          ((star (r.U.get [i, k]) * r.U.get [i, k']) * (r.V.get [k', j] * star (r.V.get [k, j])))
        = ∑ k ∈ Finset.Ico p (min m n), ∑ k' ∈ Finset.Ico p (min m n), ((r.s.getD k 0 : ℝ) : K) * ((r.s.getD k' 0 : ℝ) : K) *
          ((star (r.U.get [i, k]) * r.U.get [i, k']) * (if k' = k then 1 else 0)) := by
      intro i _
      rw [Finset.sum_comm]
      refine Finset.sum_congr rfl fun k hk => ?_
      rw [Finset.sum_comm]
      refine Finset.sum_congr rfl fun k' hk' => ?_
      rw [← h.isoV k' k (Finset.mem_Ico.1 hk').2 (Finset.mem_Ico.1 hk).2]
      rw [Finset.mul_sum, Finset.mul_sum]
    rw [Finset.sum_congr rfl this, Finset.sum_comm]
    unfold discarded
    rw [RCLike.ofReal_sum, h.lenS]
    refine Finset.sum_congr rfl fun k hk => ?_
    have hk2 := (Finset.mem_Ico.1 hk).2
    rw [Finset.sum_comm]
    rw [Finset.sum_eq_single k]
    · simp only [if_true, mul_one]
      rw [← Finset.mul_sum, h.isoU k k hk2 hk2, if_pos rfl, mul_one]
      push_cast; ring
    · intro k' _ hne
      simp [hne]
    · intro hne; exact absurd hk hne
  exact_mod_cast e2

/-- weight of some of the terms of a singular value decomposition -/
theorem IsSVD.weight (h : IsSVD A m n r) {S : Finset Nat} (hS : ∀ k ∈ S, k < min m n) :
    ∑ i ∈ Finset.range m, ∑ j ∈ Finset.range n,
      ‖∑ k ∈ S, r.U.get [i, k] * ((r.s.getD k 0 : ℝ) : K) * r.V.get [k, j]‖ ^ 2 = ∑ k ∈ S, (r.s.getD k 0) ^ 2 := by
  have e1 : ∀ i ∈ Finset.range m, ∀ j ∈ Finset.range n,
      ((‖∑ k ∈ S, r.U.get [i, k] * ((r.s.getD k 0 : ℝ) : K) * r.V.get [k, j]‖ ^ 2 : ℝ) : K)
      = ∑ k ∈ S, ∑ k' ∈ S, ((r.s.getD k 0 : ℝ) : K) * ((r.s.getD k' 0 : ℝ) : K) *
          ((star (r.U.get [i, k]) * r.U.get [i, k']) * (r.V.get [k', j] * star (r.V.get [k, j]))) := by
    intro i hi j hj
    have : ∀ x : K, ((‖x‖ ^ 2 : ℝ) : K) = star x * x := by
      intro x; have := RCLike.conj_mul x; simpa using this.symm
    rw [this, star_sum, Finset.sum_mul]
    refine Finset.sum_congr rfl fun k _ => ?_
    rw [Finset.mul_sum]
    refine Finset.sum_congr rfl fun k' _ => ?_
    rw [star_mul', star_mul', RCLike.star_def, RCLike.conj_ofReal]
    ring
  have e2 : ((∑ i ∈ Finset.range m, ∑ j ∈ Finset.range n,
      ‖∑ k ∈ S, r.U.get [i, k] * ((r.s.getD k 0 : ℝ) : K) * r.V.get [k, j]‖ ^ 2 : ℝ) : K)
      = ((∑ k ∈ S, (r.s.getD k 0) ^ 2 : ℝ) : K) := by
    rw [RCLike.ofReal_sum]
    rw [Finset.sum_congr rfl (fun i hi => by rw [RCLike.ofReal_sum, Finset.sum_congr rfl (e1 i hi)])]
    have : ∀ i ∈ Finset.range m, ∑ j ∈ Finset.range n, ∑ k ∈ S, ∑ k' ∈ S,
        ((r.s.getD k 0 : ℝ) : K) * ((r.s.getD k' 0 : ℝ) : K) *
          ((star (r.U.get [i, k]) * r.U.get [i, k']) * (r.V.get [k', j] * star (r.V.get [k, j])))
        = ∑ k ∈ S, ∑ k' ∈ S, ((r.s.getD k 0 : ℝ) : K) * ((r.s.getD k' 0 : ℝ) : K) *
          ((star (r.U.get [i, k]) * r.U.get [i, k']) * (if k' = k then 1 else 0)) := by
      intro i _
      rw [Finset.sum_comm]
      refine Finset.sum_congr rfl fun k hk => ?_
      rw [Finset.sum_comm]
      refine Finset.sum_congr rfl fun k' hk' => ?_
      rw [← h.isoV k' k (hS k' hk') (hS k hk)]
      rw [Finset.mul_sum, Finset.mul_sum]
    rw [Finset.sum_congr rfl this, Finset.sum_comm]
    rw [RCLike.ofReal_sum]
    refine Finset.sum_congr rfl fun k hk => ?_
    have hk2 := hS k hk
    rw [Finset.sum_comm]
    rw [Finset.sum_eq_single k]
    · simp only [if_true, mul_one]
      rw [← Finset.mul_sum, h.isoU k k hk2 hk2, if_pos rfl, mul_one]
      push_cast; ring
    · intro k' _ hne
      simp [hne]
    · intro hne; exact absurd hk hne
  exact_mod_cast e2

/-- the weight of a matrix is that of its singular values -/
theorem IsSVD.total (h : IsSVD A m n r) : ∑ i ∈ Finset.range m, ∑ j ∈ Finset.range n, ‖A.get [i, j]‖ ^ 2 = discarded r.s 0 := by
  rw [← h.error (Nat.zero_le _)]
  simp

/-- weight kept -/
theorem IsSVD.kept (h : IsSVD A m n r) {p : Nat} (hp : p ≤ min m n) :
    ∑ i ∈ Finset.range m, ∑ j ∈ Finset.range n,
      ‖∑ k ∈ Finset.range p, r.U.get [i, k] * ((r.s.getD k 0 : ℝ) : K) * r.V.get [k, j]‖ ^ 2 = discarded r.s 0 - discarded r.s p := by
  rw [h.weight fun k hk => lt_of_lt_of_le (Finset.mem_range.1 hk) hp]
  unfold discarded
  rw [h.lenS, ← Finset.range_eq_Ico, ← Finset.sum_range_add_sum_Ico (fun k => r.s.getD k 0 ^ 2) hp, add_sub_cancel_right]

end Svd

/-! ### split -/

theorem size3 {t : Tensor K} {a d b : Nat} (h : t.dims = [a, d, b]) : t.size = a * d * b := by
  simp [size, h, mul_assoc]

/-- everything about `split(&U, t, +1, truncate)` of a tensor `t(a,i,b)` -/
theorem splitRight_spec {svd : Tensor K → SvdRes K} (hg : GoodSvd svd) (eps : ℝ) {dflt : ℝ} (hd0 : 0 ≤ dflt)
    {t : Tensor K} {a d b : Nat} (h : t.dims = [a, d, b]) (ha : 0 < a) (hd : 0 < d) (hb : 0 < b) (trunc : Bool)
    (hok : 0 < effTol dflt (splitTol trunc) ∨ ∃ x i y, x < a ∧ i < d ∧ y < b ∧ t.get [x, i, y] ≠ 0) :
    let r := splitRight svd eps dflt t trunc
    ∃ l, 0 < l ∧ l ≤ min (a * d) b ∧ r.U.dims = [a, d, l] ∧ r.V.dims = [l, b] ∧ LeftIso r.U ∧ 0 ≤ r.lost ∧
      (∑ x ∈ Finset.range a, ∑ i ∈ Finset.range d, ∑ y ∈ Finset.range b,
        ‖t.get [x, i, y] - ∑ k ∈ Finset.range l, r.U.get [x, i, k] * r.V.get [k, y]‖ ^ 2 = r.lost) ∧
      (r.lost = 0 → ∀ x i y, x < a → i < d → y < b →
        ∑ k ∈ Finset.range l, r.U.get [x, i, k] * r.V.get [k, y] = t.get [x, i, y]) ∧
      (effTol dflt (splitTol trunc) = 0 ∨ 1 ≤ effTol dflt (splitTol trunc) → r.lost = 0) := by
  intro r
  have hai : t.size / b = a * d := by rw [size3 h, Nat.mul_div_cancel _ hb]
  have hbd : t.dims.getD (t.rank - 1) 0 = b := by simp [rank, h]
  set A := reshape t [a * d, b] with hA
  have hm : 0 < a * d := Nat.mul_pos ha hd
  have hsvd := hg A (a * d) b rfl hm hb
  set res := svd A with hres
  set l := whereToTruncate eps dflt res.s (splitTol trunc) (min (a * d) b : Nat) with hl
  have hAget : ∀ x i y, x < a → i < d → y < b → A.get [x + a * i, y] = t.get [x, i, y] := by
    intro x i y hx hi hy
    apply reshape_get
    · rw [h]; simp [hx, hi, hy]
    · rw [h]; simp only [flat]; ring
  have hlle : l ≤ min (a * d) b := by
    rw [← hsvd.lenS]; exact wtt_le _ _ _ _ _ hd0
  have hsne : res.s ≠ [] := by
    intro h0; have := hsvd.lenS; rw [h0] at this; simp at this; omega
  have hlpos : 0 < l := by
    apply wtt_pos _ _ _ _ _ hd0 hsne
    rcases hok with h1 | ⟨x, i, y, hx, hi, hy, hne⟩
    · exact Or.inl h1
    · right
      by_contra hcon
      push Not at hcon
      apply hne
      rw [← hAget x i y hx hi hy, ← hsvd.prod _ _ (add_mul_lt hx hi) hy]
      apply Finset.sum_eq_zero
      intro k hk
      have hk' : k < res.s.length := by rw [hsvd.lenS]; exact Finset.mem_range.1 hk
      rw [List.getD_eq_getElem _ _ hk', hcon _ (List.getElem_mem hk')]
      simp
  have hrU : r.U = reshape (if l ≠ res.s.length then changeDim res.U 1 l else res.U) [a, d, l] := by
    simp only [r, splitRight, hbd, hai, ← hA, ← hres, ← hl]
    simp [rank, h]
  have hrV : r.V = scale (if l ≠ res.s.length then changeDim res.V 0 l else res.V) 0
      (vecOf (if l ≠ res.s.length then res.s.take l else res.s)) := by
    simp only [r, splitRight, hbd, hai, ← hA, ← hres, ← hl]
  have hrl : r.lost = discarded res.s l := by
    simp only [r, splitRight, hbd, hai, ← hA, ← hres, ← hl]
    exact cumulated_eq _ _
  have hU2 : (if l ≠ res.s.length then changeDim res.U 1 l else res.U).dims = [a * d, l] := by
    split
    · simp [changeDim, hsvd.dimsU]
    · next hh => rw [hsvd.dimsU, ← hsvd.lenS, not_not.mp hh]
  have hU2g : ∀ p k, k < l → (if l ≠ res.s.length then changeDim res.U 1 l else res.U).get [p, k] = res.U.get [p, k] := by
    intro p k hk
    split
    · simp only [changeDim, hsvd.dimsU, nrm_one]
      rw [if_pos]
      simp only [List.getD_cons_succ, List.getD_cons_zero]; omega
    · rfl
  have hUget : ∀ x i k, x < a → i < d → k < l → r.U.get [x, i, k] = res.U.get [x + a * i, k] := by
    intro x i k hx hi hk
    rw [hrU, ← hU2g _ _ hk]
    apply reshape_get
    · rw [hU2]; simp [hk, add_mul_lt hx hi]
    · rw [hU2]; simp only [flat]; ring
  have hVget : ∀ k y, k < l → y < b → r.V.get [k, y] = res.V.get [k, y] * ((res.s.getD k 0 : ℝ) : K) := by
    intro k y hk hy
    rw [hrV]
    simp only [scale, nrm_zero, List.getD_cons_zero, vecOf]
    congr 1
    · split
      · simp only [changeDim, hsvd.dimsV, nrm_zero, List.getD_cons_zero]
        rw [if_pos (by omega)]
      · rfl
    · congr 1
      split
      · simp [List.getD_eq_getElem?_getD, List.getElem?_take, hk]
      · rfl
  have hUd : r.U.dims = [a, d, l] := by rw [hrU]; rfl
  have hprod : ∀ x i y, x < a → i < d → y < b → ∑ k ∈ Finset.range l, r.U.get [x, i, k] * r.V.get [k, y]
      = ∑ k ∈ Finset.range l, res.U.get [x + a * i, k] * ((res.s.getD k 0 : ℝ) : K) * res.V.get [k, y] := by
    intro x i y hx hi hy
    refine Finset.sum_congr rfl fun k hk => ?_
    have hk := Finset.mem_range.1 hk
    rw [hUget x i k hx hi hk, hVget k y hk hy]; ring
  refine ⟨l, hlpos, hlle, hUd, ?_, ?_, by rw [hrl]; exact discarded_nonneg _ _, ?_, ?_, ?_⟩
  · rw [hrV]
    simp only [scale]
    split
    · simp [changeDim, hsvd.dimsV]
    · next hh => rw [hsvd.dimsV, ← hsvd.lenS, not_not.mp hh]
  · intro k k' hk hk'
    rw [dim2_of hUd] at hk hk'
    rw [dim0_of hUd, dim1_of hUd, ← hsvd.isoU k k' (by omega) (by omega), sum_range_mul, Finset.sum_comm]
    refine Finset.sum_congr rfl fun i hi => Finset.sum_congr rfl fun x hx => ?_
    rw [hUget _ _ _ (Finset.mem_range.1 hx) (Finset.mem_range.1 hi) hk,
      hUget _ _ _ (Finset.mem_range.1 hx) (Finset.mem_range.1 hi) hk']
  · rw [hrl, ← hsvd.error hlle, sum_range_mul, Finset.sum_comm]
    refine Finset.sum_congr rfl fun i hi => Finset.sum_congr rfl fun x hx => Finset.sum_congr rfl fun y hy => ?_
    rw [hprod _ _ _ (Finset.mem_range.1 hx) (Finset.mem_range.1 hi) (Finset.mem_range.1 hy),
      hAget _ _ _ (Finset.mem_range.1 hx) (Finset.mem_range.1 hi) (Finset.mem_range.1 hy)]
  · intro h0 x i y hx hi hy
    rw [hrl] at h0
    rw [hprod x i y hx hi hy, hsvd.exact hlle h0 (add_mul_lt hx hi) hy, hAget x i y hx hi hy]
  · intro h0
    rw [hrl]
    exact wtt_lossless _ _ _ _ _ (by rw [hsvd.lenS]) hd0 h0

/-- everything about `split(&U, t, -1, truncate)` of a tensor `t(a,i,b)` -/
theorem splitLeft_spec {svd : Tensor K → SvdRes K} (hg : GoodSvd svd) (eps : ℝ) {dflt : ℝ} (hd0 : 0 ≤ dflt)
    {t : Tensor K} {a d b : Nat} (h : t.dims = [a, d, b]) (ha : 0 < a) (hd : 0 < d) (hb : 0 < b) (trunc : Bool)
    (hok : 0 < effTol dflt (splitTol trunc) ∨ ∃ x i y, x < a ∧ i < d ∧ y < b ∧ t.get [x, i, y] ≠ 0) :
    let r := splitLeft svd eps dflt t trunc
    ∃ l, 0 < l ∧ l ≤ min a (d * b) ∧ r.U.dims = [l, d, b] ∧ r.V.dims = [a, l] ∧ RightIso r.U ∧ 0 ≤ r.lost ∧
      (∑ x ∈ Finset.range a, ∑ i ∈ Finset.range d, ∑ y ∈ Finset.range b,
        ‖t.get [x, i, y] - ∑ k ∈ Finset.range l, r.V.get [x, k] * r.U.get [k, i, y]‖ ^ 2 = r.lost) ∧
      (r.lost = 0 → ∀ x i y, x < a → i < d → y < b →
        ∑ k ∈ Finset.range l, r.V.get [x, k] * r.U.get [k, i, y] = t.get [x, i, y]) ∧
      (effTol dflt (splitTol trunc) = 0 ∨ 1 ≤ effTol dflt (splitTol trunc) → r.lost = 0) := by
  intro r
  have hai : t.size / a = d * b := by rw [size3 h, mul_assoc, Nat.mul_div_cancel_left _ ha]
  have hbd : t.dims.getD 0 0 = a := by simp [h]
  set A := reshape t [a, d * b] with hA
  have hn : 0 < d * b := Nat.mul_pos hd hb
  have hsvd := hg A a (d * b) rfl ha hn
  set res := svd A with hres
  set l := whereToTruncate eps dflt res.s (splitTol trunc) (min a (d * b) : Nat) with hl
  have hAget : ∀ x i y, x < a → i < d → y < b → A.get [x, i + d * y] = t.get [x, i, y] := by
    intro x i y hx hi hy
    apply reshape_get
    · rw [h]; simp [hx, hi, hy]
    · rw [h]; simp only [flat]; ring
  have hlle : l ≤ min a (d * b) := by
    rw [← hsvd.lenS]; exact wtt_le _ _ _ _ _ hd0
  have hsne : res.s ≠ [] := by
    intro h0; have := hsvd.lenS; rw [h0] at this; simp at this; omega
  have hlpos : 0 < l := by
    apply wtt_pos _ _ _ _ _ hd0 hsne
    rcases hok with h1 | ⟨x, i, y, hx, hi, hy, hne⟩
    · exact Or.inl h1
    · right
      by_contra hcon
      push Not at hcon
      apply hne
      rw [← hAget x i y hx hi hy, ← hsvd.prod _ _ hx (add_mul_lt hi hy)]
      apply Finset.sum_eq_zero
      intro k hk
      have hk' : k < res.s.length := by rw [hsvd.lenS]; exact Finset.mem_range.1 hk
      rw [List.getD_eq_getElem _ _ hk', hcon _ (List.getElem_mem hk')]
      simp
  have hrU : r.U = reshape (if l ≠ res.s.length then changeDim res.V 0 l else res.V) [l, d, b] := by
    simp only [r, splitLeft, hbd, hai, ← hA, ← hres, ← hl]
    simp [h]
  have hrV : r.V = scale (if l ≠ res.s.length then changeDim res.U 1 l else res.U) (-1)
      (vecOf (if l ≠ res.s.length then res.s.take l else res.s)) := by
    simp only [r, splitLeft, hbd, hai, ← hA, ← hres, ← hl]
  have hrl : r.lost = discarded res.s l := by
    simp only [r, splitLeft, hbd, hai, ← hA, ← hres, ← hl]
    exact cumulated_eq _ _
  have hU2 : (if l ≠ res.s.length then changeDim res.V 0 l else res.V).dims = [l, d * b] := by
    split
    · simp [changeDim, hsvd.dimsV]
    · next hh => rw [hsvd.dimsV, ← hsvd.lenS, not_not.mp hh]
  have hV2 : (if l ≠ res.s.length then changeDim res.U 1 l else res.U).dims = [a, l] := by
    split
    · simp [changeDim, hsvd.dimsU]
    · next hh => rw [hsvd.dimsU, ← hsvd.lenS, not_not.mp hh]
  have hU2g : ∀ p k, k < l → (if l ≠ res.s.length then changeDim res.V 0 l else res.V).get [k, p] = res.V.get [k, p] := by
    intro p k hk
    split
    · simp only [changeDim, hsvd.dimsV, nrm_zero]
      rw [if_pos]
      simp only [List.getD_cons_zero]; omega
    · rfl
  have hUget : ∀ k i y, k < l → i < d → y < b → r.U.get [k, i, y] = res.V.get [k, i + d * y] := by
    intro k i y hk hi hy
    rw [hrU, ← hU2g _ _ hk]
    apply reshape_get
    · rw [hU2]; simp [hk, add_mul_lt hi hy]
    · rw [hU2]; simp only [flat]; ring
  have hVget : ∀ x k, x < a → k < l → r.V.get [x, k] = res.U.get [x, k] * ((res.s.getD k 0 : ℝ) : K) := by
    intro x k hx hk
    rw [hrV]
    simp only [scale, hV2, vecOf]
    congr 1
    · split
      · simp only [changeDim, hsvd.dimsU, nrm_one, List.getD_cons_zero, List.getD_cons_succ]
        rw [if_pos (by omega)]
      · rfl
    · congr 1
      split
      · simp [List.getD_eq_getElem?_getD, List.getElem?_take, hk]
      · simp
  have hUd : r.U.dims = [l, d, b] := by rw [hrU]; rfl
  have hprod : ∀ x i y, x < a → i < d → y < b → ∑ k ∈ Finset.range l, r.V.get [x, k] * r.U.get [k, i, y]
      = ∑ k ∈ Finset.range l, res.U.get [x, k] * ((res.s.getD k 0 : ℝ) : K) * res.V.get [k, i + d * y] := by
    intro x i y hx hi hy
    refine Finset.sum_congr rfl fun k hk => ?_
    have hk := Finset.mem_range.1 hk
    rw [hUget k i y hk hi hy, hVget x k hx hk]
  refine ⟨l, hlpos, hlle, hUd, ?_, ?_, by rw [hrl]; exact discarded_nonneg _ _, ?_, ?_, ?_⟩
  · rw [hrV]; exact hV2
  · intro k k' hk hk'
    rw [dim0_of hUd] at hk hk'
    rw [dim2_of hUd, dim1_of hUd, ← hsvd.isoV k k' (by omega) (by omega), sum_range_mul, Finset.sum_comm]
    refine Finset.sum_congr rfl fun y hy => Finset.sum_congr rfl fun i hi => ?_
    rw [hUget _ _ _ hk (Finset.mem_range.1 hi) (Finset.mem_range.1 hy),
      hUget _ _ _ hk' (Finset.mem_range.1 hi) (Finset.mem_range.1 hy)]
  · rw [hrl, ← hsvd.error hlle]
    refine Finset.sum_congr rfl fun x hx => ?_
    rw [sum_range_mul, Finset.sum_comm]
    refine Finset.sum_congr rfl fun y hy => Finset.sum_congr rfl fun i hi => ?_
    rw [hprod _ _ _ (Finset.mem_range.1 hx) (Finset.mem_range.1 hi) (Finset.mem_range.1 hy),
      hAget _ _ _ (Finset.mem_range.1 hx) (Finset.mem_range.1 hi) (Finset.mem_range.1 hy)]
  · intro h0 x i y hx hi hy
    rw [hrl] at h0
    rw [hprod x i y hx hi hy, hsvd.exact hlle h0 hx (add_mul_lt hi hy), hAget x i y hx hi hy]
  · intro h0
    rw [hrl]
    exact wtt_lossless _ _ _ _ _ (by rw [hsvd.lenS]) hd0 h0

theorem IsSVD_left {A : Tensor K} {m n : Nat} {r : SvdRes K} (h : IsSVD A m n r) {k y : Nat} (hk : k < min m n) (hy : y < n) :
    ∑ x ∈ Finset.range m, star (r.U.get [x, k]) * A.get [x, y] = ((r.s.getD k 0 : ℝ) : K) * r.V.get [k, y] := by
  have e : ∀ x ∈ Finset.range m, star (r.U.get [x, k]) * A.get [x, y] = ∑ l ∈ Finset.range (min m n),
      star (r.U.get [x, k]) * r.U.get [x, l] * (((r.s.getD l 0 : ℝ) : K) * r.V.get [l, y]) := by
    intro x hx
    rw [← h.prod x y (Finset.mem_range.1 hx) hy, Finset.mul_sum]
    exact Finset.sum_congr rfl fun l _ => by ring
  rw [Finset.sum_congr rfl e, Finset.sum_comm]
  simp only [← Finset.sum_mul]
  rw [Finset.sum_eq_single k]
  · rw [h.isoU k k hk hk, if_pos rfl, one_mul]
  · intro l hl hne
    rw [h.isoU k l hk (Finset.mem_range.1 hl), if_neg (Ne.symm hne), zero_mul]
  · intro hn; exact absurd (Finset.mem_range.2 hk) hn

theorem IsSVD_right {A : Tensor K} {m n : Nat} {r : SvdRes K} (h : IsSVD A m n r) {k x : Nat} (hk : k < min m n) (hx : x < m) :
    ∑ y ∈ Finset.range n, A.get [x, y] * star (r.V.get [k, y]) = r.U.get [x, k] * ((r.s.getD k 0 : ℝ) : K) := by
  have e : ∀ y ∈ Finset.range n, A.get [x, y] * star (r.V.get [k, y]) = ∑ l ∈ Finset.range (min m n),
      r.V.get [l, y] * star (r.V.get [k, y]) * (r.U.get [x, l] * ((r.s.getD l 0 : ℝ) : K)) := by
    intro y hy
    rw [← h.prod x y hx (Finset.mem_range.1 hy), Finset.sum_mul]
    exact Finset.sum_congr rfl fun l _ => by ring
  rw [Finset.sum_congr rfl e, Finset.sum_comm]
  simp only [← Finset.sum_mul]
  rw [Finset.sum_eq_single k]
  · rw [h.isoV k k hk hk, if_pos rfl, one_mul]
  · intro l hl hne
    rw [h.isoV l k (Finset.mem_range.1 hl) hk, if_neg hne, zero_mul]
  · intro hn; exact absurd (Finset.mem_range.2 hk) hn

end MPS
