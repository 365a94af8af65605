import Verif.CanonTrunc3

/-! # Canonical form of a state which is already in this form -/

set_option linter.unusedSectionVars false
set_option linter.unusedSimpArgs false

namespace MPS
open Tensor MPS.Props
variable {K : Type} [RCLike K]

/-- all singular values of an isometry are 1 -/
theorem IsSVD.iso_cols {A : Tensor K} {m n : Nat} {r : SvdRes K} (h : IsSVD A m n r)
    (hA : ∀ y y', y < n → y' < n → ∑ x ∈ Finset.range m, star (A.get [x, y]) * A.get [x, y'] = if y = y' then 1 else 0)
    (k : Nat) (hk : k < min m n) : r.s.getD k 0 ^ 2 = 1 := by
  have h1 : ∑ x ∈ Finset.range m, star (r.U.get [x, k] * ((r.s.getD k 0 : ℝ) : K)) * (r.U.get [x, k] * ((r.s.getD k 0 : ℝ) : K))
      = ((r.s.getD k 0 ^ 2 : ℝ) : K) := by
    have e : ∀ x ∈ Finset.range m, star (r.U.get [x, k] * ((r.s.getD k 0 : ℝ) : K)) * (r.U.get [x, k] * ((r.s.getD k 0 : ℝ) : K))
        = star (r.U.get [x, k]) * r.U.get [x, k] * ((r.s.getD k 0 ^ 2 : ℝ) : K) := by
      intro x _
      rw [star_mul', show star ((r.s.getD k 0 : ℝ) : K) = ((r.s.getD k 0 : ℝ) : K) from RCLike.conj_ofReal _, RCLike.ofReal_pow]; ring
    rw [Finset.sum_congr rfl e, ← Finset.sum_mul, h.isoU k k hk hk, if_pos rfl, one_mul]
  have h2 : ∑ x ∈ Finset.range m, star (r.U.get [x, k] * ((r.s.getD k 0 : ℝ) : K)) * (r.U.get [x, k] * ((r.s.getD k 0 : ℝ) : K)) = 1 := by
    have e : ∀ x ∈ Finset.range m, star (r.U.get [x, k] * ((r.s.getD k 0 : ℝ) : K)) * (r.U.get [x, k] * ((r.s.getD k 0 : ℝ) : K))
        = ∑ y ∈ Finset.range n, ∑ y' ∈ Finset.range n, (r.V.get [k, y] * star (r.V.get [k, y'])) * (star (A.get [x, y]) * A.get [x, y']) := by
      intro x hx
      rw [← IsSVD_right h hk (Finset.mem_range.1 hx), star_sum, Finset.sum_mul]
      refine Finset.sum_congr rfl fun y _ => ?_
      rw [Finset.mul_sum]
      exact Finset.sum_congr rfl fun y' _ => by rw [star_mul', star_star]; ring
    rw [Finset.sum_congr rfl e, Finset.sum_comm]
    have e2 : ∀ y ∈ Finset.range n, ∑ x ∈ Finset.range m, ∑ y' ∈ Finset.range n, (r.V.get [k, y] * star (r.V.get [k, y'])) * (star (A.get [x, y]) * A.get [x, y'])
        = r.V.get [k, y] * star (r.V.get [k, y]) := by
      intro y hy
      rw [Finset.sum_comm]
      simp only [← Finset.mul_sum]
      rw [Finset.sum_eq_single y]
      · rw [hA y y (Finset.mem_range.1 hy) (Finset.mem_range.1 hy), if_pos rfl, mul_one]
      · intro y' hy' hne
        rw [hA y y' (Finset.mem_range.1 hy) (Finset.mem_range.1 hy'), if_neg (Ne.symm hne), mul_zero]
      · intro hn; exact absurd hy hn
    rw [Finset.sum_congr rfl e2, h.isoV k k hk hk, if_pos rfl]
  rw [h2] at h1
  exact_mod_cast h1.symm

theorem IsSVD.iso_rows {A : Tensor K} {m n : Nat} {r : SvdRes K} (h : IsSVD A m n r)
    (hA : ∀ x x', x < m → x' < m → ∑ y ∈ Finset.range n, A.get [x, y] * star (A.get [x', y]) = if x = x' then 1 else 0)
    (k : Nat) (hk : k < min m n) : r.s.getD k 0 ^ 2 = 1 := by
  have h1 : ∑ y ∈ Finset.range n, (((r.s.getD k 0 : ℝ) : K) * r.V.get [k, y]) * star (((r.s.getD k 0 : ℝ) : K) * r.V.get [k, y])
      = ((r.s.getD k 0 ^ 2 : ℝ) : K) := by
    have e : ∀ y ∈ Finset.range n, (((r.s.getD k 0 : ℝ) : K) * r.V.get [k, y]) * star (((r.s.getD k 0 : ℝ) : K) * r.V.get [k, y])
        = r.V.get [k, y] * star (r.V.get [k, y]) * ((r.s.getD k 0 ^ 2 : ℝ) : K) := by
      intro x _
      rw [star_mul', show star ((r.s.getD k 0 : ℝ) : K) = ((r.s.getD k 0 : ℝ) : K) from RCLike.conj_ofReal _, RCLike.ofReal_pow]; ring
    rw [Finset.sum_congr rfl e, ← Finset.sum_mul, h.isoV k k hk hk, if_pos rfl, one_mul]
  have h2 : ∑ y ∈ Finset.range n, (((r.s.getD k 0 : ℝ) : K) * r.V.get [k, y]) * star (((r.s.getD k 0 : ℝ) : K) * r.V.get [k, y]) = 1 := by
    have e : ∀ y ∈ Finset.range n, (((r.s.getD k 0 : ℝ) : K) * r.V.get [k, y]) * star (((r.s.getD k 0 : ℝ) : K) * r.V.get [k, y])
        = ∑ x ∈ Finset.range m, ∑ x' ∈ Finset.range m, (star (r.U.get [x, k]) * r.U.get [x', k]) * (A.get [x, y] * star (A.get [x', y])) := by
      intro y hy
      rw [← IsSVD_left h hk (Finset.mem_range.1 hy), star_sum, Finset.sum_mul]
      refine Finset.sum_congr rfl fun x _ => ?_
      rw [Finset.mul_sum]
      exact Finset.sum_congr rfl fun x' _ => by rw [star_mul', star_star]; ring
    rw [Finset.sum_congr rfl e, Finset.sum_comm]
    have e2 : ∀ x ∈ Finset.range m, ∑ y ∈ Finset.range n, ∑ x' ∈ Finset.range m, (star (r.U.get [x, k]) * r.U.get [x', k]) * (A.get [x, y] * star (A.get [x', y]))
        = star (r.U.get [x, k]) * r.U.get [x, k] := by
      intro x hx
      rw [Finset.sum_comm]
      simp only [← Finset.mul_sum]
      rw [Finset.sum_eq_single x]
      · rw [hA x x (Finset.mem_range.1 hx) (Finset.mem_range.1 hx), if_pos rfl, mul_one]
      · intro x' hx' hne
        rw [hA x x' (Finset.mem_range.1 hx) (Finset.mem_range.1 hx'), if_neg (Ne.symm hne), mul_zero]
      · intro hn; exact absurd hx hn
    rw [Finset.sum_congr rfl e2, h.isoU k k hk hk, if_pos rfl]
  rw [h2] at h1
  exact_mod_cast h1.symm

/-- no singular value is dropped when all of them are 1 -/
theorem ones_kept (eps : ℝ) {dflt : ℝ} (hd0 : 0 < dflt) (s : List ℝ) (hs : ∀ k, k < s.length → s.getD k 0 ^ 2 = 1) (M : Nat) (hM : s.length ≤ M)
    (B : Nat) (hB : s.length ≤ B) (hsm : B * max dflt eps < 1) :
    discarded s (whereToTruncate eps dflt s (splitTol true) M) = 0 := by
  have h1 := wtt_lost eps dflt s (splitTol true) M (by exact_mod_cast hM) hd0.le (by rw [effTol_default]; exact hd0)
  rw [effTol_default] at h1
  have hle : whereToTruncate eps dflt s (splitTol true) M ≤ s.length := wtt_le _ _ _ _ _ hd0.le
  have hd : ∀ l, l ≤ s.length → discarded s l = (s.length - l : Nat) := by
    intro l hl
    unfold discarded
    rw [Finset.sum_congr rfl fun k hk => hs k (Finset.mem_Ico.1 hk).2]
    simp
  rw [hd _ hle] at h1 ⊢
  rw [hd 0 (by omega)] at h1
  have h2 : max dflt eps * ((s.length - 0 : Nat) : ℝ) < 1 := by
    have : ((s.length - 0 : Nat) : ℝ) ≤ B := by exact_mod_cast hB
    have hp : 0 ≤ max dflt eps := hd0.le.trans (le_max_left _ _)
    calc _ ≤ max dflt eps * B := mul_le_mul_of_nonneg_left this hp
      _ < 1 := by rw [mul_comm]; exact hsm
  have h3 : ((s.length - whereToTruncate eps dflt s (splitTol true) M : Nat) : ℝ) < 1 := lt_of_le_of_lt h1 h2
  have h4 : s.length - whereToTruncate eps dflt s (splitTol true) M < 1 := by exact_mod_cast h3
  rw [show s.length - whereToTruncate eps dflt s (splitTol true) M = 0 by omega]; simp

theorem splitRight_iso {svd : Tensor K → SvdRes K} (hg : GoodSvd svd) (eps : ℝ) {dflt : ℝ} (hd0 : 0 < dflt)
    {t : Tensor K} {a d b : Nat} (h : t.dims = [a, d, b]) (ha : 0 < a) (hd : 0 < d) (hb : 0 < b) (hiso : LeftIso t) {B : Nat} (hB : b ≤ B)
    (hsm : B * max dflt eps < 1) : (splitRight svd eps dflt t true).lost = 0 := by
  have hai : t.size / b = a * d := by rw [size3 h, Nat.mul_div_cancel _ hb]
  have hbd : t.dims.getD (t.rank - 1) 0 = b := by simp [rank, h]
  set A := reshape t [a * d, b] with hA
  have hm : 0 < a * d := Nat.mul_pos ha hd
  have hsvd := hg A (a * d) b rfl hm hb
  set res := svd A with hres
  have hAget : ∀ x i y, x < a → i < d → y < b → A.get [x + a * i, y] = t.get [x, i, y] := by
    intro x i y hx hi hy
    apply reshape_get
    · rw [h]; simp [hx, hi, hy]
    · rw [h]; simp only [flat]; ring
  have hrl : (splitRight svd eps dflt t true).lost = discarded res.s (whereToTruncate eps dflt res.s (splitTol true) (min (a * d) b : Nat)) := by
    simp only [splitRight, hbd, hai, ← hA, ← hres]
    exact cumulated_eq _ _
  rw [hrl]
  have hone := hsvd.iso_cols (fun y y' hy hy' => by
    have := hiso y y' (by rw [dim2_of h]; exact hy) (by rw [dim2_of h]; exact hy')
    rw [dim0_of h, dim1_of h] at this
    rw [← this, sum_range_mul, Finset.sum_comm]
    refine Finset.sum_congr rfl fun x hx => Finset.sum_congr rfl fun i hi => ?_
    rw [hAget _ _ _ (Finset.mem_range.1 hx) (Finset.mem_range.1 hi) hy, hAget _ _ _ (Finset.mem_range.1 hx) (Finset.mem_range.1 hi) hy'])
  have hlen := hsvd.lenS
  exact ones_kept eps hd0 res.s (fun k hk => hone k (by rw [← hlen]; exact hk)) _ hlen.le B (by rw [hlen]; omega) hsm

theorem splitLeft_iso {svd : Tensor K → SvdRes K} (hg : GoodSvd svd) (eps : ℝ) {dflt : ℝ} (hd0 : 0 < dflt)
    {t : Tensor K} {a d b : Nat} (h : t.dims = [a, d, b]) (ha : 0 < a) (hd : 0 < d) (hb : 0 < b) (hiso : RightIso t) {B : Nat} (hB : a ≤ B)
    (hsm : B * max dflt eps < 1) : (splitLeft svd eps dflt t true).lost = 0 := by
  have hai : t.size / a = d * b := by rw [size3 h, mul_assoc, Nat.mul_div_cancel_left _ ha]
  have hbd : t.dims.getD 0 0 = a := by simp [h]
  set A := reshape t [a, d * b] with hA
  have hn : 0 < d * b := Nat.mul_pos hd hb
  have hsvd := hg A a (d * b) rfl ha hn
  set res := svd A with hres
  have hAget : ∀ x i y, x < a → i < d → y < b → A.get [x, i + d * y] = t.get [x, i, y] := by
    intro x i y hx hi hy
    apply reshape_get
    · rw [h]; simp [hx, hi, hy]
    · rw [h]; simp only [flat]; ring
  have hrl : (splitLeft svd eps dflt t true).lost = discarded res.s (whereToTruncate eps dflt res.s (splitTol true) (min a (d * b) : Nat)) := by
    simp only [splitLeft, hbd, hai, ← hA, ← hres]
    exact cumulated_eq _ _
  rw [hrl]
  have hone := hsvd.iso_rows (fun y y' hy hy' => by
    have := hiso y y' (by rw [dim0_of h]; exact hy) (by rw [dim0_of h]; exact hy')
    rw [dim1_of h, dim2_of h] at this
    rw [← this, sum_range_mul, Finset.sum_comm]
    refine Finset.sum_congr rfl fun i hi => Finset.sum_congr rfl fun x hx => ?_
    rw [hAget _ _ _ hy (Finset.mem_range.1 hi) (Finset.mem_range.1 hx), hAget _ _ _ hy' (Finset.mem_range.1 hi) (Finset.mem_range.1 hx)])
  have hlen := hsvd.lenS
  exact ones_kept eps hd0 res.s (fun k hk => hone k (by rw [← hlen]; exact hk)) _ hlen.le B (by rw [hlen]; omega) hsm

end MPS
