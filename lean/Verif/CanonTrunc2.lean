import Verif.CanonTrunc

/-! # Truncation in a sweep of `set_canonical` over a state in canonical form: the distances add up -/

set_option linter.unusedSectionVars false
set_option linter.unusedSimpArgs false

namespace MPS.Trotter
open MPS Tensor Minim
variable {K : Type} [RCLike K]

theorem path_last {pre : List (Tensor K)} {ds1 : List Nat} {c d e : Nat} (h : WF 1 pre ds1 c) {X : Tensor K} (hX : X.dims = [c, d, e])
    {s : List Nat} (hs : IsCfg (ds1 ++ [d]) s) {y : Nat} (hy : y < e) : ∃ s1 i, IsCfg ds1 s1 ∧ i < d ∧ s = s1 ++ [i] ∧
      path (pre ++ [X]) s 0 y = ∑ x ∈ Finset.range c, path pre s1 0 x * X.get [x, i, y] := by
  obtain ⟨s1, t, rfl, h1, h2⟩ := isCfg_split hs
  cases h2 with
  | cons hi h3 =>
    cases h3
    refine ⟨s1, _, h1, hi, rfl, ?_⟩
    rw [path_append h (by rw [h1.length, h.length]) Nat.one_pos]
    exact Finset.sum_congr rfl fun x _ => by rw [path_single hX hy]

/-- the states that share the new tensors on the right do not see the truncation -/
theorem overlap_left {svd : Tensor K → SvdRes K} (hg : GoodSvd svd) (eps : ℝ) {dflt : ℝ} (hd0 : 0 < dflt) {φ χ : List (Tensor K)}
    {ds : List Nat} (h : WF 1 φ ds 1) {k : Nat} (hk : k + 1 < ds.length) (hr : ∀ j, k + 1 < j → j < ds.length → RightIso (site φ j))
    (hχ : WF 1 χ ds 1)
    (he : ∀ j, k < j → j < ds.length → site χ j = site (setCanonical svd eps dflt φ (k + 1) (site φ (k + 1)) (-1) true).1 j) :
    inner ds (amp χ) (amp φ) = inner ds (amp χ) (amp (setCanonical svd eps dflt φ (k + 1) (site φ (k + 1)) (-1) true).1) := by
  have hlen := h.length
  have hlenχ := hχ.length
  obtain ⟨pre, X, Y, post, rfl, hl⟩ := split_at2 φ k (by omega)
  have hX : site (pre ++ X :: Y :: post) k = X := by simp [site, ← hl]
  have hY : site (pre ++ X :: Y :: post) (k + 1) = Y := by simp [site, ← hl]
  have hpost : ∀ A ∈ post, RightIso A := by
    refine mem_of_site (pre := pre ++ [X, Y]) (l := post) rfl (k + 2) (by simp [hl]) [] ?_
    intro j hj hj2
    simpa using hr j (by omega) (by rw [← hlen]; simp; omega)
  obtain ⟨ds1, ds', c, rfl, w1, w2⟩ := h.split
  cases w2 with
  | @cons c d e b A As ds'' hXd hc hd he' w3 =>
  cases w3 with
  | @cons e d2 f b A As ds3 hYd _ hd2 hf w4 =>
  obtain ⟨l, hlp, hVd, hUd, hiso, hproj⟩ := splitLeft_proj hg eps hd0 hYd he' hd2 hf
  set sp := splitLeft svd eps dflt Y true with hsp
  obtain ⟨fd, fg⟩ := fold_BV hVd hXd
  have hr1 : (setCanonical svd eps dflt (pre ++ X :: Y :: post) (k + 1) (site (pre ++ X :: Y :: post) (k + 1)) (-1) true).1
      = pre ++ fold X (-1) sp.V 0 :: sp.U :: post := by
    simp only [setCanonical, hX, hY, splitT]
    rw [if_neg (by omega), if_neg (by omega)]
    simp only []
    rw [if_neg (by omega), ← hsp, show k + 1 - 1 = k by omega, hX]
    simp [List.set_append, ← hl]
  rw [hr1] at he ⊢
  have hlds1 := w1.length
  have hsite1 : site χ (k + 1) = sp.U := by
    rw [he (k + 1) (by omega) hk]; simp [site, ← hl]
  have hdrop : χ.drop (k + 2) = post := by
    rw [drop_ext (l := χ) (l' := pre ++ fold X (-1) sp.V 0 :: sp.U :: post) (k := k + 2) (by rw [hlenχ, ← hlen]; simp) (fun j h1 h2 => he j (by omega) (by omega))]
    rw [show k + 2 = pre.length + 2 by omega, List.drop_append]
    simp
  obtain ⟨a, b, v1, v2, v3, q1, q2, q3⟩ := WF.around hχ hk
  have hcut : χ = χ.take (k + 1) ++ sp.U :: post := by
    conv_lhs => rw [← List.take_append_drop (k + 1) χ, Form.drop_site (by omega), hsite1, hdrop]
  have hds1 : (ds1 ++ d :: d2 :: ds3).take (k + 1) = ds1 ++ [d] := by
    rw [show k + 1 = ds1.length + 1 by omega, List.take_append]; simp
  rw [hds1] at v1
  rw [hsite1, hUd] at v2
  obtain ⟨rfl, -, -⟩ : l = a ∧ _ ∧ _ := by simpa using v2
  have e1 : pre ++ X :: Y :: post = (pre ++ [X]) ++ Y :: post := by simp
  have e2 : pre ++ fold X (-1) sp.V 0 :: sp.U :: post = (pre ++ [fold X (-1) sp.V 0]) ++ sp.U :: post := by simp
  have e3 : ds1 ++ d :: d2 :: ds3 = (ds1 ++ [d]) ++ d2 :: ds3 := by simp
  rw [hcut, e1, e2, e3, inner_right (w1.append (WF.single hXd hc hd he')) v1 hYd hUd w4 hpost he' hlp hd2 hf,
    inner_right (w1.append (WF.single fd hc hd hlp)) v1 hUd hUd w4 hpost hlp hlp hd2 hf]
  refine sumCfg_congr fun s hs => Finset.sum_congr rfl fun x' hx' => ?_
  have hx' := Finset.mem_range.1 hx'
  have i1 : ∀ x ∈ Finset.range e, ∑ i ∈ Finset.range d2, ∑ y ∈ Finset.range f, star (sp.U.get [x', i, y]) * Y.get [x, i, y] = sp.V.get [x, x'] := by
    intro x hx
    rw [← hproj x x' (Finset.mem_range.1 hx) hx']
    exact Finset.sum_congr rfl fun i _ => Finset.sum_congr rfl fun y _ => mul_comm _ _
  have i2 : ∀ x ∈ Finset.range l, ∑ i ∈ Finset.range d2, ∑ y ∈ Finset.range f, star (sp.U.get [x', i, y]) * sp.U.get [x, i, y] = if x = x' then 1 else 0 := by
    intro x hx
    have := hiso x x' (by rw [dim0_of hUd]; exact Finset.mem_range.1 hx) (by rw [dim0_of hUd]; exact hx')
    rw [dim1_of hUd, dim2_of hUd] at this
    rw [← this]
    exact Finset.sum_congr rfl fun i _ => Finset.sum_congr rfl fun y _ => mul_comm _ _
  rw [Finset.sum_congr rfl fun x hx => by rw [i1 x hx]]
  refine Eq.trans ?_ (Finset.sum_congr rfl fun x hx => by rw [i2 x hx]).symm
  simp only [mul_ite, mul_one, mul_zero]
  rw [Finset.sum_ite_eq' (Finset.range l) x', if_pos (Finset.mem_range.2 hx')]
  obtain ⟨s1, i, g1, g2, rfl, g3⟩ := path_last w1 fd hs hx'
  rw [g3]
  have i3 : ∀ x ∈ Finset.range e, path (pre ++ [X]) (s1 ++ [i]) 0 x = ∑ z ∈ Finset.range c, path pre s1 0 z * X.get [z, i, x] := by
    intro x hx
    rw [path_append w1 (by rw [g1.length, w1.length]) Nat.one_pos]
    exact Finset.sum_congr rfl fun z _ => by rw [path_single hXd (Finset.mem_range.1 hx)]
  rw [Finset.sum_congr rfl fun x hx => by rw [i3 x hx]]
  simp only [fg, Finset.mul_sum, Finset.sum_mul]
  rw [Finset.sum_comm]
  exact Finset.sum_congr rfl fun z _ => Finset.sum_congr rfl fun x _ => by ring

/-- the states that share the new tensors on the left do not see the truncation -/
theorem overlap_right {svd : Tensor K → SvdRes K} (hg : GoodSvd svd) (eps : ℝ) {dflt : ℝ} (hd0 : 0 < dflt) {φ χ : List (Tensor K)}
    {ds : List Nat} (h : WF 1 φ ds 1) {k : Nat} (hk : k + 1 < ds.length) (hr : ∀ j, j < k → LeftIso (site φ j))
    (hχ : WF 1 χ ds 1)
    (he : ∀ j, j ≤ k → site χ j = site (setCanonical svd eps dflt φ k (site φ k) 1 true).1 j) :
    inner ds (amp χ) (amp φ) = inner ds (amp χ) (amp (setCanonical svd eps dflt φ k (site φ k) 1 true).1) := by
  have hlen := h.length
  have hlenχ := hχ.length
  obtain ⟨pre, Y, X, post, rfl, hl⟩ := split_at2 φ k (by omega)
  have hY : site (pre ++ Y :: X :: post) k = Y := by simp [site, ← hl]
  have hX : site (pre ++ Y :: X :: post) (k + 1) = X := by simp [site, ← hl]
  have hpre : ∀ A ∈ pre, LeftIso A := by
    refine mem_of_site (pre := []) (l := pre) rfl 0 rfl (Y :: X :: post) ?_
    intro j _ hj
    simpa using hr j (by omega)
  obtain ⟨ds1, ds', c, rfl, w1, w2⟩ := h.split
  cases w2 with
  | @cons c d e b A As ds'' hYd hc hd he' w3 =>
  cases w3 with
  | @cons e d2 f b A As ds3 hXd _ hd2 hf w4 =>
  obtain ⟨l, hlp, hVd, hUd, hiso, hproj⟩ := splitRight_proj hg eps hd0 hYd hc hd he'
  set sp := splitRight svd eps dflt Y true with hsp
  obtain ⟨fd, fg⟩ := fold_VB hVd hXd
  have hr1 : (setCanonical svd eps dflt (pre ++ Y :: X :: post) k (site (pre ++ Y :: X :: post) k) 1 true).1
      = pre ++ sp.U :: fold sp.V (-1) X 0 :: post := by
    simp only [setCanonical, hX, hY, splitT]
    rw [if_pos (by omega), if_neg (by rw [hlen]; omega)]
    simp only []
    rw [if_pos (by omega), ← hsp]
    simp [List.set_append, ← hl]
  rw [hr1] at he ⊢
  have hlds1 := w1.length
  have hsite1 : site χ k = sp.U := by
    rw [he k (le_refl _)]; simp [site, ← hl]
  have htake : χ.take k = pre := by
    rw [take_ext (l := χ) (l' := pre ++ sp.U :: fold sp.V (-1) X 0 :: post) (k := k) (by rw [hlenχ, ← hlen]; simp) (by omega) (fun j h1 => he j (by omega))]
    rw [← hl]; simp
  obtain ⟨a, b, v1, v2, v3, q1, q2, q3⟩ := WF.around hχ (show k < _ by omega)
  have hcut : χ = pre ++ sp.U :: χ.drop (k + 1) := by
    conv_lhs => rw [← List.take_append_drop k χ, Form.drop_site (by omega), hsite1, htake]
  have hds1 : (ds1 ++ d :: d2 :: ds3).drop (k + 1) = d2 :: ds3 := by
    rw [show k + 1 = ds1.length + 1 by omega, List.drop_append]; simp
  rw [hds1] at v3
  rw [hsite1, hUd] at v2
  obtain ⟨-, -, rfl⟩ : _ ∧ _ ∧ l = b := by simpa using v2
  rw [hcut, inner_left (WF.cons hXd he' hd2 hf w4) v3 hYd hUd w1 hpre he' hlp hd hc,
    inner_left (WF.cons fd hlp hd2 hf w4) v3 hUd hUd w1 hpre hlp hlp hd hc]
  refine sumCfg_congr fun t ht => Finset.sum_congr rfl fun x' hx' => ?_
  have hx' := Finset.mem_range.1 hx'
  have i1 : ∀ x ∈ Finset.range e, ∑ y ∈ Finset.range c, ∑ i ∈ Finset.range d, star (sp.U.get [y, i, x']) * Y.get [y, i, x] = sp.V.get [x', x] := by
    intro x hx
    rw [← hproj x' x hx' (Finset.mem_range.1 hx)]
  have i2 : ∀ x ∈ Finset.range l, ∑ y ∈ Finset.range c, ∑ i ∈ Finset.range d, star (sp.U.get [y, i, x']) * sp.U.get [y, i, x] = if x = x' then 1 else 0 := by
    intro x hx
    have := hiso x' x (by rw [dim2_of hUd]; exact hx') (by rw [dim2_of hUd]; exact Finset.mem_range.1 hx)
    rw [dim0_of hUd, dim1_of hUd] at this
    rw [this]
    simp [eq_comm]
  rw [Finset.sum_congr rfl fun x hx => by rw [i1 x hx]]
  refine Eq.trans ?_ (Finset.sum_congr rfl fun x hx => by rw [i2 x hx]).symm
  simp only [mul_ite, mul_one, mul_zero]
  rw [Finset.sum_ite_eq' (Finset.range l) x', if_pos (Finset.mem_range.2 hx')]
  cases ht with
  | cons hi h3 =>
  simp only [path_cons, dim2_of hXd, dim2_of fd, fg, Finset.mul_sum, Finset.sum_mul]
  rw [Finset.sum_comm]
  exact Finset.sum_congr rfl fun z _ => Finset.sum_congr rfl fun x _ => by ring

end MPS.Trotter
