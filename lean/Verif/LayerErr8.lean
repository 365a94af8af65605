import Verif.LayerErr7
import Verif.CanonProj

/-! # `canonical_form(psi, -1)` of a balanced state -/

set_option linter.unusedSectionVars false
set_option linter.unusedSimpArgs false

namespace MPS.Trotter
open MPS Tensor Minim Order

/-- norm of a tensor in front of an isometry -/
theorem head_norm {e d2 f : Nat} {post : List (Tensor ℂ)} {ds3 : List Nat} (w4 : WF f post ds3 1) (hpost : ∀ A ∈ post, RightIso A)
    (T : List Nat → ℂ) : ∑ x ∈ Finset.range e, ∑ j ∈ Finset.range d2, sumCfg ds3 (fun s => ‖∑ y ∈ Finset.range f, T [x, j, y] * path post s y 0‖ ^ 2) =
      sumCfg [e, d2, f] fun I => ‖T I‖ ^ 2 := by
  simp only [sumCfg_cons, sumCfg_nil, List.getD_cons_zero, List.getD_cons_succ]
  exact Finset.sum_congr rfl fun x _ => Finset.sum_congr rfl fun j _ => right_norm w4 hpost _

/-- one step of the sweep: the bounds of the bonds on the left are kept, and the norm lost is limited by the bound of the bond where it is lost -/
theorem back_step {svd : Tensor ℂ → SvdRes ℂ} (hg : GoodSvd svd) (eps : ℝ) {dflt : ℝ} (hd0 : 0 < dflt) {φ : List (Tensor ℂ)}
    {ds : List Nat} (h : WF 1 φ ds 1) {k : Nat} (hk : k + 1 < ds.length) (hr : ∀ j, k + 1 < j → j < ds.length → RightIso (site φ j)) {v : ℝ}
    (hb : ∀ j, j ≤ k + 1 → Bal ds φ j v) :
    let r := setCanonical svd eps dflt φ (k + 1) (site φ (k + 1)) (-1) true
    (∀ j, j ≤ k → Bal ds r.1 j v) ∧ normSq ds φ - normSq ds r.1 ≤ max dflt eps * v := by
  intro r
  have hlen := h.length
  have hok : 0 < effTol dflt (splitTol true) := by rw [effTol_default]; exact hd0
  obtain ⟨r1, r2, r3, -, -, -, Z, hZd, hZ, hZp⟩ := setCanonical_left_full hg eps hd0.le h k (by omega) true (-1) (by norm_num) (Or.inl hok)
  have hov := proj_dist (overlap_left hg eps hd0 h hk hr r1 fun _ _ _ => rfl)
  have hr2 : r.2 = (splitLeft svd eps dflt (site φ (k + 1)) true).lost := by
    simp only [r, setCanonical, splitT]
    rw [if_neg (by omega), if_neg (by omega)]
    simp
  change distSq ds φ r.1 = normSq ds φ - normSq ds r.1 at hov
  change sumCfg Z.dims (fun I => ‖(site φ (k + 1)).get I - Z.get I‖ ^ 2) = r.2 at hZ
  change ∀ s, IsCfg ds s → ∀ x < 1, ∀ y, path r.1 s x y = path (φ.set (k + 1) Z) s x y at hZp
  change WF 1 r.1 ds 1 at r1
  obtain ⟨pre, X, Y, post, rfl, hl⟩ := split_at2 φ k (by omega)
  have hX : site (pre ++ X :: Y :: post) k = X := by simp [site, ← hl]
  have hY : site (pre ++ X :: Y :: post) (k + 1) = Y := by simp [site, ← hl]
  have hpost : ∀ A ∈ post, RightIso A := by
    refine mem_of_site (pre := pre ++ [X, Y]) (l := post) rfl (k + 2) (by simp [hl]) [] ?_
    intro j hj hj2
    simpa using hr j (by omega) (by rw [← hlen]; simp; omega)
  obtain ⟨ds1, ds', c, rfl, w1, w2⟩ := h.split
  cases w2 with
  | @cons c d e b A As ds'' hXd hc hd he' w3 =>
  cases w3 with
  | @cons e d2 f b A As ds3 hYd _ hd2 hf w4 =>
  obtain ⟨l, hlp, hVd, hUd, hiso, hproj⟩ := splitLeft_proj hg eps hd0 hYd he' hd2 hf
  obtain ⟨l', -, -, hlost⟩ := splitLeft_norm hg eps hd0 hYd he' hd2 hf
  rw [hY] at hr2 hZ hZd
  rw [← hr2] at hlost
  set sp := splitLeft svd eps dflt Y true with hsp
  obtain ⟨fd, fg⟩ := fold_BV hVd hXd
  have hr1 : r.1 = pre ++ fold X (-1) sp.V 0 :: sp.U :: post := by
    simp only [r, setCanonical, hX, hY, splitT]
    rw [if_neg (by omega), if_neg (by omega)]
    simp only []
    rw [if_neg (by omega), ← hsp, show k + 1 - 1 = k by omega, hX]
    simp [List.set_append, ← hl]
  have hlds1 := w1.length
  constructor
  · intro j hj
    obtain ⟨q1, mid, e1, e2, a, C, rfl, hqj, rfl, v1, v2, hC, hL, hv⟩ := (hb j (by omega)).mid w1 (by omega)
    rw [hr1]
    refine ⟨q1, mid ++ fold X (-1) sp.V 0 :: sp.U :: post, e1, e2 ++ d :: d2 :: ds3, a, C, by simp, hqj, by simp, v1,
        v2.append (WF.cons fd hc hd hlp (WF.cons hUd hlp hd2 hf w4)), hC, hL, le_trans (mul_le_mul_of_nonneg_left ?_ hC) hv⟩
    refine Finset.sum_le_sum fun x hx => ?_
    have hcut := pair_cut v2 hXd hYd fd hUd ⟨hc, hd, he', hd2, hf, hlp⟩ w4 hpost (fun x hx x' hx' i hi => ?_) (Finset.mem_range.1 hx)
    · have h2 := sumCfg_nonneg (e2 ++ d :: d2 :: ds3) (fun s => ‖path (mid ++ fold X (-1) sp.V 0 :: sp.U :: post) s x 0 - path (mid ++ X :: Y :: post) s x 0‖ ^ 2)
        fun _ _ => by positivity
      linarith
    · set B1 := fold X (-1) sp.V 0
      have e0 : ∀ j ∈ Finset.range d2, ∀ y ∈ Finset.range f, star (∑ m ∈ Finset.range l, B1.get [x', i, m] * sp.U.get [m, j, y]) *
          (∑ m ∈ Finset.range e, X.get [x, i, m] * Y.get [m, j, y] - ∑ m ∈ Finset.range l, B1.get [x, i, m] * sp.U.get [m, j, y]) =
          ∑ m ∈ Finset.range l, star (B1.get [x', i, m]) * ((∑ z ∈ Finset.range e, X.get [x, i, z] * (Y.get [z, j, y] * star (sp.U.get [m, j, y]))) -
            ∑ m' ∈ Finset.range l, B1.get [x, i, m'] * (sp.U.get [m', j, y] * star (sp.U.get [m, j, y]))) := by
        intro j _ y _
        rw [star_sum, Finset.sum_mul]
        refine Finset.sum_congr rfl fun m _ => ?_
        rw [star_mul', mul_assoc, mul_sub]
        congr 2
        · rw [Finset.mul_sum]; exact Finset.sum_congr rfl fun z _ => by ring
        · rw [Finset.mul_sum]; exact Finset.sum_congr rfl fun z _ => by ring
      rw [Finset.sum_congr rfl fun j hj => Finset.sum_congr rfl fun y hy => e0 j hj y hy]
      rw [Finset.sum_congr rfl fun j _ => Finset.sum_comm, Finset.sum_comm]
      refine Finset.sum_eq_zero fun m hm => ?_
      simp only [← Finset.mul_sum, Finset.sum_sub_distrib]
      have i1 : ∑ j ∈ Finset.range d2, ∑ y ∈ Finset.range f, ∑ z ∈ Finset.range e, X.get [x, i, z] * (Y.get [z, j, y] * star (sp.U.get [m, j, y])) =
          B1.get [x, i, m] := by
        rw [Finset.sum_congr rfl fun j _ => Finset.sum_comm, Finset.sum_comm, fg x i m]
        refine Finset.sum_congr rfl fun z hz => ?_
        simp only [← Finset.mul_sum]
        rw [hproj z m (Finset.mem_range.1 hz) (Finset.mem_range.1 hm)]
      have i2 : ∑ j ∈ Finset.range d2, ∑ y ∈ Finset.range f, ∑ m' ∈ Finset.range l, B1.get [x, i, m'] * (sp.U.get [m', j, y] * star (sp.U.get [m, j, y])) =
          B1.get [x, i, m] := by
        rw [Finset.sum_congr rfl fun j _ => Finset.sum_comm, Finset.sum_comm]
        simp only [← Finset.mul_sum]
        have h3 : ∀ m' ∈ Finset.range l, ∑ j ∈ Finset.range d2, ∑ y ∈ Finset.range f, sp.U.get [m', j, y] * star (sp.U.get [m, j, y]) = if m' = m then 1 else 0 := by
          intro m' hm'
          have := hiso m' m (by rw [dim0_of hUd]; exact Finset.mem_range.1 hm') (by rw [dim0_of hUd]; exact Finset.mem_range.1 hm)
          rwa [dim1_of hUd, dim2_of hUd] at this
        rw [Finset.sum_congr rfl fun m' hm' => by rw [h3 m' hm']]
        simp only [mul_ite, mul_one, mul_zero]
        rw [Finset.sum_ite_eq' (Finset.range l) m, if_pos hm]
      rw [i1, i2, sub_self, mul_zero]
  · rw [← hov]
    have hbk := hb (k + 1) le_rfl
    rw [show pre ++ X :: Y :: post = (pre ++ [X]) ++ (Y :: post) by simp, show ds1 ++ d :: d2 :: ds3 = (ds1 ++ [d]) ++ (d2 :: ds3) by simp] at hbk
    have wX : WF 1 (pre ++ [X]) (ds1 ++ [d]) e := w1.append (WF.single hXd hc hd he')
    obtain ⟨q1, mid, e1, e2, a, C, hq, hqj, he, v1, v2, hC, hL, hv⟩ := hbk.mid wX (by simp; omega)
    have hmid : mid = [] := by
      have := congrArg List.length hq; simp at this
      exact List.eq_nil_of_length_eq_zero (by omega)
    subst hmid
    cases v2
    rw [List.append_nil] at hq he
    subst hq he
    simp only [List.nil_append] at hv
    have hset : (pre ++ X :: Y :: post).set (k + 1) Z = (pre ++ [X]) ++ Z :: post := by
      simp [List.set_append, ← hl]
    rw [hYd] at hZd
    have wZ : WF 1 ((pre ++ [X]) ++ Z :: post) ((ds1 ++ [d]) ++ d2 :: ds3) 1 := wX.append (WF.cons hZd he' hd2 hf w4)
    have hdist : distSq (ds1 ++ d :: d2 :: ds3) (pre ++ X :: Y :: post) r.1 =
        sumCfg (ds1 ++ [d]) fun s => sumCfg (d2 :: ds3) fun t => ‖∑ x ∈ Finset.range e, path (pre ++ [X]) s 0 x * (path (Y :: post) t x 0 - path (Z :: post) t x 0)‖ ^ 2 := by
      unfold distSq
      rw [show ds1 ++ d :: d2 :: ds3 = (ds1 ++ [d]) ++ (d2 :: ds3) by simp, sumCfg_append]
      refine sumCfg_congr fun s hs => sumCfg_congr fun t ht => ?_
      have hst : IsCfg (ds1 ++ d :: d2 :: ds3) (s ++ t) := by
        rw [show ds1 ++ d :: d2 :: ds3 = (ds1 ++ [d]) ++ (d2 :: ds3) by simp]; exact List.rel_append hs ht
      have hls : s.length = (pre ++ [X]).length := by rw [hs.length, wX.length]
      have a1 : amp (pre ++ X :: Y :: post) (s ++ t) = ∑ x ∈ Finset.range e, path (pre ++ [X]) s 0 x * path (Y :: post) t x 0 := by
        rw [amp_of_WF h (by simp), Finset.sum_range_one, show pre ++ X :: Y :: post = (pre ++ [X]) ++ (Y :: post) by simp, path_append wX hls Nat.one_pos]
      have a2 : amp r.1 (s ++ t) = ∑ x ∈ Finset.range e, path (pre ++ [X]) s 0 x * path (Z :: post) t x 0 := by
        rw [amp_of_WF r1 (by rw [hr1]; simp), Finset.sum_range_one, hZp _ hst 0 Nat.one_pos 0, hset, path_append wX hls Nat.one_pos]
      rw [a1, a2]
      simp only [mul_sub, Finset.sum_sub_distrib]
    rw [hdist]
    refine (hL.apply (d2 :: ds3) _).trans ?_
    have t1 : ∑ x ∈ Finset.range e, sumCfg (d2 :: ds3) (fun t => ‖path (Y :: post) t x 0 - path (Z :: post) t x 0‖ ^ 2) = r.2 := by
      rw [← hZ, hZd, ← head_norm w4 hpost fun I => Y.get I - Z.get I]
      refine Finset.sum_congr rfl fun x _ => ?_
      rw [sumCfg_cons]
      refine Finset.sum_congr rfl fun j _ => sumCfg_congr fun t _ => ?_
      simp only [path_cons, dim2_of hYd, dim2_of hZd, sub_mul, Finset.sum_sub_distrib]
    have t2 : rNorm e (d2 :: ds3) (Y :: post) = sumCfg Y.dims fun I => ‖Y.get I‖ ^ 2 := by
      rw [hYd, ← head_norm w4 hpost fun I => Y.get I]
      unfold rNorm
      refine Finset.sum_congr rfl fun x _ => ?_
      rw [sumCfg_cons]
      refine Finset.sum_congr rfl fun j _ => sumCfg_congr fun t _ => ?_
      simp only [path_cons, dim2_of hYd]
    rw [t1]
    rw [t2] at hv
    have tau0 : 0 ≤ max dflt eps := hd0.le.trans (le_max_left _ _)
    refine (mul_le_mul_of_nonneg_left hlost hC).trans ?_
    have := mul_le_mul_of_nonneg_left hv tau0
    linarith

end MPS.Trotter
