import Verif.CanonLemmas
import Verif.MPSLemmas2

/-! # Lemmas about canonical forms: gauge moves -/

set_option linter.unusedSectionVars false
set_option linter.unusedSimpArgs false

namespace MPS
open Tensor MPS.Props

section gen
variable {R : Type} [CommRing R]

theorem site_set (ψ : List (Tensor R)) (k j : Nat) (A : Tensor R) (hk : k < ψ.length) :
    site (ψ.set k A) j = if j = k then A else site ψ j := by
  unfold site
  by_cases h : j = k
  · subst h; simp [hk]
  · rw [if_neg h, List.getD_eq_getElem?_getD, List.getD_eq_getElem?_getD, List.getElem?_set_ne (fun e => h e.symm)]

theorem split_at {α : Type} (ψ : List α) (k : Nat) (h : k < ψ.length) :
    ∃ pre X post, ψ = pre ++ X :: post ∧ pre.length = k := by
  refine ⟨ψ.take k, ψ[k], ψ.drop (k + 1), ?_, ?_⟩
  · rw [List.getElem_cons_drop]; simp
  · simp; omega

theorem split_at2 {α : Type} (ψ : List α) (k : Nat) (h : k + 1 < ψ.length) :
    ∃ pre X Y post, ψ = pre ++ X :: Y :: post ∧ pre.length = k := by
  obtain ⟨pre, X, post, rfl, hl⟩ := split_at ψ k (by omega)
  cases post with
  | nil => simp at h; omega
  | cons Y post => exact ⟨pre, X, Y, post, rfl, hl⟩

/-- replacing a segment by another one with the same products does not change the products of the whole -/
theorem path_replace {a c e b : Nat} {pre mid mid' post : List (Tensor R)} {ds1 ds2 ds3 : List Nat}
    (h1 : WF a pre ds1 c) (h2 : WF c mid ds2 e) (h2' : WF c mid' ds2 e) (h3 : WF e post ds3 b)
    (h : ∀ s, IsCfg ds2 s → ∀ x < c, ∀ y < e, path mid s x y = path mid' s x y) :
    ∀ s, IsCfg (ds1 ++ (ds2 ++ ds3)) s → ∀ x < a, ∀ y, path (pre ++ (mid ++ post)) s x y = path (pre ++ (mid' ++ post)) s x y := by
  intro s hs x hx y
  obtain ⟨s1, s', rfl, hs1, hs'⟩ := isCfg_split hs
  obtain ⟨s2, s3, rfl, hs2, hs3⟩ := isCfg_split hs'
  have l1 : s1.length = pre.length := by rw [hs1.length, h1.length]
  have l2 : s2.length = mid.length := by rw [hs2.length, h2.length]
  have l2' : s2.length = mid'.length := by rw [hs2.length, h2'.length]
  rw [path_append h1 l1 hx, path_append h1 l1 hx]
  refine Finset.sum_congr rfl fun u hu => ?_
  have hu := Finset.mem_range.1 hu
  rw [path_append h2 l2 hu, path_append h2' l2' hu]
  congr 1
  refine Finset.sum_congr rfl fun v hv => ?_
  rw [h s2 hs2 u hu v (Finset.mem_range.1 hv)]

theorem path_pair {A B : Tensor R} {a d c d' e : Nat} (hA : A.dims = [a, d, c]) (hB : B.dims = [c, d', e]) (i j x y : Nat)
    (hy : y < e) : path [A, B] [i, j] x y = ∑ k ∈ Finset.range c, A.get [x, i, k] * B.get [k, j, y] := by
  rw [path_cons, dim2_of hA]
  refine Finset.sum_congr rfl fun k _ => ?_
  rw [path_single hB hy]

/-- if all the elements of one of the tensors vanish, so do all products -/
theorem path_zero {a b : Nat} {ψ : List (Tensor R)} {ds : List Nat} (h : WF a ψ ds b) (k : Nat) (hk : k < ψ.length) :
    ∃ a' d b', (site ψ k).dims = [a', d, b'] ∧ 0 < a' ∧ 0 < d ∧ 0 < b' ∧ ds.getD k 0 = d ∧
      ((∀ x i y, x < a' → i < d → y < b' → (site ψ k).get [x, i, y] = 0) →
        ∀ s, IsCfg ds s → ∀ u < a, ∀ v, path ψ s u v = 0) := by
  obtain ⟨pre, X, post, rfl, hl⟩ := split_at ψ k hk
  have hX : site (pre ++ X :: post) k = X := by
    simp [site, ← hl]
  rw [hX]
  obtain ⟨ds1, ds', c, rfl, w1, w2⟩ := h.split
  cases w2 with
  | @cons c d e b A As ds3 hd hc hdp he w3 =>
    refine ⟨c, d, e, hd, hc, hdp, he, ?_, fun hz s hs u hu v => ?_⟩
    · rw [← hl, w1.length]; simp
    obtain ⟨s1, s', rfl, hs1, hs'⟩ := isCfg_split hs
    rw [path_append w1 (by rw [hs1.length, w1.length]) hu]
    apply Finset.sum_eq_zero
    intro p hp
    cases s' with
    | nil => cases hs'
    | cons i s' =>
      rw [path_cons, dim2_of hd]
      rw [Finset.sum_eq_zero, mul_zero]
      intro q hq
      rw [hz p i q (Finset.mem_range.1 hp) (isCfg_cons.1 hs').1 (Finset.mem_range.1 hq), zero_mul]

end gen

variable {K : Type} [RCLike K]

theorem fold_VB {V B : Tensor K} {l c d e : Nat} (hV : V.dims = [l, c]) (hB : B.dims = [c, d, e]) :
    (fold V (-1) B 0).dims = [l, d, e] ∧
    ∀ k i y, (fold V (-1) B 0).get [k, i, y] = ∑ z ∈ Finset.range c, V.get [k, z] * B.get [z, i, y] := by
  constructor
  · simp [fold, hV, hB]
  · intro k i y
    simp [fold, hV, hB]

theorem fold_BV {V B : Tensor K} {l c d e : Nat} (hV : V.dims = [c, l]) (hB : B.dims = [e, d, c]) :
    (fold B (-1) V 0).dims = [e, d, l] ∧
    ∀ x i k, (fold B (-1) V 0).get [x, i, k] = ∑ z ∈ Finset.range c, B.get [x, i, z] * V.get [z, k] := by
  constructor
  · simp [fold, hV, hB]
  · intro x i k
    simp [fold, hV, hB]

/-- `set_canonical(psi, k, psi[k], +1, truncate)` away from the last site -/
theorem setCanonical_right_full {svd : Tensor K → SvdRes K} (hg : GoodSvd svd) (eps : ℝ) {dflt : ℝ} (hd0 : 0 ≤ dflt)
    {a b : Nat} {ψ : List (Tensor K)} {ds : List Nat} (h : WF a ψ ds b) (k : Nat) (hk : k + 1 < ψ.length) (trunc : Bool)
    (hok : 0 < effTol dflt (splitTol trunc) ∨ ∃ s, IsCfg ds s ∧ ∃ u < a, ∃ v, path ψ s u v ≠ 0) :
    let r := setCanonical svd eps dflt ψ k (site ψ k) 1 trunc
    WF a r.1 ds b ∧ LeftIso (site r.1 k) ∧ (∀ j, j ≠ k → j ≠ k + 1 → site r.1 j = site ψ j) ∧ 0 ≤ r.2 ∧
    (r.2 = 0 → ∀ s, IsCfg ds s → ∀ x < a, ∀ y, path r.1 s x y = path ψ s x y) ∧
    (effTol dflt (splitTol trunc) = 0 ∨ 1 ≤ effTol dflt (splitTol trunc) → r.2 = 0) ∧
    ∃ Z : Tensor K, Z.dims = (site ψ k).dims ∧ sumCfg Z.dims (fun I => ‖(site ψ k).get I - Z.get I‖ ^ 2) = r.2 ∧
      ∀ s, IsCfg ds s → ∀ x < a, ∀ y, path r.1 s x y = path (ψ.set k Z) s x y := by
  intro r
  have hz := path_zero h k (by omega)
  obtain ⟨pre, X, Y, post, rfl, hl⟩ := split_at2 ψ k hk
  have hX : site (pre ++ X :: Y :: post) k = X := by simp [site, ← hl]
  have hY : site (pre ++ X :: Y :: post) (k + 1) = Y := by simp [site, ← hl]
  rw [hX] at hz
  obtain ⟨ds1, ds', c, rfl, w1, w2⟩ := h.split
  cases w2 with
  | @cons c d e b A As ds'' hXd hc hd he w3 =>
  cases w3 with
  | @cons e d2 f b A As ds3 hYd _ hd2 hf w4 =>
  obtain ⟨a', d', b', hdim, -, -, -, -, hzero⟩ := hz
  rw [hXd] at hdim
  obtain ⟨rfl, rfl, rfl⟩ : c = a' ∧ d = d' ∧ e = b' := by simpa using hdim
  have hok' : 0 < effTol dflt (splitTol trunc) ∨ ∃ x i y, x < c ∧ i < d ∧ y < e ∧ X.get [x, i, y] ≠ 0 := by
    rcases hok with hok | ⟨s, hs, u, hu, v, hne⟩
    · exact Or.inl hok
    · right
      by_contra hcon
      push Not at hcon
      exact hne (hzero (fun x i y hx hi hy => hcon x i y hx hi hy) s hs u hu v)
  obtain ⟨l, hlp, -, hUd, hVd, hiso, hl0, herr, hex, hll⟩ := splitRight_spec hg eps hd0 hXd hc hd he trunc hok'
  set sp := splitRight svd eps dflt X trunc with hsp
  obtain ⟨fd, fg⟩ := fold_VB hVd hYd
  have hr1 : r.1 = pre ++ sp.U :: fold sp.V (-1) Y 0 :: post := by
    simp only [r, setCanonical, hX, hY, splitT]
    rw [if_pos (by omega), if_neg (by omega)]
    simp only []
    rw [if_pos (by omega), ← hsp]
    simp [List.set_append, ← hl]
  have hr2 : r.2 = sp.lost := by
    simp only [r, setCanonical, hX, hY, splitT]
    rw [if_pos (by omega), if_neg (by omega)]
    simp only []
    rw [if_pos (by omega), ← hsp]
  have w : WF a r.1 (ds1 ++ d :: d2 :: ds3) b := by
    rw [hr1]
    exact w1.append (WF.cons hUd hc hd hlp (WF.cons fd hlp hd2 hf w4))
  refine ⟨w, ?_, ?_, by rw [hr2]; exact hl0, ?_, ?_, ?_⟩
  · rw [hr1]
    simpa [site, ← hl] using hiso
  · intro j h1 h2
    rw [hr1]
    unfold site
    by_cases hj : j < pre.length
    · simp [List.getElem?_append_left hj]
    · have : ∃ q, j = pre.length + (q + 2) := ⟨j - pre.length - 2, by omega⟩
      obtain ⟨q, rfl⟩ := this
      simp [List.getElem?_append_right]
  · intro h0 s hs x hx y
    rw [hr1]
    have := path_replace (mid := [sp.U, fold sp.V (-1) Y 0]) (mid' := [X, Y]) (ds2 := [d, d2]) w1
      (WF.cons hUd hc hd hlp (WF.single fd hlp hd2 hf)) (WF.cons hXd hc hd he (WF.single hYd he hd2 hf)) w4 ?_ s hs x hx y
    · simpa using this
    · intro t ht u hu v hv
      cases ht with
      | cons hi ht =>
      cases ht with
      | cons hj ht =>
      cases ht
      rw [path_pair hUd fd _ _ _ _ hv, path_pair hXd hYd _ _ _ _ hv]
      simp only [fg, Finset.mul_sum]
      rw [Finset.sum_comm]
      refine Finset.sum_congr rfl fun z hz => ?_
      rw [← hex (by rw [← hr2]; exact h0) u _ z hu hi (Finset.mem_range.1 hz), Finset.sum_mul]
      exact Finset.sum_congr rfl fun q _ => by ring
  · intro h0; rw [hr2]; exact hll h0
  · refine ⟨⟨[c, d, e], fun I => ∑ q ∈ Finset.range l, sp.U.get [I.getD 0 0, I.getD 1 0, q] * sp.V.get [q, I.getD 2 0]⟩, by rw [hX, hXd], ?_, ?_⟩
    · rw [hX, hr2, ← herr]
      simp [sumCfg_cons]
    · intro s hs x hx y
      have hset : ∀ Z, (pre ++ X :: Y :: post).set k Z = pre ++ Z :: Y :: post := fun Z => by simp [List.set_append, ← hl]
      rw [hr1, hset]
      have := path_replace (mid := [sp.U, fold sp.V (-1) Y 0]) (mid' := [⟨[c, d, e], fun I => ∑ q ∈ Finset.range l, sp.U.get [I.getD 0 0, I.getD 1 0, q] * sp.V.get [q, I.getD 2 0]⟩, Y]) (ds2 := [d, d2]) w1
        (WF.cons hUd hc hd hlp (WF.single fd hlp hd2 hf)) (WF.cons rfl hc hd he (WF.single hYd he hd2 hf)) w4 ?_ s hs x hx y
      · simpa using this
      · intro t ht u hu v hv
        cases ht with
        | cons hi ht =>
        cases ht with
        | cons hj ht =>
        cases ht
        rw [path_pair hUd fd _ _ _ _ hv, path_pair rfl hYd _ _ _ _ hv]
        simp only [fg, Finset.mul_sum, List.getD_cons_zero, List.getD_cons_succ]
        rw [Finset.sum_comm]
        refine Finset.sum_congr rfl fun z hz => ?_
        rw [Finset.sum_mul]
        exact Finset.sum_congr rfl fun q _ => by ring

/-- `set_canonical(psi, k, psi[k], +1, truncate)` away from the last site -/
theorem setCanonical_right {svd : Tensor K → SvdRes K} (hg : GoodSvd svd) (eps : ℝ) {dflt : ℝ} (hd0 : 0 ≤ dflt)
    {a b : Nat} {ψ : List (Tensor K)} {ds : List Nat} (h : WF a ψ ds b) (k : Nat) (hk : k + 1 < ψ.length) (trunc : Bool)
    (hok : 0 < effTol dflt (splitTol trunc) ∨ ∃ s, IsCfg ds s ∧ ∃ u < a, ∃ v, path ψ s u v ≠ 0) :
    let r := setCanonical svd eps dflt ψ k (site ψ k) 1 trunc
    WF a r.1 ds b ∧ LeftIso (site r.1 k) ∧ (∀ j, j ≠ k → j ≠ k + 1 → site r.1 j = site ψ j) ∧ 0 ≤ r.2 ∧
    (r.2 = 0 → ∀ s, IsCfg ds s → ∀ x < a, ∀ y, path r.1 s x y = path ψ s x y) ∧
    (effTol dflt (splitTol trunc) = 0 ∨ 1 ≤ effTol dflt (splitTol trunc) → r.2 = 0) := by
  intro r
  obtain ⟨h1, h2, h3, h4, h5, h6, -⟩ := setCanonical_right_full hg eps hd0 h k hk trunc hok
  exact ⟨h1, h2, h3, h4, h5, h6⟩

/-- `set_canonical(psi, k+1, psi[k+1], -1, truncate)` -/
theorem setCanonical_left_full {svd : Tensor K → SvdRes K} (hg : GoodSvd svd) (eps : ℝ) {dflt : ℝ} (hd0 : 0 ≤ dflt)
    {a b : Nat} {ψ : List (Tensor K)} {ds : List Nat} (h : WF a ψ ds b) (k : Nat) (hk : k + 1 < ψ.length) (trunc : Bool)
    (sense : Int) (hsense : sense ≤ 0)
    (hok : 0 < effTol dflt (splitTol trunc) ∨ ∃ s, IsCfg ds s ∧ ∃ u < a, ∃ v, path ψ s u v ≠ 0) :
    let r := setCanonical svd eps dflt ψ (k + 1) (site ψ (k + 1)) sense trunc
    WF a r.1 ds b ∧ RightIso (site r.1 (k + 1)) ∧ (∀ j, j ≠ k → j ≠ k + 1 → site r.1 j = site ψ j) ∧ 0 ≤ r.2 ∧
    (r.2 = 0 → ∀ s, IsCfg ds s → ∀ x < a, ∀ y, path r.1 s x y = path ψ s x y) ∧
    (effTol dflt (splitTol trunc) = 0 ∨ 1 ≤ effTol dflt (splitTol trunc) → r.2 = 0) ∧
    ∃ Z : Tensor K, Z.dims = (site ψ (k + 1)).dims ∧ sumCfg Z.dims (fun I => ‖(site ψ (k + 1)).get I - Z.get I‖ ^ 2) = r.2 ∧
      ∀ s, IsCfg ds s → ∀ x < a, ∀ y, path r.1 s x y = path (ψ.set (k + 1) Z) s x y := by
  intro r
  have hz := path_zero h (k + 1) (by omega)
  obtain ⟨pre, X, Y, post, rfl, hl⟩ := split_at2 ψ k hk
  have hX : site (pre ++ X :: Y :: post) k = X := by simp [site, ← hl]
  have hY : site (pre ++ X :: Y :: post) (k + 1) = Y := by simp [site, ← hl]
  rw [hY] at hz
  obtain ⟨ds1, ds', c, rfl, w1, w2⟩ := h.split
  cases w2 with
  | @cons c d e b A As ds'' hXd hc hd he w3 =>
  cases w3 with
  | @cons e d2 f b A As ds3 hYd _ hd2 hf w4 =>
  obtain ⟨a', d', b', hdim, -, -, -, -, hzero⟩ := hz
  rw [hYd] at hdim
  obtain ⟨rfl, rfl, rfl⟩ : e = a' ∧ d2 = d' ∧ f = b' := by simpa using hdim
  have hok' : 0 < effTol dflt (splitTol trunc) ∨ ∃ x i y, x < e ∧ i < d2 ∧ y < f ∧ Y.get [x, i, y] ≠ 0 := by
    rcases hok with hok | ⟨s, hs, u, hu, v, hne⟩
    · exact Or.inl hok
    · right
      by_contra hcon
      push Not at hcon
      exact hne (hzero (fun x i y hx hi hy => hcon x i y hx hi hy) s hs u hu v)
  obtain ⟨l, hlp, -, hUd, hVd, hiso, hl0, herr, hex, hll⟩ := splitLeft_spec hg eps hd0 hYd he hd2 hf trunc hok'
  set sp := splitLeft svd eps dflt Y trunc with hsp
  obtain ⟨fd, fg⟩ := fold_BV hVd hXd
  have hr1 : r.1 = pre ++ fold X (-1) sp.V 0 :: sp.U :: post := by
    simp only [r, setCanonical, hX, hY, splitT]
    rw [if_neg (by omega), if_neg (by omega)]
    simp only []
    rw [if_neg (by omega), ← hsp, show k + 1 - 1 = k by omega, hX]
    simp [List.set_append, ← hl]
  have hr2 : r.2 = sp.lost := by
    simp only [r, setCanonical, hX, hY, splitT]
    rw [if_neg (by omega), if_neg (by omega)]
    simp only []
    rw [if_neg (by omega), ← hsp]
  have w : WF a r.1 (ds1 ++ d :: d2 :: ds3) b := by
    rw [hr1]
    exact w1.append (WF.cons fd hc hd hlp (WF.cons hUd hlp hd2 hf w4))
  refine ⟨w, ?_, ?_, by rw [hr2]; exact hl0, ?_, ?_, ?_⟩
  · rw [hr1]
    simpa [site, ← hl] using hiso
  · intro j h1 h2
    rw [hr1]
    unfold site
    by_cases hj : j < pre.length
    · simp [List.getElem?_append_left hj]
    · have : ∃ q, j = pre.length + (q + 2) := ⟨j - pre.length - 2, by omega⟩
      obtain ⟨q, rfl⟩ := this
      simp [List.getElem?_append_right]
  · intro h0 s hs x hx y
    rw [hr1]
    have := path_replace (mid := [fold X (-1) sp.V 0, sp.U]) (mid' := [X, Y]) (ds2 := [d, d2]) w1
      (WF.cons fd hc hd hlp (WF.single hUd hlp hd2 hf)) (WF.cons hXd hc hd he (WF.single hYd he hd2 hf)) w4 ?_ s hs x hx y
    · simpa using this
    · intro t ht u hu v hv
      cases ht with
      | cons hi ht =>
      cases ht with
      | cons hj ht =>
      cases ht
      rw [path_pair fd hUd _ _ _ _ hv, path_pair hXd hYd _ _ _ _ hv]
      simp only [fg, Finset.sum_mul]
      rw [Finset.sum_comm]
      refine Finset.sum_congr rfl fun z hz => ?_
      rw [← hex (by rw [← hr2]; exact h0) z _ v (Finset.mem_range.1 hz) hj hv, Finset.mul_sum]
      exact Finset.sum_congr rfl fun q _ => by ring
  · intro h0; rw [hr2]; exact hll h0
  · refine ⟨⟨[e, d2, f], fun I => ∑ q ∈ Finset.range l, sp.V.get [I.getD 0 0, q] * sp.U.get [q, I.getD 1 0, I.getD 2 0]⟩, by rw [hY, hYd], ?_, ?_⟩
    · rw [hY, hr2, ← herr]
      simp [sumCfg_cons]
    · intro s hs x hx y
      have hset : ∀ Z, (pre ++ X :: Y :: post).set (k + 1) Z = pre ++ X :: Z :: post := fun Z => by simp [List.set_append, ← hl]
      rw [hr1, hset]
      have := path_replace (mid := [fold X (-1) sp.V 0, sp.U]) (mid' := [X, ⟨[e, d2, f], fun I => ∑ q ∈ Finset.range l, sp.V.get [I.getD 0 0, q] * sp.U.get [q, I.getD 1 0, I.getD 2 0]⟩]) (ds2 := [d, d2]) w1
        (WF.cons fd hc hd hlp (WF.single hUd hlp hd2 hf)) (WF.cons hXd hc hd he (WF.single rfl he hd2 hf)) w4 ?_ s hs x hx y
      · simpa using this
      · intro t ht u hu v hv
        cases ht with
        | cons hi ht =>
        cases ht with
        | cons hj ht =>
        cases ht
        rw [path_pair fd hUd _ _ _ _ hv, path_pair hXd rfl _ _ _ _ hv]
        simp only [fg, Finset.sum_mul, List.getD_cons_zero, List.getD_cons_succ]
        rw [Finset.sum_comm]
        refine Finset.sum_congr rfl fun z hz => ?_
        rw [Finset.mul_sum]
        exact Finset.sum_congr rfl fun q _ => by ring

/-- `set_canonical(psi, k+1, psi[k+1], -1, truncate)` -/
theorem setCanonical_left {svd : Tensor K → SvdRes K} (hg : GoodSvd svd) (eps : ℝ) {dflt : ℝ} (hd0 : 0 ≤ dflt)
    {a b : Nat} {ψ : List (Tensor K)} {ds : List Nat} (h : WF a ψ ds b) (k : Nat) (hk : k + 1 < ψ.length) (trunc : Bool)
    (sense : Int) (hsense : sense ≤ 0)
    (hok : 0 < effTol dflt (splitTol trunc) ∨ ∃ s, IsCfg ds s ∧ ∃ u < a, ∃ v, path ψ s u v ≠ 0) :
    let r := setCanonical svd eps dflt ψ (k + 1) (site ψ (k + 1)) sense trunc
    WF a r.1 ds b ∧ RightIso (site r.1 (k + 1)) ∧ (∀ j, j ≠ k → j ≠ k + 1 → site r.1 j = site ψ j) ∧ 0 ≤ r.2 ∧
    (r.2 = 0 → ∀ s, IsCfg ds s → ∀ x < a, ∀ y, path r.1 s x y = path ψ s x y) ∧
    (effTol dflt (splitTol trunc) = 0 ∨ 1 ≤ effTol dflt (splitTol trunc) → r.2 = 0) := by
  intro r
  obtain ⟨h1, h2, h3, h4, h5, h6, -⟩ := setCanonical_left_full hg eps hd0 h k hk trunc sense hsense hok
  exact ⟨h1, h2, h3, h4, h5, h6⟩

theorem setCanonical_length (svd : Tensor K → SvdRes K) (eps dflt : ℝ) (ψ : List (Tensor K)) (k : Nat)
    (t : Tensor K) (sense : Int) (trunc : Bool) : (setCanonical svd eps dflt ψ k t sense trunc).1.length = ψ.length := by
  unfold setCanonical
  split <;> split <;> simp

/-- the value stored at `k` before is irrelevant -/
theorem setCanonical_set (svd : Tensor K → SvdRes K) (eps dflt : ℝ) (ψ : List (Tensor K)) (k : Nat) (hk : k < ψ.length)
    (t : Tensor K) (sense : Int) (trunc : Bool) :
    setCanonical svd eps dflt (ψ.set k t) k (site (ψ.set k t) k) sense trunc = setCanonical svd eps dflt ψ k t sense trunc := by
  have e0 : site (ψ.set k t) k = t := by rw [site_set _ _ _ _ hk, if_pos rfl]
  have e1 : site (ψ.set k t) (k + 1) = site ψ (k + 1) := by rw [site_set _ _ _ _ hk, if_neg (by omega)]
  have e2 : k ≠ 0 → site (ψ.set k t) (k - 1) = site ψ (k - 1) := by
    intro h; rw [site_set _ _ _ _ hk, if_neg (by omega)]
  rw [e0]
  unfold setCanonical
  rw [e1, List.length_set]
  simp only [List.set_set]
  by_cases hs : sense > 0
  · simp only [if_pos hs]
  · simp only [if_neg hs]
    by_cases h0 : k = 0
    · simp only [if_pos h0]
    · simp only [if_neg h0, e2 h0]

/-- `x` (a state and the weight lost on the way) descends from `ψ` -/
structure Carried (dflt : ℝ) (a b : Nat) (ds : List Nat) (ψ : List (Tensor K)) (x : List (Tensor K) × ℝ) : Prop where
  wf : WF a x.1 ds b
  nonneg : 0 ≤ x.2
  same : x.2 = 0 → ∀ s, IsCfg ds s → ∀ u < a, ∀ v, path x.1 s u v = path ψ s u v
  lossless : dflt = 0 ∨ 1 ≤ dflt → x.2 = 0

/-- either the tolerance is positive, or it is zero and the state is not the zero vector -/
def StartOk (dflt : ℝ) (a : Nat) (ds : List Nat) (ψ : List (Tensor K)) : Prop :=
  0 < dflt ∨ (dflt = 0 ∧ ∃ s, IsCfg ds s ∧ ∃ u < a, ∃ v, path ψ s u v ≠ 0)

theorem effTol_default (dflt : ℝ) : effTol dflt (splitTol true) = dflt := by
  simp [effTol, splitTol]

theorem effTol_zeros (dflt : ℝ) : effTol dflt (splitTol false) = 0 := by
  simp [effTol, splitTol]

theorem StartOk.nonneg {dflt : ℝ} {a : Nat} {ds : List Nat} {ψ : List (Tensor K)} (h : StartOk dflt a ds ψ) : 0 ≤ dflt := by
  rcases h with h | h
  · exact h.le
  · exact h.1.ge

theorem Carried.ok {dflt : ℝ} {a b : Nat} {ds : List Nat} {ψ : List (Tensor K)} {x : List (Tensor K) × ℝ}
    (hx : Carried dflt a b ds ψ x) (h : StartOk dflt a ds ψ) :
    0 < effTol dflt (splitTol true) ∨ ∃ s, IsCfg ds s ∧ ∃ u < a, ∃ v, path x.1 s u v ≠ 0 := by
  rw [effTol_default]
  rcases h with h | ⟨h, s, hs, u, hu, v, hne⟩
  · exact Or.inl h
  · refine Or.inr ⟨s, hs, u, hu, v, ?_⟩
    rw [hx.same (hx.lossless (Or.inl h)) s hs u hu v]; exact hne

theorem Carried.right {svd : Tensor K → SvdRes K} (hg : GoodSvd svd) (eps : ℝ) {dflt : ℝ}
    {a b : Nat} {ds : List Nat} {ψ : List (Tensor K)} {x : List (Tensor K) × ℝ}
    (hx : Carried dflt a b ds ψ x) (h : StartOk dflt a ds ψ) (k : Nat) (hk : k + 1 < x.1.length) :
    let r := setCanonical svd eps dflt x.1 k (site x.1 k) 1 true
    Carried dflt a b ds ψ (r.1, x.2 + r.2) ∧ LeftIso (site r.1 k) ∧
      (∀ j, j ≠ k → j ≠ k + 1 → site r.1 j = site x.1 j) := by
  intro r
  obtain ⟨h1, h2, h3, h4, h5, h6⟩ := setCanonical_right hg eps h.nonneg hx.wf k hk true (hx.ok h)
  refine ⟨⟨h1, add_nonneg hx.nonneg h4, fun h0 s hs u hu v => ?_, fun h0 => ?_⟩, h2, h3⟩
  · have h0 : x.2 + r.2 = 0 := h0
    have hx0 := hx.nonneg
    have : 0 ≤ r.2 := h4
    rw [← hx.same (by linarith) s hs u hu v]
    exact h5 (by show r.2 = 0; linarith) s hs u hu v
  · show x.2 + r.2 = 0
    have e1 := hx.lossless h0
    have e2 : r.2 = 0 := h6 (by rw [effTol_default]; exact h0)
    rw [e1, e2]; ring

theorem Carried.left {svd : Tensor K → SvdRes K} (hg : GoodSvd svd) (eps : ℝ) {dflt : ℝ}
    {a b : Nat} {ds : List Nat} {ψ : List (Tensor K)} {x : List (Tensor K) × ℝ}
    (hx : Carried dflt a b ds ψ x) (h : StartOk dflt a ds ψ) (k : Nat) (hk : k + 1 < x.1.length) :
    let r := setCanonical svd eps dflt x.1 (k + 1) (site x.1 (k + 1)) (-1) true
    Carried dflt a b ds ψ (r.1, x.2 + r.2) ∧ RightIso (site r.1 (k + 1)) ∧
      (∀ j, j ≠ k → j ≠ k + 1 → site r.1 j = site x.1 j) := by
  intro r
  obtain ⟨h1, h2, h3, h4, h5, h6⟩ := setCanonical_left hg eps h.nonneg hx.wf k hk true (-1) (by omega) (hx.ok h)
  refine ⟨⟨h1, add_nonneg hx.nonneg h4, fun h0 s hs u hu v => ?_, fun h0 => ?_⟩, h2, h3⟩
  · have h0 : x.2 + r.2 = 0 := h0
    have hx0 := hx.nonneg
    have : 0 ≤ r.2 := h4
    rw [← hx.same (by linarith) s hs u hu v]
    exact h5 (by show r.2 = 0; linarith) s hs u hu v
  · show x.2 + r.2 = 0
    have e1 := hx.lossless h0
    have e2 : r.2 = 0 := h6 (by rw [effTol_default]; exact h0)
    rw [e1, e2]; ring

theorem canonLoopLeft_spec {svd : Tensor K → SvdRes K} (hg : GoodSvd svd) (eps : ℝ) {dflt : ℝ}
    {a b : Nat} {ds : List Nat} {ψ : List (Tensor K)} (h : StartOk dflt a ds ψ) (k : Nat) :
    ∀ (i : Nat) (x : List (Tensor K) × ℝ), Carried dflt a b ds ψ x → i < x.1.length →
      (∀ j, i < j → j < x.1.length → RightIso (site x.1 j)) →
      let y := canonLoopLeft svd eps dflt k i x
      Carried dflt a b ds ψ y ∧ y.1.length = x.1.length ∧ (∀ j, min i k < j → j < y.1.length → RightIso (site y.1 j)) := by
  intro i
  induction i with
  | zero =>
    intro x hx hi hiso
    refine ⟨hx, rfl, fun j hj => hiso j ?_⟩
    omega
  | succ i ih =>
    intro x hx hi hiso
    rw [canonLoopLeft]
    simp only []
    split
    · next hk =>
      obtain ⟨h1, h2, h3⟩ := hx.left hg eps h i hi
      set r := setCanonical svd eps dflt x.1 (i + 1) (site x.1 (i + 1)) (-1) true with hr
      have hlen : r.1.length = x.1.length := setCanonical_length _ _ _ _ _ _ _ _
      obtain ⟨j1, j2, j3⟩ := ih (r.1, x.2 + r.2) h1 (by simp only [hlen]; omega) (by
        intro j hj hj2
        simp only [hlen] at hj2
        by_cases he : j = i + 1
        · subst he; exact h2
        · simp only []
          rw [h3 j (by omega) he]
          exact hiso j (by omega) hj2)
      refine ⟨j1, by rw [j2]; exact hlen, fun j hj hj2 => j3 j ?_ hj2⟩
      omega
    · next hk =>
      exact ⟨hx, rfl, fun j hj => hiso j (by omega)⟩

theorem canonLoopRight_spec {svd : Tensor K → SvdRes K} (hg : GoodSvd svd) (eps : ℝ) {dflt : ℝ}
    {a b : Nat} {ds : List Nat} {ψ : List (Tensor K)} (h : StartOk dflt a ds ψ) :
    ∀ (n i : Nat) (x : List (Tensor K) × ℝ), Carried dflt a b ds ψ x → i + n < x.1.length →
      (∀ j, j < i → LeftIso (site x.1 j)) → (∀ j, i + n < j → j < x.1.length → RightIso (site x.1 j)) →
      let y := canonLoopRight svd eps dflt n i x
      Carried dflt a b ds ψ y ∧ y.1.length = x.1.length ∧ (∀ j, j < i + n → LeftIso (site y.1 j)) ∧
        (∀ j, i + n < j → j < y.1.length → RightIso (site y.1 j)) := by
  intro n
  induction n with
  | zero =>
    intro i x hx hi hl hr
    exact ⟨hx, rfl, hl, hr⟩
  | succ n ih =>
    intro i x hx hi hl hr'
    rw [canonLoopRight]
    simp only []
    obtain ⟨h1, h2, h3⟩ := hx.right hg eps h i (by omega)
    set r := setCanonical svd eps dflt x.1 i (site x.1 i) 1 true with hr
    have hlen : r.1.length = x.1.length := setCanonical_length _ _ _ _ _ _ _ _
    obtain ⟨j1, j2, j3, j4⟩ := ih (i + 1) (r.1, x.2 + r.2) h1 (by simp only [hlen]; omega) (by
      intro j hj
      by_cases he : j = i
      · subst he; exact h2
      · simp only []
        rw [h3 j he (by omega)]
        exact hl j (by omega)) (by
      intro j hj hj2
      simp only [hlen] at hj2
      simp only []
      rw [h3 j (by omega) (by omega)]
      exact hr' j (by omega) hj2)
    refine ⟨j1, by rw [j2]; exact hlen, fun j hj => j3 j (by omega), fun j hj => j4 j (by omega)⟩

/-- canonical forms: everything but the normalisation -/
theorem eitherForm_spec {svd : Tensor K → SvdRes K} (hg : GoodSvd svd) (eps : ℝ) {dflt : ℝ}
    {a b : Nat} {ds : List Nat} {ψ : List (Tensor K)} (hw : WF a ψ ds b) (h : StartOk dflt a ds ψ) (k : Nat)
    (hk : k < ψ.length) :
    let y := eitherForm svd eps dflt ψ k false
    Carried dflt a b ds ψ y ∧ y.1.length = ψ.length ∧ (∀ j, j < k → LeftIso (site y.1 j)) ∧
        (∀ j, k < j → j < ψ.length → RightIso (site y.1 j)) := by
  have h0 : Carried dflt a b ds ψ (ψ, 0) := ⟨hw, le_refl _, fun _ _ _ _ _ _ => rfl, fun _ => rfl⟩
  obtain ⟨a1, a2, a3⟩ := canonLoopLeft_spec hg eps h k (ψ.length - 1) (ψ, 0) h0 (by show ψ.length - 1 < ψ.length; omega)
    (fun j hj hj2 => by have hj2 : j < ψ.length := hj2; omega)
  set x := canonLoopLeft svd eps dflt k (ψ.length - 1) (ψ, 0) with hx
  have a2 : x.1.length = ψ.length := a2
  obtain ⟨b1, b2, b3, b4⟩ := canonLoopRight_spec hg eps h k 0 x a1 (by omega) (fun j hj => by omega)
    (fun j hj hj2 => a3 j (by omega) hj2)
  have e : eitherForm svd eps dflt ψ k false = canonLoopRight svd eps dflt k 0 x := by
    simp only [eitherForm, ← hx]; rfl
  intro y
  have hy : y = canonLoopRight svd eps dflt k 0 x := e
  rw [hy]
  refine ⟨b1, by rw [b2, a2], fun j hj => b3 j (by omega), fun j hj hj2 => b4 j (by omega) (by rw [b2, a2]; exact hj2)⟩

end MPS
