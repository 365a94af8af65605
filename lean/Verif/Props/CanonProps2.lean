import Verif.Props.CanonProps

/-!
# C17: set_canonical_2_sites
-/

set_option linter.unusedSectionVars false
set_option linter.unusedSimpArgs false

namespace MPS.Props
open MPS Tensor
variable {K : Type} [RCLike K]

/-- the decomposition of a two-site tensor used by `set_canonical_2_sites` -/
theorem pair_svd_core {svd : Tensor K → SvdRes K} (hg : GoodSvd svd) (eps : ℝ) {dflt : ℝ} (hd0 : 0 ≤ dflt)
    {A : Tensor K} {T : Nat → Nat → Nat → Nat → K} {a1 i1 j1 c1 : Nat} (hAd : A.dims = [a1 * i1, j1 * c1])
    (hAget : ∀ x i j y, x < a1 → i < i1 → j < j1 → y < c1 → A.get [x + a1 * i, j + j1 * y] = T x i j y) (ha : 0 < a1) (hi1 : 0 < i1) (hj1 : 0 < j1)
    (hc : 0 < c1) (tol : ℝ) (Dmax : Int)
    (hok : 0 < effTol dflt tol ∨ ∃ x i j y, x < a1 ∧ i < i1 ∧ j < j1 ∧ y < c1 ∧ T x i j y ≠ 0) :
    let res := svd A
    let b1 := whereToTruncate eps dflt res.s tol Dmax
    let Pi := reshape (if b1 ≠ res.s.length then changeDim res.U (-1) b1 else res.U) [a1, i1, b1]
    let Pj := reshape (if b1 ≠ res.s.length then changeDim res.V 0 b1 else res.V) [b1, j1, c1]
    let s := vecOf (K := K) (if b1 ≠ res.s.length then res.s.take b1 else res.s)
    0 < b1 ∧ b1 ≤ min (a1 * i1) (j1 * c1) ∧ (0 < Dmax → (b1 : Int) ≤ Dmax) ∧ LeftIso Pi ∧ RightIso Pj ∧
    (∑ x ∈ Finset.range a1, ∑ i ∈ Finset.range i1, ∑ j ∈ Finset.range j1, ∑ y ∈ Finset.range c1,
      ‖T x i j y - ∑ m ∈ Finset.range b1, Pi.get [x, i, m] * s.get [m] * Pj.get [m, j, y]‖ ^ 2 = cumulated res.s b1) ∧
    (cumulated res.s b1 = 0 → ∀ x i j y, x < a1 → i < i1 → j < j1 → y < c1 →
      ∑ m ∈ Finset.range b1, Pi.get [x, i, m] * s.get [m] * Pj.get [m, j, y] = T x i j y) ∧
    (∀ m j y, m < b1 → j < j1 → y < c1 →
      ∑ x ∈ Finset.range a1, ∑ i ∈ Finset.range i1, star (Pi.get [x, i, m]) * T x i j y = s.get [m] * Pj.get [m, j, y]) ∧
    (∀ x i m, x < a1 → i < i1 → m < b1 →
      ∑ j ∈ Finset.range j1, ∑ y ∈ Finset.range c1, T x i j y * star (Pj.get [m, j, y]) = Pi.get [x, i, m] * s.get [m]) := by
  intro res b1 Pi Pj s
  have hm : 0 < a1 * i1 := Nat.mul_pos ha hi1
  have hn : 0 < j1 * c1 := Nat.mul_pos hj1 hc
  have hsvd : IsSVD A (a1 * i1) (j1 * c1) res := hg A _ _ hAd hm hn
  have hble : b1 ≤ min (a1 * i1) (j1 * c1) := by rw [← hsvd.lenS]; exact wtt_le _ _ _ _ _ hd0
  have hsne : res.s ≠ [] := by
    intro h0; have := hsvd.lenS; rw [h0] at this; simp at this; omega
  have hbpos : 0 < b1 := by
    apply wtt_pos _ _ _ _ _ hd0 hsne
    rcases hok with h1 | ⟨x, i, j, y, hx, hi, hj, hy, hne⟩
    · exact Or.inl h1
    · right
      by_contra hcon
      push Not at hcon
      apply hne
      rw [← hAget x i j y hx hi hj hy, ← hsvd.prod _ _ (add_mul_lt hx hi) (add_mul_lt hj hy)]
      apply Finset.sum_eq_zero
      intro k hk
      have hk' : k < res.s.length := by rw [hsvd.lenS]; exact Finset.mem_range.1 hk
      rw [List.getD_eq_getElem _ _ hk', hcon _ (List.getElem_mem hk')]
      simp
  have hDmax : 0 < Dmax → (b1 : Int) ≤ Dmax := by
    intro hD
    simp only [b1]
    by_cases ht : tol < 0
    · rw [C18_default eps dflt res.s tol ht hd0]; exact (C18_truncate eps dflt res.s dflt hd0 Dmax).2.1 hD
    · exact (C18_truncate eps dflt res.s tol (not_lt.mp ht) Dmax).2.1 hD
  have hUd : (if b1 ≠ res.s.length then changeDim res.U (-1) b1 else res.U).dims = [a1 * i1, b1] := by
    split
    · simp [changeDim, hsvd.dimsU]
    · next hh => rw [hsvd.dimsU, ← hsvd.lenS, not_not.mp hh]
  have hVd : (if b1 ≠ res.s.length then changeDim res.V 0 b1 else res.V).dims = [b1, j1 * c1] := by
    split
    · simp [changeDim, hsvd.dimsV]
    · next hh => rw [hsvd.dimsV, ← hsvd.lenS, not_not.mp hh]
  have hPi : ∀ x i m, x < a1 → i < i1 → m < b1 → Pi.get [x, i, m] = res.U.get [x + a1 * i, m] := by
    intro x i m hx hi hm
    have e : (if b1 ≠ res.s.length then changeDim res.U (-1) b1 else res.U).get [x + a1 * i, m] = res.U.get [x + a1 * i, m] := by
      split
      · simp only [changeDim, hsvd.dimsU, nrm_neg1]
        rw [if_pos]
        simp; omega
      · rfl
    rw [← e]
    apply reshape_get
    · rw [hUd]; simp [hm, add_mul_lt hx hi]
    · rw [hUd]; simp only [flat]; ring
  have hPj : ∀ m j y, m < b1 → j < j1 → y < c1 → Pj.get [m, j, y] = res.V.get [m, j + j1 * y] := by
    intro m j y hm hj hy
    have e : (if b1 ≠ res.s.length then changeDim res.V 0 b1 else res.V).get [m, j + j1 * y] = res.V.get [m, j + j1 * y] := by
      split
      · simp only [changeDim, hsvd.dimsV, nrm_zero]
        rw [if_pos]
        simp; omega
      · rfl
    rw [← e]
    apply reshape_get
    · rw [hVd]; simp [hm, add_mul_lt hj hy]
    · rw [hVd]; simp only [flat]; ring
  have hs : ∀ m, m < b1 → s.get [m] = ((res.s.getD m 0 : ℝ) : K) := by
    intro m hm
    simp only [s, vecOf, List.getD_cons_zero]
    congr 1
    split
    · simp [List.getD_eq_getElem?_getD, List.getElem?_take, hm]
    · rfl
  have hprod : ∀ x i j y, x < a1 → i < i1 → j < j1 → y < c1 →
      ∑ m ∈ Finset.range b1, Pi.get [x, i, m] * s.get [m] * Pj.get [m, j, y]
      = ∑ k ∈ Finset.range b1, res.U.get [x + a1 * i, k] * ((res.s.getD k 0 : ℝ) : K) * res.V.get [k, j + j1 * y] := by
    intro x i j y hx hi hj hy
    refine Finset.sum_congr rfl fun m hm => ?_
    have hm := Finset.mem_range.1 hm
    rw [hPi _ _ _ hx hi hm, hPj _ _ _ hm hj hy, hs m hm]
  have hPid : Pi.dims = [a1, i1, b1] := rfl
  have hPjd : Pj.dims = [b1, j1, c1] := rfl
  refine ⟨hbpos, hble, hDmax, ?_, ?_, ?_, ?_, ?_, ?_⟩
  · intro k k' hk hk'
    rw [dim2_of hPid] at hk hk'
    rw [dim0_of hPid, dim1_of hPid, ← hsvd.isoU k k' (by omega) (by omega), sum_range_mul, Finset.sum_comm]
    refine Finset.sum_congr rfl fun i hi => Finset.sum_congr rfl fun x hx => ?_
    rw [hPi _ _ _ (Finset.mem_range.1 hx) (Finset.mem_range.1 hi) hk, hPi _ _ _ (Finset.mem_range.1 hx) (Finset.mem_range.1 hi) hk']
  · intro k k' hk hk'
    rw [dim0_of hPjd] at hk hk'
    rw [dim1_of hPjd, dim2_of hPjd, ← hsvd.isoV k k' (by omega) (by omega), sum_range_mul, Finset.sum_comm]
    refine Finset.sum_congr rfl fun i hi => Finset.sum_congr rfl fun x hx => ?_
    rw [hPj _ _ _ hk (Finset.mem_range.1 hx) (Finset.mem_range.1 hi), hPj _ _ _ hk' (Finset.mem_range.1 hx) (Finset.mem_range.1 hi)]
  · rw [cumulated_eq, ← hsvd.error hble, sum_range_mul, Finset.sum_comm]
    refine Finset.sum_congr rfl fun i hi => Finset.sum_congr rfl fun x hx => ?_
    rw [sum_range_mul, Finset.sum_comm]
    refine Finset.sum_congr rfl fun y hy => Finset.sum_congr rfl fun j hj => ?_
    rw [hprod _ _ _ _ (Finset.mem_range.1 hx) (Finset.mem_range.1 hi) (Finset.mem_range.1 hj) (Finset.mem_range.1 hy),
      hAget _ _ _ _ (Finset.mem_range.1 hx) (Finset.mem_range.1 hi) (Finset.mem_range.1 hj) (Finset.mem_range.1 hy)]
  · intro h0 x i j y hx hi hj hy
    rw [cumulated_eq] at h0
    rw [hprod x i j y hx hi hj hy, hsvd.exact hble h0 (add_mul_lt hx hi) (add_mul_lt hj hy), hAget x i j y hx hi hj hy]
  · intro m j y hm hj hy
    rw [hs m hm, hPj m j y hm hj hy, ← IsSVD_left hsvd (by omega) (add_mul_lt hj hy), sum_range_mul, Finset.sum_comm]
    refine Finset.sum_congr rfl fun i hi => Finset.sum_congr rfl fun x hx => ?_
    rw [hPi _ _ _ (Finset.mem_range.1 hx) (Finset.mem_range.1 hi) hm, hAget _ _ _ _ (Finset.mem_range.1 hx) (Finset.mem_range.1 hi) hj hy]
  · intro x i m hx hi hm
    rw [hs m hm, hPi x i m hx hi hm, ← IsSVD_right hsvd (by omega) (add_mul_lt hx hi), sum_range_mul, Finset.sum_comm]
    refine Finset.sum_congr rfl fun y hy => Finset.sum_congr rfl fun j hj => ?_
    rw [hPj _ _ _ hm (Finset.mem_range.1 hj) (Finset.mem_range.1 hy), hAget _ _ _ _ hx hi (Finset.mem_range.1 hj) (Finset.mem_range.1 hy)]

/-- the decomposition of a two-site tensor used by `set_canonical_2_sites` -/
theorem pair_svd {svd : Tensor K → SvdRes K} (hg : GoodSvd svd) (eps : ℝ) {dflt : ℝ} (hd0 : 0 ≤ dflt)
    {T : Tensor K} {a1 i1 j1 c1 : Nat} (h : T.dims = [a1, i1, j1, c1]) (ha : 0 < a1) (hi1 : 0 < i1) (hj1 : 0 < j1)
    (hc : 0 < c1) (tol : ℝ) (Dmax : Int)
    (hok : 0 < effTol dflt tol ∨ ∃ x i j y, x < a1 ∧ i < i1 ∧ j < j1 ∧ y < c1 ∧ T.get [x, i, j, y] ≠ 0) :
    let res := svd (reshape T [a1 * i1, j1 * c1])
    let b1 := whereToTruncate eps dflt res.s tol Dmax
    let Pi := reshape (if b1 ≠ res.s.length then changeDim res.U (-1) b1 else res.U) [a1, i1, b1]
    let Pj := reshape (if b1 ≠ res.s.length then changeDim res.V 0 b1 else res.V) [b1, j1, c1]
    let s := vecOf (K := K) (if b1 ≠ res.s.length then res.s.take b1 else res.s)
    0 < b1 ∧ b1 ≤ min (a1 * i1) (j1 * c1) ∧ (0 < Dmax → (b1 : Int) ≤ Dmax) ∧ LeftIso Pi ∧ RightIso Pj ∧
    (∑ x ∈ Finset.range a1, ∑ i ∈ Finset.range i1, ∑ j ∈ Finset.range j1, ∑ y ∈ Finset.range c1,
      ‖T.get [x, i, j, y] - ∑ m ∈ Finset.range b1, Pi.get [x, i, m] * s.get [m] * Pj.get [m, j, y]‖ ^ 2 = cumulated res.s b1) ∧
    (cumulated res.s b1 = 0 → ∀ x i j y, x < a1 → i < i1 → j < j1 → y < c1 →
      ∑ m ∈ Finset.range b1, Pi.get [x, i, m] * s.get [m] * Pj.get [m, j, y] = T.get [x, i, j, y]) ∧
    (∀ m j y, m < b1 → j < j1 → y < c1 →
      ∑ x ∈ Finset.range a1, ∑ i ∈ Finset.range i1, star (Pi.get [x, i, m]) * T.get [x, i, j, y] = s.get [m] * Pj.get [m, j, y]) ∧
    (∀ x i m, x < a1 → i < i1 → m < b1 →
      ∑ j ∈ Finset.range j1, ∑ y ∈ Finset.range c1, T.get [x, i, j, y] * star (Pj.get [m, j, y]) = Pi.get [x, i, m] * s.get [m]) := by
  refine pair_svd_core hg eps hd0 (T := fun x i j y => T.get [x, i, j, y]) rfl ?_ ha hi1 hj1 hc tol Dmax hok
  intro x i j y hx hi hj hy
  apply reshape_get
  · rw [h]; simp [hx, hi, hj, hy]
  · rw [h]; simp only [flat]; ring

/-- product of the tensors stored at sites `p` and `p+1` -/
def pairProduct (Q : List (Tensor K)) (p x i j y : Nat) : K :=
  ∑ m ∈ Finset.range ((site Q p).dim 2), (site Q p).get [x, i, m] * (site Q (p + 1)).get [m, j, y]

/-- two chains which coincide except at the pair `(p,p+1)`, where their products coincide, are the same state -/
theorem same_state {a b : Nat} {P Q : List (Tensor K)} {ds : List Nat} (hP : WF a P ds b) (hQ : WF a Q ds b) (p : Nat)
    (hp : p + 1 < ds.length) (hs : ∀ j, j ≠ p → j ≠ p + 1 → site Q j = site P j)
    (hprod : ∀ x i j y, x < (site P p).dim 0 → i < ds.getD p 0 → j < ds.getD (p + 1) 0 → y < (site P (p + 1)).dim 2 →
      pairProduct Q p x i j y = pairProduct P p x i j y)
    (hb : (site Q p).dim 0 = (site P p).dim 0 ∧ (site Q (p + 1)).dim 2 = (site P (p + 1)).dim 2) :
    ∀ s, IsCfg ds s → ∀ x < a, ∀ y, path Q s x y = path P s x y := by
  obtain ⟨pre, X, Y, post, rfl, hl⟩ := split_at2 P p (by rw [hP.length]; exact hp)
  obtain ⟨pre', X', Y', post', rfl, hl'⟩ := split_at2 Q p (by rw [hQ.length]; exact hp)
  have hX : site (pre ++ X :: Y :: post) p = X := by simp [site, ← hl]
  have hY : site (pre ++ X :: Y :: post) (p + 1) = Y := by simp [site, ← hl]
  have hX' : site (pre' ++ X' :: Y' :: post') p = X' := by simp [site, ← hl']
  have hY' : site (pre' ++ X' :: Y' :: post') (p + 1) = Y' := by simp [site, ← hl']
  simp only [pairProduct, hX, hY, hX', hY'] at hprod hb
  have hlen : post'.length = post.length := by
    have h1 := hP.length; have h2 := hQ.length
    simp at h1 h2; omega
  have epre : pre' = pre := by
    apply List.ext_getElem (by omega)
    intro j h1 h2
    have := hs j (by omega) (by omega)
    simpa [site, List.getElem?_append_left h1, List.getElem?_append_left h2, List.getElem?_eq_getElem h1, List.getElem?_eq_getElem h2]
      using this
  have epost : post' = post := by
    apply List.ext_getElem hlen
    intro j h1 h2
    have := hs (pre.length + (j + 2)) (by omega) (by omega)
    have e' : site (pre' ++ X' :: Y' :: post') (pre.length + (j + 2)) = post'[j] := by
      rw [show pre.length = pre'.length by omega]
      simp [site, List.getElem?_append_right, List.getElem?_eq_getElem h1]
    have e : site (pre ++ X :: Y :: post) (pre.length + (j + 2)) = post[j] := by
      simp [site, List.getElem?_append_right, List.getElem?_eq_getElem h2]
    rw [e', e] at this; exact this
  subst epre epost
  obtain ⟨ds1, ds', c, rfl, w1, w2⟩ := hP.split
  obtain ⟨es1, es', c', he, w1', w2'⟩ := hQ.split
  have hl1 : ds1.length = es1.length := by rw [← w1.length, ← w1'.length]
  obtain ⟨rfl, rfl⟩ := List.append_inj he hl1
  cases w2 with
  | @cons c d e b A As ds'' hXd hc hd he' w3 =>
  cases w3 with
  | @cons e d2 f b A As ds3 hYd _ hd2 hf w4 =>
  cases w2' with
  | @cons c' d e' b A As ds'' hXd' hc' hd' he'' w3' =>
  cases w3' with
  | @cons e' d2 f' b A As ds3 hYd' _ hd2' hf' w4' =>
  rw [dim0_of hXd, dim0_of hXd', dim2_of hYd, dim2_of hYd'] at hb
  obtain ⟨rfl, rfl⟩ := hb
  intro s hs x hx y
  have := path_replace (mid := [X', Y']) (mid' := [X, Y]) (ds2 := [d, d2]) w1
      (WF.cons hXd' hc hd he'' (WF.single hYd' he'' hd2 hf)) (WF.cons hXd hc hd he' (WF.single hYd he' hd2 hf)) w4 ?_ s hs x hx y
  · simpa using this
  · intro t ht u hu v hv
    cases ht with
    | cons hi ht =>
    cases ht with
    | cons hj ht =>
    cases ht
    rw [path_pair hXd' hYd' _ _ _ _ hv, path_pair hXd hYd _ _ _ _ hv]
    have hg1 : (ds1 ++ d :: d2 :: ds3).getD p 0 = d := by rw [← hl, w1.length]; simp
    have hg2 : (ds1 ++ d :: d2 :: ds3).getD (p + 1) 0 = d2 := by rw [← hl, w1.length]; simp
    have := hprod u _ _ v (by rw [dim0_of hXd]; exact hu) (by rw [hg1]; exact hi) (by rw [hg2]; exact hj) (by rw [dim2_of hYd]; exact hv)
    rwa [dim2_of hXd, dim2_of hXd'] at this

/-- the sites touched by `set_canonical_2_sites(P, Pij, k, sense)`: `(k, k+1)` for positive sense, else `(k-1, k)` -/
def firstSite (k sense : Int) : Int := if sense > 0 then k else k - 1

/-- `C17_store`, and the tensor left at the new centre is the pair tensor contracted with the conjugate of the isometry -/
theorem pair_store {svd : Tensor K → SvdRes K} (hg : GoodSvd svd) (eps : ℝ) {dflt : ℝ} (hd0 : 0 ≤ dflt)
    {ds : List Nat} {P : List (Tensor K)} {a b : Nat} (hw : WF a P ds b) (Pij : Tensor K) (k sense : Int) (p : Nat)
    (hp : firstSite k sense = p) (hp2 : p + 1 < ds.length)
    (hdims : Pij.dims = [(site P p).dim 0, ds.getD p 0, ds.getD (p + 1) 0, (site P (p + 1)).dim 2])
    (Dmax : Int) (tol : ℝ)
    (hok : 0 < tol ∨ (tol < 0 ∧ 0 < dflt) ∨ ∃ idx, InB Pij.dims idx ∧ Pij.get idx ≠ 0) :
    ∃ Q lost, setCanonical2 svd eps dflt P Pij k sense Dmax tol false = some (Q, lost, 0) ∧ WF a Q ds b ∧
      (∀ j, j ≠ p → j ≠ p + 1 → site Q j = site P j) ∧
      (0 < Dmax → ((site Q p).dim 2 : Int) ≤ Dmax) ∧
      (if sense > 0 then LeftIso (site Q p) else RightIso (site Q (p + 1))) ∧
      (∑ x ∈ Finset.range ((site P p).dim 0), ∑ i ∈ Finset.range (ds.getD p 0), ∑ j ∈ Finset.range (ds.getD (p + 1) 0),
        ∑ y ∈ Finset.range ((site P (p + 1)).dim 2), ‖Pij.get [x, i, j, y] - pairProduct Q p x i j y‖ ^ 2 = lost) ∧
      (lost = 0 → (∀ x i j y, InB Pij.dims [x, i, j, y] → pairProduct Q p x i j y = Pij.get [x, i, j, y]) ∧
        ∀ P', WF a P' ds b → (∀ j, j ≠ p → j ≠ p + 1 → site P' j = site P j) → (site P' p).dim 0 = (site P p).dim 0 →
          (site P' (p + 1)).dim 2 = (site P (p + 1)).dim 2 →
          (∀ x i j y, InB Pij.dims [x, i, j, y] → pairProduct P' p x i j y = Pij.get [x, i, j, y]) →
          ∀ s, IsCfg ds s → ∀ x < a, ∀ y, path Q s x y = path P' s x y) ∧
      (if sense > 0 then ∀ m j y, m < (site Q p).dim 2 → j < ds.getD (p + 1) 0 → y < (site P (p + 1)).dim 2 →
          ∑ x ∈ Finset.range ((site P p).dim 0), ∑ i ∈ Finset.range (ds.getD p 0), star ((site Q p).get [x, i, m]) * Pij.get [x, i, j, y] =
            (site Q (p + 1)).get [m, j, y]
        else ∀ x i m, x < (site P p).dim 0 → i < ds.getD p 0 → m < (site Q p).dim 2 →
          ∑ j ∈ Finset.range (ds.getD (p + 1) 0), ∑ y ∈ Finset.range ((site P (p + 1)).dim 2),
            Pij.get [x, i, j, y] * star ((site Q (p + 1)).get [m, j, y]) = (site Q p).get [x, i, m]) := by
  have hlen := hw.length
  obtain ⟨pre, X, Y, post, rfl, hl⟩ := split_at2 P p (by omega)
  have hX : site (pre ++ X :: Y :: post) p = X := by simp [site, ← hl]
  have hY : site (pre ++ X :: Y :: post) (p + 1) = Y := by simp [site, ← hl]
  have hw0 := hw
  obtain ⟨ds1, ds', c, rfl, w1, w2⟩ := hw.split
  cases w2 with
  | @cons c d e b A As ds'' hXd hc hd he w3 =>
  cases w3 with
  | @cons e d2 f b A As ds3 hYd _ hd2 hf w4 =>
  have hg1 : (ds1 ++ d :: d2 :: ds3).getD p 0 = d := by rw [← hl, w1.length]; simp
  have hg2 : (ds1 ++ d :: d2 :: ds3).getD (p + 1) 0 = d2 := by rw [← hl, w1.length]; simp
  rw [hX, hY, hg1, hg2, dim0_of hXd, dim2_of hYd] at hdims
  simp only [hX, hY, hg1, hg2, dim0_of hXd, dim2_of hYd]
  have hok' : 0 < effTol dflt tol ∨ ∃ x i j y, x < c ∧ i < d ∧ j < d2 ∧ y < f ∧ Pij.get [x, i, j, y] ≠ 0 := by
    rcases hok with h | ⟨h1, h2⟩ | ⟨idx, hb, hne⟩
    · left; unfold effTol; rw [if_neg (not_lt.mpr h.le)]; exact h
    · left; unfold effTol; rw [if_pos h1]; exact h2
    · right
      rw [hdims] at hb
      cases hb with
      | cons hx hb =>
      cases hb with
      | cons hi hb =>
      cases hb with
      | cons hj hb =>
      cases hb with
      | cons hy hb =>
      cases hb
      exact ⟨_, _, _, _, hx, hi, hj, hy, hne⟩
  obtain ⟨hb0, -, hbD, isoL, isoR, herr, hexact, hcL, hcR⟩ := pair_svd hg eps hd0 hdims hc hd hd2 hf tol Dmax hok'
  set res := svd (reshape Pij [c * d, d2 * f]) with hres
  set b1 := whereToTruncate eps dflt res.s tol Dmax with hb1
  set Pi := reshape (if b1 ≠ res.s.length then changeDim res.U (-1) b1 else res.U) [c, d, b1] with hPi
  set Pj := reshape (if b1 ≠ res.s.length then changeDim res.V 0 b1 else res.V) [b1, d2, f] with hPj
  set s := vecOf (K := K) (if b1 ≠ res.s.length then res.s.take b1 else res.s) with hs
  have dPi : Pi.dims = [c, d, b1] := rfl
  have dPj : Pj.dims = [b1, d2, f] := rfl
  have dims0 : Pij.dims.getD 0 0 = c ∧ Pij.dims.getD 1 0 = d ∧ Pij.dims.getD 2 0 = d2 ∧ Pij.dims.getD 3 0 = f := by
    rw [hdims]; simp
  -- the tensors stored
  obtain ⟨B1, B2, hres2, d1, d2', hprod, hiso, hcen⟩ : ∃ B1 B2 : Tensor K,
      setCanonical2 svd eps dflt (pre ++ X :: Y :: post) Pij k sense Dmax tol false
        = some (pre ++ B1 :: B2 :: post, cumulated res.s b1, 0) ∧ B1.dims = [c, d, b1] ∧ B2.dims = [b1, d2, f] ∧
      (∀ x i j y, ∑ m ∈ Finset.range b1, B1.get [x, i, m] * B2.get [m, j, y]
        = ∑ m ∈ Finset.range b1, Pi.get [x, i, m] * s.get [m] * Pj.get [m, j, y]) ∧
      (if sense > 0 then LeftIso B1 else RightIso B2) ∧
      (if sense > 0 then ∀ m j y, m < b1 → j < d2 → y < f →
          ∑ x ∈ Finset.range c, ∑ i ∈ Finset.range d, star (B1.get [x, i, m]) * Pij.get [x, i, j, y] = B2.get [m, j, y]
        else ∀ x i m, x < c → i < d → m < b1 →
          ∑ j ∈ Finset.range d2, ∑ y ∈ Finset.range f, Pij.get [x, i, j, y] * star (B2.get [m, j, y]) = B1.get [x, i, m]) := by
    unfold setCanonical2 firstSite at *
    rw [dims0.1, dims0.2.1, dims0.2.2.1, dims0.2.2.2]
    simp only [← hres, ← hb1, ← hPi, ← hPj, ← hs]
    by_cases hsn : sense > 0
    · rw [if_pos hsn] at hp
      simp only [if_pos hsn]
      refine ⟨Pi, scale Pj 0 s, ?_, dPi, rfl, ?_, isoL, fun m j y hm hj hy => by rw [hcL m j y hm hj hy]; simp [scale, mul_comm]⟩
      · have hk : k.toNat = pre.length := by omega
        rw [if_pos (by constructor; omega; rw [hlen]; omega)]
        simp [hk, List.set_append]
      · intro x i j y
        refine Finset.sum_congr rfl fun m _ => ?_
        simp [scale, mul_assoc, mul_comm, mul_left_comm]
    · rw [if_neg hsn] at hp
      simp only [if_neg hsn]
      refine ⟨scale Pi (-1) s, Pj, ?_, rfl, dPj, ?_, isoR, fun x i m hx hi hm => by rw [hcR x i m hx hi hm]; simp [scale, dPi]⟩
      · have hk : k.toNat = pre.length + 1 := by omega
        rw [if_pos (by constructor; omega; rw [hlen]; omega)]
        simp [hk, List.set_append]
      · intro x i j y
        refine Finset.sum_congr rfl fun m _ => ?_
        simp [scale, dPi]
  have hQX : site (pre ++ B1 :: B2 :: post) p = B1 := by simp [site, ← hl]
  have hQY : site (pre ++ B1 :: B2 :: post) (p + 1) = B2 := by simp [site, ← hl]
  have hpp : ∀ x i j y, pairProduct (pre ++ B1 :: B2 :: post) p x i j y
      = ∑ m ∈ Finset.range b1, Pi.get [x, i, m] * s.get [m] * Pj.get [m, j, y] := by
    intro x i j y
    rw [pairProduct, hQX, hQY, dim2_of d1, hprod]
  have hwQ : WF a (pre ++ B1 :: B2 :: post) (ds1 ++ d :: d2 :: ds3) b :=
    w1.append (WF.cons d1 hc hd hb0 (WF.cons d2' hb0 hd2 hf w4))
  have hother : ∀ j, j ≠ p → j ≠ p + 1 → site (pre ++ B1 :: B2 :: post) j = site (pre ++ X :: Y :: post) j := by
    intro j h1 h2
    unfold site
    by_cases hj : j < pre.length
    · simp [List.getElem?_append_left hj]
    · obtain ⟨q, rfl⟩ : ∃ q, j = pre.length + (q + 2) := ⟨j - pre.length - 2, by omega⟩
      simp [List.getElem?_append_right]
  refine ⟨_, _, hres2, hwQ, hother, ?_, ?_, ?_, ?_, by rw [hQX, hQY, dim2_of d1]; exact hcen⟩
  · rw [hQX, dim2_of d1]; exact hbD
  · rw [hQX, hQY]; exact hiso
  · simp only [hpp]; exact herr
  · intro h0
    have hex : ∀ x i j y, InB Pij.dims [x, i, j, y] →
        pairProduct (pre ++ B1 :: B2 :: post) p x i j y = Pij.get [x, i, j, y] := by
      intro x i j y hb
      rw [hdims] at hb
      simp only [inB_cons, inB_nil, and_true] at hb
      rw [hpp, hexact h0 x i j y hb.1 hb.2.1 hb.2.2.1 hb.2.2.2]
    refine ⟨hex, fun P' hP' hs' hd0' hd2'' hprod' => ?_⟩
    refine same_state hP' hwQ p hp2 (fun j h1 h2 => by rw [hother j h1 h2, hs' j h1 h2]) ?_ ?_
    · intro x i j y hx hi hj hy
      rw [hg1] at hi
      rw [hg2] at hj
      rw [hd0'] at hx
      rw [hd2''] at hy
      have hb : InB Pij.dims [x, i, j, y] := by rw [hdims]; simp [hx, hi, hj, hy]
      rw [hex x i j y hb, hprod' x i j y hb]
    · rw [hQX, hQY, dim0_of d1, dim2_of d2', hd0', hd2'']
      exact ⟨rfl, rfl⟩

/-- **C17**, without re-canonicalisation (`canonicalize_both = false`).  The pair of tensors at `(p, p+1)` is replaced by
one whose product is `Pij` up to the singular values dropped: the squared distance is the weight lost, and if it
vanishes the state is exactly the one with the pair replaced by `Pij`.  No other tensor changes, the new bond is at
most `Dmax` (if positive), and the site left behind in the direction `sense` is an isometry. -/
theorem C17_store {svd : Tensor K → SvdRes K} (hg : GoodSvd svd) (eps : ℝ) {dflt : ℝ} (hd0 : 0 ≤ dflt)
    {ds : List Nat} {P : List (Tensor K)} {a b : Nat} (hw : WF a P ds b) (Pij : Tensor K) (k sense : Int) (p : Nat)
    (hp : firstSite k sense = p) (hp2 : p + 1 < ds.length)
    (hdims : Pij.dims = [(site P p).dim 0, ds.getD p 0, ds.getD (p + 1) 0, (site P (p + 1)).dim 2])
    (Dmax : Int) (tol : ℝ)
    (hok : 0 < tol ∨ (tol < 0 ∧ 0 < dflt) ∨ ∃ idx, InB Pij.dims idx ∧ Pij.get idx ≠ 0) :
    ∃ Q lost, setCanonical2 svd eps dflt P Pij k sense Dmax tol false = some (Q, lost, 0) ∧ WF a Q ds b ∧
      (∀ j, j ≠ p → j ≠ p + 1 → site Q j = site P j) ∧
      (0 < Dmax → ((site Q p).dim 2 : Int) ≤ Dmax) ∧
      (if sense > 0 then LeftIso (site Q p) else RightIso (site Q (p + 1))) ∧
      (∑ x ∈ Finset.range ((site P p).dim 0), ∑ i ∈ Finset.range (ds.getD p 0), ∑ j ∈ Finset.range (ds.getD (p + 1) 0),
        ∑ y ∈ Finset.range ((site P (p + 1)).dim 2), ‖Pij.get [x, i, j, y] - pairProduct Q p x i j y‖ ^ 2 = lost) ∧
      (lost = 0 → (∀ x i j y, InB Pij.dims [x, i, j, y] → pairProduct Q p x i j y = Pij.get [x, i, j, y]) ∧
        ∀ P', WF a P' ds b → (∀ j, j ≠ p → j ≠ p + 1 → site P' j = site P j) → (site P' p).dim 0 = (site P p).dim 0 →
          (site P' (p + 1)).dim 2 = (site P (p + 1)).dim 2 →
          (∀ x i j y, InB Pij.dims [x, i, j, y] → pairProduct P' p x i j y = Pij.get [x, i, j, y]) →
          ∀ s, IsCfg ds s → ∀ x < a, ∀ y, path Q s x y = path P' s x y) := by
  obtain ⟨Q, lost, h1, h2, h3, h4, h5, h6, h7, -⟩ := pair_store hg eps hd0 hw Pij k sense p hp hp2 hdims Dmax tol hok
  exact ⟨Q, lost, h1, h2, h3, h4, h5, h6, h7⟩


theorem set_site_self {R : Type} [CommRing R] (Q : List (Tensor R)) (k : Nat) (h : k < Q.length) : Q.set k (site Q k) = Q := by
  apply List.ext_getElem (by simp)
  intro j h1 h2
  by_cases hj : k = j
  · subst hj; simp [site, List.getElem?_eq_getElem h]
  · rw [List.getElem_set_ne hj]

/-- with `canonicalize_both` the function stores the pair as before, then calls `set_canonical` on the second tensor of
the pair (in the direction of motion) -/
theorem both_eq (svd : Tensor K → SvdRes K) (eps dflt : ℝ) (P : List (Tensor K)) (Pij : Tensor K) (k sense Dmax : Int)
    (tol : ℝ) {Q : List (Tensor K)} {lost z : ℝ}
    (h : setCanonical2 svd eps dflt P Pij k sense Dmax tol false = some (Q, lost, z)) :
    setCanonical2 svd eps dflt P Pij k sense Dmax tol true =
      let j := if sense > 0 then k.toNat + 1 else k.toNat - 1
      let r := setCanonical svd eps dflt Q j (site Q j) sense true
      some (r.1, lost, r.2) := by
  unfold setCanonical2 at *
  by_cases hs : sense > 0
  · simp only [if_pos hs, if_true] at *
    split at h
    · next hk =>
      simp only [Bool.false_eq_true, if_false, Option.some.injEq, Prod.mk.injEq] at h
      obtain ⟨rfl, rfl, rfl⟩ := h
      rw [if_pos hk, setCanonical_set _ _ _ _ _ (by simp; omega)]
    · cases h
  · simp only [if_neg hs, if_true] at *
    split at h
    · next hk =>
      simp only [Bool.false_eq_true, if_false, Option.some.injEq, Prod.mk.injEq] at h
      obtain ⟨rfl, rfl, rfl⟩ := h
      rw [if_pos hk, setCanonical_set _ _ _ _ _ (by simp; omega)]
    · cases h

/-- **C17**, with re-canonicalisation (`canonicalize_both = true`, the default), relative to `C17_store`, which says
what `Q` is.  The state becomes `R`, the same as `Q` if no further weight is lost; besides the pair only the next
tensor in the direction of motion changes; the pair left behind consists of isometries, the second one whenever there is
a further site; at the end of the chain nothing more happens. -/
theorem C17_both {svd : Tensor K → SvdRes K} (hg : GoodSvd svd) (eps : ℝ) {dflt : ℝ} (hd0 : 0 ≤ dflt)
    {ds : List Nat} {P : List (Tensor K)} {a b : Nat} (Pij : Tensor K) (k sense : Int) (p : Nat)
    (hp : firstSite k sense = p) (hp2 : p + 1 < ds.length) (Dmax : Int) (tol : ℝ) {Q : List (Tensor K)} {lost : ℝ}
    (hQ : setCanonical2 svd eps dflt P Pij k sense Dmax tol false = some (Q, lost, 0)) (hwQ : WF a Q ds b)
    (hok : 0 < dflt ∨ ∃ s, IsCfg ds s ∧ ∃ u < a, ∃ v, path Q s u v ≠ 0) :
    ∃ R lost2, setCanonical2 svd eps dflt P Pij k sense Dmax tol true = some (R, lost, lost2) ∧ WF a R ds b ∧
      0 ≤ lost2 ∧ (dflt = 0 ∨ 1 ≤ dflt → lost2 = 0) ∧
      (lost2 = 0 → ∀ s, IsCfg ds s → ∀ x < a, ∀ y, path R s x y = path Q s x y) ∧
      (if sense > 0 then
        (∀ j, j ≠ p + 1 → j ≠ p + 2 → site R j = site Q j) ∧ (p + 2 < ds.length → LeftIso (site R (p + 1))) ∧
        (p + 2 = ds.length → R = Q)
      else
        (∀ j, j ≠ p → j + 1 ≠ p → site R j = site Q j) ∧ (0 < p → RightIso (site R p)) ∧ (p = 0 → R = Q)) := by
  have hlen := hwQ.length
  rw [both_eq svd eps dflt P Pij k sense Dmax tol hQ]
  unfold firstSite at hp
  have hok' : 0 < effTol dflt (splitTol true) ∨ ∃ s, IsCfg ds s ∧ ∃ u < a, ∃ v, path Q s u v ≠ 0 := by
    rw [effTol_default]; exact hok
  by_cases hs : sense > 0
  · simp only [if_pos hs] at *
    have hk : k.toNat = p := by omega
    rw [hk]
    by_cases hlast : p + 2 = ds.length
    · have hr : setCanonical svd eps dflt Q (p + 1) (site Q (p + 1)) sense true = (Q, 0) := by
        unfold setCanonical
        rw [if_pos hs, if_pos (by omega), set_site_self _ _ (by omega)]
      rw [hr]
      exact ⟨Q, 0, rfl, hwQ, le_refl _, fun _ => rfl, fun _ _ _ _ _ _ => rfl, fun _ _ _ => rfl, fun h => by omega, fun _ => rfl⟩
    · have hr : setCanonical svd eps dflt Q (p + 1) (site Q (p + 1)) sense true
          = setCanonical svd eps dflt Q (p + 1) (site Q (p + 1)) 1 true := by
        unfold setCanonical
        rw [if_pos hs, if_pos (show (1 : Int) > 0 by omega)]
      rw [hr]
      obtain ⟨h1, h2, h3, h4, h5, h6⟩ := setCanonical_right hg eps hd0 hwQ (p + 1) (by omega) true hok'
      refine ⟨_, _, rfl, h1, h4, fun h => h6 (by rw [effTol_default]; exact h), h5, fun j e1 e2 => h3 j e1 e2, fun _ => h2, fun h => by omega⟩
  · simp only [if_neg hs] at *
    have hk : k.toNat - 1 = p := by omega
    rw [hk]
    by_cases h0 : p = 0
    · have hr : setCanonical svd eps dflt Q p (site Q p) sense true = (Q, 0) := by
        unfold setCanonical
        rw [if_neg hs, if_pos h0, set_site_self _ _ (by omega)]
      rw [hr]
      exact ⟨Q, 0, rfl, hwQ, le_refl _, fun _ => rfl, fun _ _ _ _ _ _ => rfl, fun _ _ _ => rfl, fun h => by omega, fun _ => rfl⟩
    · obtain ⟨q, rfl⟩ : ∃ q, p = q + 1 := ⟨p - 1, by omega⟩
      obtain ⟨h1, h2, h3, h4, h5, h6⟩ := setCanonical_left hg eps hd0 hwQ q (by omega) true sense (by omega) hok'
      refine ⟨_, _, rfl, h1, h4, fun h => h6 (by rw [effTol_default]; exact h), h5, fun j e1 e2 => h3 j (by omega) e1, fun _ => h2, fun h => by omega⟩

/-- a non-trivial case of the hypotheses of C17: three sites, pair `(1, 2)` addressed as `k = 2` moving left -/
example : ∃ P : List (Tensor ℝ), ∃ Pij : Tensor ℝ, WF 1 P [2, 2, 2] 1 ∧ firstSite 2 (-1) = (1 : Nat) ∧
    Pij.dims = [(site P 1).dim 0, [2, 2, 2].getD 1 0, [2, 2, 2].getD (1 + 1) 0, (site P (1 + 1)).dim 2] ∧
    (∃ idx, InB Pij.dims idx ∧ Pij.get idx ≠ 0) := by
  refine ⟨[⟨[1, 2, 2], fun _ => 1⟩, ⟨[2, 2, 3], fun _ => 1⟩, ⟨[3, 2, 1], fun _ => 1⟩], ⟨[2, 2, 2, 1], fun _ => 1⟩,
    WF.cons rfl (by omega) (by omega) (by omega) (WF.cons rfl (by omega) (by omega) (by omega)
      (WF.single rfl (by omega) (by omega) (by omega))), rfl, rfl, [0, 0, 0, 0], by simp, by simp⟩

end MPS.Props
