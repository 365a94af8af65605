import Verif.TrotterTrunc5
import Verif.LayerErr10
import Verif.SvdSorted
import Verif.Props.HamProps5

/-! # Gates which need not be unitary, with truncation -/

set_option linter.unusedSectionVars false
set_option linter.unusedSimpArgs false

namespace MPS.Trotter
open MPS Tensor Minim Order Props

/-- a truncation which keeps one singular value or more does not drop everything -/
theorem lost_lt {svd : Tensor ℂ → SvdRes ℂ} (hsort : SortedSvd svd) {A : Tensor ℂ} {g : Nat} (hg : 0 < g) (h : discarded (svd A).s 0 ≠ 0) :
    cumulated (svd A).s g < discarded (svd A).s 0 := by
  rw [cumulated_eq]
  set s := (svd A).s with hs
  have hnn := discarded_nonneg s 0
  have hpos : 0 < discarded s 0 := lt_of_le_of_ne hnn (Ne.symm h)
  by_contra hc
  have hc := not_lt.1 hc
  have h0 : s.getD 0 0 = 0 := by
    by_cases hl : g ≤ s.length
    · have e := discarded_split s hl
      have : ∑ k ∈ Finset.range g, s.getD k 0 ^ 2 ≤ 0 := by linarith
      have z := (Finset.sum_eq_zero_iff_of_nonneg (fun k _ => sq_nonneg (s.getD k 0))).1 (le_antisymm this (Finset.sum_nonneg fun k _ => sq_nonneg _))
        0 (Finset.mem_range.2 hg)
      exact pow_eq_zero_iff (two_ne_zero) |>.1 z
    · have : discarded s g = 0 := by
        unfold discarded; rw [Finset.Ico_eq_empty (by omega)]; simp
      linarith
  refine h ?_
  unfold discarded
  refine Finset.sum_eq_zero fun k hk => ?_
  have hk := (Finset.mem_Ico.1 hk).2
  have a := (hsort A).2 0 k (Nat.zero_le _)
  rw [← hs, h0] at a
  have b : 0 ≤ s.getD k 0 := by
    rw [List.getD_eq_getElem _ _ hk]
    exact (hsort A).1 _ (List.getElem_mem hk)
  rw [le_antisymm a b]; simp

theorem total_pair {A : Tensor ℂ} {c d d2 f : Nat} {F : Nat → Nat → Nat → Nat → ℂ}
    (h : ∀ x i j y, x < c → i < d → j < d2 → y < f → A.get [x + c * i, j + d2 * y] = F x i j y) :
    ∑ x ∈ Finset.range c, ∑ i ∈ Finset.range d, ∑ j ∈ Finset.range d2, ∑ y ∈ Finset.range f, ‖F x i j y‖ ^ 2
      = ∑ p ∈ Finset.range (c * d), ∑ q ∈ Finset.range (d2 * f), ‖A.get [p, q]‖ ^ 2 := by
  rw [sum_range_mul, Finset.sum_comm]
  refine Finset.sum_congr rfl fun i hi => Finset.sum_congr rfl fun x hx => ?_
  rw [sum_range_mul, Finset.sum_comm]
  refine Finset.sum_congr rfl fun y hy => Finset.sum_congr rfl fun j hj => ?_
  rw [h x i j y (Finset.mem_range.1 hx) (Finset.mem_range.1 hi) (Finset.mem_range.1 hj) (Finset.mem_range.1 hy)]

/-- a one-site gate with truncation -/
theorem gate1_any {svd : Tensor ℂ → SvdRes ℂ} (hg : GoodSvd svd) (eps : ℝ) {dflt : ℝ} (hd0 : 0 < dflt) (x : Evo) {ds : List Nat} {k : Nat}
    (h : Cent ds x.P k) (hk : k < ds.length) {U : Tensor ℂ} (hUd : U.dims = [ds.getD k 0, ds.getD k 0])
    (dk : Int) {D : Nat} (hD : D ≠ 0) :
    let y := applyOne svd eps dflt x U k dk D
    Cent ds y.P (nextCentre ds.length dk k) ∧ y.err = x.err ∧ x.hidden ≤ y.hidden ∧ normSq ds y.P = sumCfg ds (fun s => ‖actSite (ds.getD k 0) U k (amp x.P) s‖ ^ 2) - (y.tot - x.tot) ∧
      wdist ds (amp y.P) (actSite (ds.getD k 0) U k (amp x.P)) ≤ Real.sqrt (1 * (y.tot - x.tot)) ∧
      y.hidden ≤ x.hidden + max dflt eps * sumCfg ds (fun s => ‖actSite (ds.getD k 0) U k (amp x.P) s‖ ^ 2) ∧
      (max dflt eps < 1 → sumCfg ds (fun s => ‖actSite (ds.getD k 0) U k (amp x.P) s‖ ^ 2) ≠ 0 → normSq ds y.P ≠ 0) := by
  intro y
  have hlen := h.wf.length
  have hdk : 0 < ds.getD k 0 := by
    obtain ⟨a', d, b', -, -, h2, -, h4, -⟩ := path_zero h.wf k (by omega)
    rw [h4]; exact h2
  have hUne : U.isEmpty = false := by
    simp [Tensor.isEmpty, Tensor.size, hUd]; simpa using hdk.ne'
  set Q := x.P.set k (foldin U (-1) (site x.P k) 1) with hQ
  have hw : WF 1 Q ds 1 := h.wf.set_act hUd
  have hact : ∀ s, IsCfg ds s → amp Q s = actSite (ds.getD k 0) U k (amp x.P) s := by
    intro s hs
    have hne : Q ≠ [] := by intro h0; have := hw.length; rw [h0] at this; simp at this; omega
    have hne' : x.P ≠ [] := by intro h0; rw [h0] at hlen; simp at hlen; omega
    rw [amp_of_WF hw hne, Finset.sum_range_one, path_set_act h.wf (by omega) hUd hs.length]
    unfold actSite
    refine Finset.sum_congr rfl fun i _ => ?_
    rw [amp_of_WF h.wf hne', Finset.sum_range_one]
  have hc : Cent ds Q k := ⟨hw,
    fun j hj => by rw [hQ, site_set _ _ _ _ (by omega), if_neg (by omega)]; exact h.lo j hj,
    fun j hj hj2 => by rw [hQ, site_set _ _ _ _ (by omega), if_neg (by omega)]; exact h.hi j hj hj2⟩
  have hn : normSq ds Q = sumCfg ds (fun s => ‖actSite (ds.getD k 0) U k (amp x.P) s‖ ^ 2) := by
    unfold normSq
    rw [sumCfg_congr fun s hs => by rw [hact s hs]]
  obtain ⟨s1, s2, s3, s4, s5⟩ := store hg eps hd0 hc hk dk
  have hy : y = ⟨(setCanonical svd eps dflt Q k (site Q k) dk true).1, x.err, x.hidden + (setCanonical svd eps dflt Q k (site Q k) dk true).2⟩ := by
    simp only [y, applyOne, hUne, Bool.false_eq_true, if_false, ne_eq, hD, not_false_eq_true, if_true]
    rw [hQ, Form.site_set_self (by omega), ← setCanonical_set _ _ _ _ _ (by omega), Form.site_set_self (by omega)]
  have ht : y.tot - x.tot = (setCanonical svd eps dflt Q k (site Q k) dk true).2 := by
    rw [hy]; simp only [Evo.tot]; ring
  rw [ht, hy]
  refine ⟨s1, rfl, ?_, ?_, ?_, ?_, ?_⟩
  · simp only; linarith
  · simp only; rw [s3, hn]
  · simp only
    rw [one_mul, ← s2, wdist_congr (φ' := amp (setCanonical svd eps dflt Q k (site Q k) dk true).1) (fun _ _ => rfl) (fun s hs => (hact s hs).symm),
      wdist_symm, distSq_wdist]
  · simp only; rw [← hn]; linarith
  · intro hm h0
    simp only
    rw [← hn] at h0
    have q0 : 0 ≤ normSq ds Q := sumCfg_nonneg _ _ fun _ _ => by positivity
    have q1 : 0 < normSq ds Q := lt_of_le_of_ne q0 (Ne.symm h0)
    have : max dflt eps * normSq ds Q < 1 * normSq ds Q := mul_lt_mul_of_pos_right hm q1
    rw [s3]
    intro hc
    linarith

set_option maxHeartbeats 1600000 in
/-- a two-site gate with truncation -/
theorem gate2_any {svd : Tensor ℂ → SvdRes ℂ} (hg : GoodSvd svd) (eps : ℝ) {dflt : ℝ} (hd0 : 0 < dflt) (x : Evo) {ds : List Nat} {k : Nat}
    (hw : WF 1 x.P ds 1) (hl : ∀ j < k, LeftIso (site x.P j)) (hr : ∀ j, k + 1 < j → j < ds.length → RightIso (site x.P j))
    (hk : k + 1 < ds.length) {U : Tensor ℂ}
    (hUd : U.dims = [ds.getD k 0 * ds.getD (k + 1) 0, ds.getD k 0 * ds.getD (k + 1) 0])
    (dk : Int) (tol : ℝ) (htol : 0 < effTol dflt tol) {D : Nat} (hD : D ≠ 0) :
    let y := applyTwo svd eps dflt x U k dk tol D
    Cent ds y.P (nextCentre ds.length dk (if dk > 0 then k + 1 else k)) ∧ x.err ≤ y.err ∧ x.hidden ≤ y.hidden ∧
      normSq ds y.P = sumCfg ds (fun s => ‖actPair (ds.getD k 0) (ds.getD (k + 1) 0) U k (amp x.P) s‖ ^ 2) - (y.tot - x.tot) ∧
      wdist ds (amp y.P) (actPair (ds.getD k 0) (ds.getD (k + 1) 0) U k (amp x.P)) ≤ Real.sqrt (2 * (y.tot - x.tot)) ∧
      y.hidden ≤ x.hidden + max dflt eps * sumCfg ds (fun s => ‖actPair (ds.getD k 0) (ds.getD (k + 1) 0) U k (amp x.P) s‖ ^ 2) ∧
      (SortedSvd svd → max dflt eps < 1 → sumCfg ds (fun s => ‖actPair (ds.getD k 0) (ds.getD (k + 1) 0) U k (amp x.P) s‖ ^ 2) ≠ 0 → normSq ds y.P ≠ 0) ∧
      (ds.prod ≤ D → effTol dflt tol ≤ max dflt eps →
        y.err ≤ x.err + max dflt eps * sumCfg ds (fun s => ‖actPair (ds.getD k 0) (ds.getD (k + 1) 0) U k (amp x.P) s‖ ^ 2)) := by
  intro y
  have hlen := hw.length
  have hw0 := hw
  obtain ⟨pre, X, Y, post, hP, hlp⟩ := split_at2 x.P k (by omega)
  rw [hP] at hw
  obtain ⟨ds1, ds', c, rfl, w1, w2⟩ := hw.split
  cases w2 with
  | @cons c d e b A As ds'' hXd hc hd he w3 =>
  cases w3 with
  | @cons e d2 f b A As ds3 hYd _ hd2 hf w4 =>
  have hg1 : (ds1 ++ d :: d2 :: ds3).getD k 0 = d := by rw [← hlp, w1.length]; simp
  have hg2 : (ds1 ++ d :: d2 :: ds3).getD (k + 1) 0 = d2 := by rw [← hlp, w1.length]; simp
  rw [hg1, hg2] at hUd ⊢
  obtain ⟨B1, B2, g, err, hB1, hB2, hg0, -, hI, herr, hkept, -, -, ⟨A, hAd, hAget, hgA, herrA⟩, happ⟩ := applyTwo_full hg eps hd0 x hP w1 hXd hYd ⟨hc, hd, he, hd2, hf⟩ w4 U hUd dk tol
    htol D
  rw [hlp] at happ
  have hpl : pre.length + (post.length + 2) = (ds1 ++ d :: d2 :: ds3).length := by rw [← hlen, hP]; simp
  have hpre : ∀ A ∈ pre, LeftIso A := by
    intro A hA
    obtain ⟨j, hj, rfl⟩ := List.getElem_of_mem hA
    have := hl j (by omega)
    rwa [hP, show site (pre ++ X :: Y :: post) j = pre[j] by simp [site, List.getD_eq_getElem?_getD, List.getElem?_append, hj]] at this
  have hpost : ∀ A ∈ post, RightIso A := by
    intro A hA
    obtain ⟨j, hj, rfl⟩ := List.getElem_of_mem hA
    have := hr (k + 2 + j) (by omega) (by omega)
    rwa [hP, show site (pre ++ X :: Y :: post) (k + 2 + j) = post[j] by
      rw [← hlp]
      simp only [site, List.getD_eq_getElem?_getD]
      rw [List.getElem?_append_right (by omega), show pre.length + 2 + j - pre.length = j + 1 + 1 by omega, List.getElem?_cons_succ,
        List.getElem?_cons_succ]
      simp [hj]] at this
  set Q := pre ++ B1 :: B2 :: post with hQdef
  have hQ : WF 1 Q (ds1 ++ d :: d2 :: ds3) 1 := w1.append (WF.cons hB1 hc hd hg0 (WF.cons hB2 hg0 hd2 hf w4))
  have herr0 : 0 ≤ err := by rw [← herr]; positivity
  obtain ⟨n1, n2⟩ := pair_norms U w1 hXd hYd hB1 hB2 ⟨hc, hd, he, hd2, hf, hg0⟩ w4 hpre hpost
  have n3 := pair_distance U w1 hXd hYd hB1 hB2 ⟨hc, hd, he, hd2, hf, hg0⟩ w4 hpre hpost
  rw [hlp, ← hP] at n1 n3
  rw [herr] at n3
  have htot := n1.trans ((total_pair hAget).trans ((hg A _ _ hAd (Nat.mul_pos hc hd) (Nat.mul_pos hd2 hf)).total))
  rw [← n1, ← n2, ← hQdef] at hkept
  have hn : normSq (ds1 ++ d :: d2 :: ds3) Q = sumCfg (ds1 ++ d :: d2 :: ds3) (fun s => ‖actPair d d2 U k (amp x.P) s‖ ^ 2) - err := by
    unfold normSq
    rw [hkept]
  have siteQ : ∀ j, j ≠ k → j ≠ k + 1 → site Q j = site x.P j := by
    intro j h1 h2
    rw [hP, hQdef, ← hlp] at *
    simp only [site, List.getD_eq_getElem?_getD]
    by_cases hj : j < pre.length
    · rw [List.getElem?_append_left hj, List.getElem?_append_left hj]
    · obtain ⟨m, rfl⟩ : ∃ m, j = pre.length + (m + 2) := ⟨j - pre.length - 2, by omega⟩
      rw [List.getElem?_append_right (by omega), List.getElem?_append_right (by omega)]
      simp
  have sB1 : site Q k = B1 := by rw [hQdef, ← hlp]; simp [site]
  have sB2 : site Q (k + 1) = B2 := by rw [hQdef, ← hlp]; simp [site]
  have hcent : Cent (ds1 ++ d :: d2 :: ds3) Q (if dk > 0 then k + 1 else k) := by
    by_cases hdk : dk > 0
    · simp only [if_pos hdk] at hI ⊢
      refine ⟨hQ, fun j hj => ?_, fun j hj hj2 => ?_⟩
      · by_cases hjk : j = k
        · rw [hjk, sB1]; exact hI
        · rw [siteQ j hjk (by omega)]; exact hl j (by omega)
      · rw [siteQ j (by omega) (by omega)]; exact hr j hj hj2
    · simp only [if_neg hdk] at hI ⊢
      refine ⟨hQ, fun j hj => ?_, fun j hj hj2 => ?_⟩
      · rw [siteQ j (by omega) (by omega)]; exact hl j hj
      · by_cases hjk : j = k + 1
        · rw [hjk, sB2]; exact hI
        · rw [siteQ j (by omega) hjk]; exact hr j (by omega) hj2
  set k' := (if dk > 0 then k + 1 else k) with hk'
  have hk'l : k' < (ds1 ++ d :: d2 :: ds3).length := by rw [hk']; split <;> omega
  obtain ⟨s1, s2, s3, s4, s5⟩ := store hg eps hd0 hcent hk'l dk
  have hy : y = ⟨(setCanonical svd eps dflt Q k' (site Q k') dk true).1, x.err + err, x.hidden + (setCanonical svd eps dflt Q k' (site Q k') dk true).2⟩ := by
    simp only [y, happ, ne_eq, hD, not_false_eq_true, if_true]
  have ht : y.tot - x.tot = err + (setCanonical svd eps dflt Q k' (site Q k') dk true).2 := by
    rw [hy]; simp only [Evo.tot]; ring
  rw [ht, hy]
  refine ⟨s1, ?_, ?_, ?_, ?_, ?_, ?_, ?_⟩
  · simp only; linarith
  · simp only; linarith
  · simp only; rw [s3, hn]; ring
  · simp only
    refine (wdist_tri _ _ (amp Q) _).trans ?_
    rw [add_comm]
    rw [show (2 : ℝ) = 1 + 1 by norm_num]
    refine sqrt_step zero_le_one herr0 zero_le_one s4 ?_ ?_
    · rw [one_mul, ← n3, wdist_symm]; rfl
    · rw [one_mul, wdist_symm, distSq_wdist, s2]
  · simp only
    have : 0 ≤ max dflt eps := hd0.le.trans (le_max_left _ _)
    have := mul_le_mul_of_nonneg_left (show normSq (ds1 ++ d :: d2 :: ds3) Q ≤ sumCfg (ds1 ++ d :: d2 :: ds3) (fun s => ‖actPair d d2 U k (amp x.P) s‖ ^ 2) by linarith) this
    linarith
  · intro hsort hm h0
    simp only
    have hlt := lost_lt hsort hg0 (A := A) (by rw [← htot]; exact h0)
    rw [← herrA, ← htot] at hlt
    have q1 : 0 < normSq (ds1 ++ d :: d2 :: ds3) Q := by rw [hn]; linarith
    have : max dflt eps * normSq (ds1 ++ d :: d2 :: ds3) Q < 1 * normSq (ds1 ++ d :: d2 :: ds3) Q := mul_lt_mul_of_pos_right hm q1
    rw [s3]
    intro hc'
    linarith
  · intro hprod htl
    simp only
    have hlenS : (svd A).s.length ≤ D := by
      rw [(hg A _ _ hAd (Nat.mul_pos hc hd) (Nat.mul_pos hd2 hf)).lenS]
      refine (min_le_right _ _).trans (le_trans ?_ hprod)
      have hf' := iso_prod w4 hpost
      have h1 : 0 < ds1.prod := by
        refine List.prod_pos fun n hn => ?_
        obtain ⟨i, hi, rfl⟩ := List.getElem_of_mem hn
        obtain ⟨a', d', b', -, -, h2, -, h4, -⟩ := path_zero hw0 i (by rw [hlen]; simp only [List.length_append, List.length_cons]; omega)
        have : (ds1 ++ d :: d2 :: ds3).getD i 0 = ds1[i] := by simp [List.getD_eq_getElem?_getD, List.getElem?_append, hi]
        rw [this] at h4
        rw [h4]; exact h2
      rw [List.prod_append, List.prod_cons, List.prod_cons]
      calc d2 * f ≤ d2 * ds3.prod := Nat.mul_le_mul_left _ hf'
        _ ≤ d * (d2 * ds3.prod) := Nat.le_mul_of_pos_left _ hd
        _ ≤ _ := Nat.le_mul_of_pos_left _ h1
    rw [if_pos hD] at hgA
    have hl := wtt_lost eps dflt (svd A).s tol (D : Int) (by exact_mod_cast hlenS) hd0.le htol
    rw [← hgA, ← cumulated_eq, ← herrA, ← htot] at hl
    have h2 : 0 ≤ sumCfg (ds1 ++ d :: d2 :: ds3) fun s => ‖actPair d d2 U k (amp x.P) s‖ ^ 2 := sumCfg_nonneg _ _ fun _ _ => by positivity
    have h3 : max (effTol dflt tol) eps ≤ max dflt eps := max_le htl (le_max_right _ _)
    have := mul_le_mul_of_nonneg_right h3 h2
    linarith

end MPS.Trotter
