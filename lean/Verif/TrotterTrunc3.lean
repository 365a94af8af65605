import Verif.TrotterTrunc2
import Verif.TrotterOrder7
import Verif.TrotterLemmas3

/-! # Gates with truncation on a state in canonical form -/

set_option linter.unusedSectionVars false
set_option linter.unusedSimpArgs false

namespace MPS.Trotter
open MPS Tensor Minim Order

theorem sqrt_step {d d' N E m e : ℝ} (hN : 0 ≤ N) (hE : 0 ≤ E) (hm : 0 ≤ m) (he : 0 ≤ e) (h : d ≤ Real.sqrt (N * E)) (h' : d' ≤ Real.sqrt (m * e)) :
    d + d' ≤ Real.sqrt ((N + m) * (E + e)) := by
  refine (add_le_add h h').trans (Real.le_sqrt_of_sq_le ?_)
  have a2 := Real.sq_sqrt (mul_nonneg hN hE)
  have b2 := Real.sq_sqrt (mul_nonneg hm he)
  set a := Real.sqrt (N * E)
  set b := Real.sqrt (m * e)
  have h1 : 2 * (a * b) ≤ N * e + m * E := by
    refine abs_le_of_sq_le_sq' ?_ (by positivity) |>.2
    have : (2 * (a * b)) ^ 2 = 4 * (N * E) * (m * e) := by rw [← a2, ← b2]; ring
    rw [this]
    nlinarith [sq_nonneg (N * e - m * E)]
  nlinarith

theorem sumSq_of_inner {ds : List Nat} {φ χ : List Nat → ℂ} (h : MPS.inner ds φ φ = MPS.inner ds χ χ) :
    sumCfg ds (fun s => ‖φ s‖ ^ 2) = sumCfg ds fun s => ‖χ s‖ ^ 2 := by
  rw [inner_self_ofReal, inner_self_ofReal] at h
  exact Complex.ofReal_injective h

theorem wdist_tri (ds : List Nat) (φ χ ψ : List Nat → ℂ) : wdist ds φ ψ ≤ wdist ds φ χ + wdist ds χ ψ := by
  have := wnorm_add_le ds (fun s => φ s - χ s) (fun s => χ s - ψ s)
  simpa [wdist] using this

theorem distSq_wdist (ds : List Nat) (φ ψ : List (Tensor ℂ)) : wdist ds (amp φ) (amp ψ) = Real.sqrt (distSq ds φ ψ) := rfl

theorem wdist_symm (ds : List Nat) (φ ψ : List Nat → ℂ) : wdist ds φ ψ = wdist ds ψ φ := by
  unfold wdist wnorm
  congr 1
  exact sumCfg_congr fun s _ => by rw [norm_sub_rev]

theorem actSite_sub {d k : Nat} (U : Tensor ℂ) (φ χ : List Nat → ℂ) (s : List Nat) :
    actSite d U k (fun s => φ s - χ s) s = actSite d U k φ s - actSite d U k χ s := by
  unfold actSite
  simp only [mul_sub, Finset.sum_sub_distrib]

theorem actPair_sub {d e k : Nat} (U : Tensor ℂ) (φ χ : List Nat → ℂ) (s : List Nat) :
    actPair d e U k (fun s => φ s - χ s) s = actPair d e U k φ s - actPair d e U k χ s := by
  unfold actPair
  simp only [mul_sub, Finset.sum_sub_distrib]

theorem actSite_dist {ds : List Nat} {k : Nat} (hk : k < ds.length) {U : Tensor ℂ} (hU : IsUnitary (ds.getD k 0) U) (φ χ : List Nat → ℂ) :
    wdist ds (actSite (ds.getD k 0) U k φ) (actSite (ds.getD k 0) U k χ) = wdist ds φ χ := by
  have := wnorm_of_inner (inner_actSite hk hU fun s => φ s - χ s)
  rw [wdist, wdist, ← this]
  congr 1
  funext s
  exact (actSite_sub U φ χ s).symm

theorem actPair_dist {ds : List Nat} {k : Nat} (hk : k + 1 < ds.length) {U : Tensor ℂ} (hU : IsUnitary (ds.getD k 0 * ds.getD (k + 1) 0) U)
    (φ χ : List Nat → ℂ) :
    wdist ds (actPair (ds.getD k 0) (ds.getD (k + 1) 0) U k φ) (actPair (ds.getD k 0) (ds.getD (k + 1) 0) U k χ) = wdist ds φ χ := by
  have := wnorm_of_inner (inner_actPair hk hU fun s => φ s - χ s)
  rw [wdist, wdist, ← this]
  congr 1
  funext s
  exact (actPair_sub U φ χ s).symm

/-- total weight dropped -/
def Evo.tot (x : Evo) : ℝ := x.err + x.hidden

/-- a one-site gate with truncation -/
theorem gate1 {svd : Tensor ℂ → SvdRes ℂ} (hg : GoodSvd svd) (eps : ℝ) {dflt : ℝ} (hd0 : 0 < dflt) (x : Evo) {ds : List Nat} {k : Nat}
    (h : Cent ds x.P k) (hk : k < ds.length) {U : Tensor ℂ} (hUd : U.dims = [ds.getD k 0, ds.getD k 0]) (hU : IsUnitary (ds.getD k 0) U)
    (dk : Int) {D : Nat} (hD : D ≠ 0) :
    let y := applyOne svd eps dflt x U k dk D
    Cent ds y.P (nextCentre ds.length dk k) ∧ y.err = x.err ∧ x.hidden ≤ y.hidden ∧ normSq ds y.P = normSq ds x.P - (y.tot - x.tot) ∧
      wdist ds (amp y.P) (actSite (ds.getD k 0) U k (amp x.P)) ≤ Real.sqrt (1 * (y.tot - x.tot)) ∧
      y.hidden ≤ x.hidden + max dflt eps * normSq ds x.P := by
  intro y
  have hlen := h.wf.length
  have hdk : 0 < ds.getD k 0 := by
    obtain ⟨a', d, b', -, -, h2, -, h4, -⟩ := path_zero h.wf k (by omega)
    rw [h4]; exact h2
  have hUne : U.isEmpty = false := by
    simp [Tensor.isEmpty, Tensor.size, hUd]; simpa using hdk.ne'
  set Q := x.P.set k (foldin U (-1) (site x.P k) 1) with hQ
  have hw : WF 1 Q ds 1 := h.wf.set_act hUd
  have hact : ∀ s, IsCfg ds s → amp Q s = actSite (ds.getD k 0) U k (amp x.P) s := by
    intro s hs
    have hne : Q ≠ [] := by intro h0; have := hw.length; rw [h0] at this; simp at this; omega
    have hne' : x.P ≠ [] := by intro h0; rw [h0] at hlen; simp at hlen; omega
    rw [amp_of_WF hw hne, Finset.sum_range_one, path_set_act h.wf (by omega) hUd hs.length]
    unfold actSite
    refine Finset.sum_congr rfl fun i _ => ?_
    rw [amp_of_WF h.wf hne', Finset.sum_range_one]
  have hc : Cent ds Q k := ⟨hw,
    fun j hj => by rw [hQ, site_set _ _ _ _ (by omega), if_neg (by omega)]; exact h.lo j hj,
    fun j hj hj2 => by rw [hQ, site_set _ _ _ _ (by omega), if_neg (by omega)]; exact h.hi j hj hj2⟩
  have hn : normSq ds Q = normSq ds x.P := by
    unfold normSq
    rw [sumCfg_congr fun s hs => by rw [hact s hs]]
    exact sumSq_of_inner (inner_actSite hk hU _)
  obtain ⟨s1, s2, s3, s4, s5⟩ := store hg eps hd0 hc hk dk
  have hy : y = ⟨(setCanonical svd eps dflt Q k (site Q k) dk true).1, x.err, x.hidden + (setCanonical svd eps dflt Q k (site Q k) dk true).2⟩ := by
    simp only [y, applyOne, hUne, Bool.false_eq_true, if_false, ne_eq, hD, not_false_eq_true, if_true]
    rw [hQ, Form.site_set_self (by omega), ← setCanonical_set _ _ _ _ _ (by omega), Form.site_set_self (by omega)]
  have ht : y.tot - x.tot = (setCanonical svd eps dflt Q k (site Q k) dk true).2 := by
    rw [hy]; simp only [Evo.tot]; ring
  rw [ht, hy]
  refine ⟨s1, rfl, ?_, ?_, ?_, ?_⟩
  · simp only; linarith
  · simp only; rw [s3, hn]
  · simp only
    rw [one_mul, ← s2, wdist_congr (φ' := amp (setCanonical svd eps dflt Q k (site Q k) dk true).1) (fun _ _ => rfl) (fun s hs => (hact s hs).symm),
      wdist_symm, distSq_wdist]
  · simp only; rw [← hn]; linarith

/-- norm of a wave function with a two-site part given by the gate -/
theorem pair_norms {c e f d d2 g : Nat} {pre post : List (Tensor ℂ)} {X Y B1 B2 : Tensor ℂ}
    {ds1 ds3 : List Nat} (op : Tensor ℂ)
    (w1 : WF 1 pre ds1 c) (hX : X.dims = [c, d, e]) (hY : Y.dims = [e, d2, f]) (hB1 : B1.dims = [c, d, g])
    (hB2 : B2.dims = [g, d2, f]) (hpos : 0 < c ∧ 0 < d ∧ 0 < e ∧ 0 < d2 ∧ 0 < f ∧ 0 < g) (w4 : WF f post ds3 1)
    (hpre : ∀ A ∈ pre, LeftIso A) (hpost : ∀ A ∈ post, RightIso A) :
    sumCfg (ds1 ++ d :: d2 :: ds3) (fun s => ‖actPair d d2 op pre.length (amp (pre ++ X :: Y :: post)) s‖ ^ 2)
      = ∑ x ∈ Finset.range c, ∑ i ∈ Finset.range d, ∑ j ∈ Finset.range d2, ∑ y ∈ Finset.range f,
        ‖∑ i' ∈ Finset.range d, ∑ j' ∈ Finset.range d2, op.get [i + d * j, i' + d * j'] *
            ∑ z ∈ Finset.range e, X.get [x, i', z] * Y.get [z, j', y]‖ ^ 2 ∧
    sumCfg (ds1 ++ d :: d2 :: ds3) (fun s => ‖amp (pre ++ B1 :: B2 :: post) s‖ ^ 2)
      = ∑ x ∈ Finset.range c, ∑ i ∈ Finset.range d, ∑ j ∈ Finset.range d2, ∑ y ∈ Finset.range f,
        ‖∑ m ∈ Finset.range g, B1.get [x, i, m] * B2.get [m, j, y]‖ ^ 2 := by
  constructor
  · have hp := pair_distance (B1 := ⟨[c, d, g], fun _ => 0⟩) (B2 := ⟨[g, d2, f], fun _ => 0⟩) op w1 hX hY rfl rfl hpos w4 hpre hpost
    simp only [zero_mul, Finset.sum_const_zero, sub_zero] at hp
    rw [← hp]
    refine sumCfg_congr fun s hs => ?_
    obtain ⟨p1, p2, p3, p4, p5, p6⟩ := hpos
    have wB : WF 1 (pre ++ (⟨[c, d, g], fun _ => 0⟩ : Tensor ℂ) :: (⟨[g, d2, f], fun _ => 0⟩ : Tensor ℂ) :: post) (ds1 ++ d :: d2 :: ds3) 1 :=
      w1.append (WF.cons rfl p1 p2 p6 (WF.cons rfl p6 p4 p5 w4))
    have hz : amp (pre ++ (⟨[c, d, g], fun _ => 0⟩ : Tensor ℂ) :: (⟨[g, d2, f], fun _ => 0⟩ : Tensor ℂ) :: post) s = 0 := by
      obtain ⟨s1, s', rfl, hs1, hs'⟩ := isCfg_split hs
      cases hs' with
      | cons hi hs2 =>
      cases hs2 with
      | cons hj hs3 =>
      rw [amp_of_WF wB (by simp), Finset.sum_range_one, path_pair_expand w1 rfl rfl ⟨p1, p2, p6, p4, p5⟩ w4 hs1 _ _ (by omega)]
      simp
    rw [hz, sub_zero]
  · have hp := pair_distance (⟨[], fun _ => 0⟩ : Tensor ℂ) w1 hX hY hB1 hB2 hpos w4 hpre hpost
    simp only [zero_mul, Finset.sum_const_zero, zero_sub, norm_neg, actPair] at hp
    exact hp

set_option maxHeartbeats 1600000 in
/-- a two-site gate with truncation -/
theorem gate2 {svd : Tensor ℂ → SvdRes ℂ} (hg : GoodSvd svd) (eps : ℝ) {dflt : ℝ} (hd0 : 0 < dflt) (x : Evo) {ds : List Nat} {k : Nat}
    (hw : WF 1 x.P ds 1) (hl : ∀ j < k, LeftIso (site x.P j)) (hr : ∀ j, k + 1 < j → j < ds.length → RightIso (site x.P j))
    (hk : k + 1 < ds.length) {U : Tensor ℂ}
    (hUd : U.dims = [ds.getD k 0 * ds.getD (k + 1) 0, ds.getD k 0 * ds.getD (k + 1) 0]) (hU : IsUnitary (ds.getD k 0 * ds.getD (k + 1) 0) U)
    (dk : Int) (tol : ℝ) (htol : 0 < effTol dflt tol) {D : Nat} (hD : D ≠ 0) :
    let y := applyTwo svd eps dflt x U k dk tol D
    Cent ds y.P (nextCentre ds.length dk (if dk > 0 then k + 1 else k)) ∧ x.err ≤ y.err ∧ x.hidden ≤ y.hidden ∧
      normSq ds y.P = normSq ds x.P - (y.tot - x.tot) ∧
      wdist ds (amp y.P) (actPair (ds.getD k 0) (ds.getD (k + 1) 0) U k (amp x.P)) ≤ Real.sqrt (2 * (y.tot - x.tot)) ∧
      y.hidden ≤ x.hidden + max dflt eps * normSq ds x.P := by
  intro y
  have hlen := hw.length
  have hw0 := hw
  have hiso := inner_actPair hk hU (amp x.P)
  obtain ⟨pre, X, Y, post, hP, hlp⟩ := split_at2 x.P k (by omega)
  rw [hP] at hw
  obtain ⟨ds1, ds', c, rfl, w1, w2⟩ := hw.split
  cases w2 with
  | @cons c d e b A As ds'' hXd hc hd he w3 =>
  cases w3 with
  | @cons e d2 f b A As ds3 hYd _ hd2 hf w4 =>
  have hg1 : (ds1 ++ d :: d2 :: ds3).getD k 0 = d := by rw [← hlp, w1.length]; simp
  have hg2 : (ds1 ++ d :: d2 :: ds3).getD (k + 1) 0 = d2 := by rw [← hlp, w1.length]; simp
  rw [hg1, hg2] at hUd hiso ⊢
  obtain ⟨B1, B2, g, err, hB1, hB2, hg0, -, hI, herr, hkept, -, happ⟩ := applyTwo_core hg eps hd0 x hP w1 hXd hYd ⟨hc, hd, he, hd2, hf⟩ w4 U hUd dk tol
    htol D
  rw [hlp] at happ
  have hpl : pre.length + (post.length + 2) = (ds1 ++ d :: d2 :: ds3).length := by rw [← hlen, hP]; simp
  have hpre : ∀ A ∈ pre, LeftIso A := by
    intro A hA
    obtain ⟨j, hj, rfl⟩ := List.getElem_of_mem hA
    have := hl j (by omega)
    rwa [hP, show site (pre ++ X :: Y :: post) j = pre[j] by simp [site, List.getD_eq_getElem?_getD, List.getElem?_append, hj]] at this
  have hpost : ∀ A ∈ post, RightIso A := by
    intro A hA
    obtain ⟨j, hj, rfl⟩ := List.getElem_of_mem hA
    have := hr (k + 2 + j) (by omega) (by omega)
    rwa [hP, show site (pre ++ X :: Y :: post) (k + 2 + j) = post[j] by
      rw [← hlp]
      simp only [site, List.getD_eq_getElem?_getD]
      rw [List.getElem?_append_right (by omega), show pre.length + 2 + j - pre.length = j + 1 + 1 by omega, List.getElem?_cons_succ,
        List.getElem?_cons_succ]
      simp [hj]] at this
  set Q := pre ++ B1 :: B2 :: post with hQdef
  have hQ : WF 1 Q (ds1 ++ d :: d2 :: ds3) 1 := w1.append (WF.cons hB1 hc hd hg0 (WF.cons hB2 hg0 hd2 hf w4))
  have herr0 : 0 ≤ err := by rw [← herr]; positivity
  obtain ⟨n1, n2⟩ := pair_norms U w1 hXd hYd hB1 hB2 ⟨hc, hd, he, hd2, hf, hg0⟩ w4 hpre hpost
  have n3 := pair_distance U w1 hXd hYd hB1 hB2 ⟨hc, hd, he, hd2, hf, hg0⟩ w4 hpre hpost
  rw [hlp, ← hP] at n1 n3
  rw [herr] at n3
  rw [← n1, ← n2, ← hQdef] at hkept
  have hn : normSq (ds1 ++ d :: d2 :: ds3) Q = normSq (ds1 ++ d :: d2 :: ds3) x.P - err := by
    unfold normSq
    rw [hkept, sumSq_of_inner hiso]
  have siteQ : ∀ j, j ≠ k → j ≠ k + 1 → site Q j = site x.P j := by
    intro j h1 h2
    rw [hP, hQdef, ← hlp] at *
    simp only [site, List.getD_eq_getElem?_getD]
    by_cases hj : j < pre.length
    · rw [List.getElem?_append_left hj, List.getElem?_append_left hj]
    · obtain ⟨m, rfl⟩ : ∃ m, j = pre.length + (m + 2) := ⟨j - pre.length - 2, by omega⟩
      rw [List.getElem?_append_right (by omega), List.getElem?_append_right (by omega)]
      simp
  have sB1 : site Q k = B1 := by rw [hQdef, ← hlp]; simp [site]
  have sB2 : site Q (k + 1) = B2 := by rw [hQdef, ← hlp]; simp [site]
  have hcent : Cent (ds1 ++ d :: d2 :: ds3) Q (if dk > 0 then k + 1 else k) := by
    by_cases hdk : dk > 0
    · simp only [if_pos hdk] at hI ⊢
      refine ⟨hQ, fun j hj => ?_, fun j hj hj2 => ?_⟩
      · by_cases hjk : j = k
        · rw [hjk, sB1]; exact hI
        · rw [siteQ j hjk (by omega)]; exact hl j (by omega)
      · rw [siteQ j (by omega) (by omega)]; exact hr j hj hj2
    · simp only [if_neg hdk] at hI ⊢
      refine ⟨hQ, fun j hj => ?_, fun j hj hj2 => ?_⟩
      · rw [siteQ j (by omega) (by omega)]; exact hl j hj
      · by_cases hjk : j = k + 1
        · rw [hjk, sB2]; exact hI
        · rw [siteQ j (by omega) hjk]; exact hr j (by omega) hj2
  set k' := (if dk > 0 then k + 1 else k) with hk'
  have hk'l : k' < (ds1 ++ d :: d2 :: ds3).length := by rw [hk']; split <;> omega
  obtain ⟨s1, s2, s3, s4, s5⟩ := store hg eps hd0 hcent hk'l dk
  have hy : y = ⟨(setCanonical svd eps dflt Q k' (site Q k') dk true).1, x.err + err, x.hidden + (setCanonical svd eps dflt Q k' (site Q k') dk true).2⟩ := by
    simp only [y, happ, ne_eq, hD, not_false_eq_true, if_true]
  have ht : y.tot - x.tot = err + (setCanonical svd eps dflt Q k' (site Q k') dk true).2 := by
    rw [hy]; simp only [Evo.tot]; ring
  rw [ht, hy]
  refine ⟨s1, ?_, ?_, ?_, ?_, ?_⟩
  · simp only; linarith
  · simp only; linarith
  · simp only; rw [s3, hn]; ring
  · simp only
    refine (wdist_tri _ _ (amp Q) _).trans ?_
    rw [add_comm]
    rw [show (2 : ℝ) = 1 + 1 by norm_num]
    refine sqrt_step zero_le_one herr0 zero_le_one s4 ?_ ?_
    · rw [one_mul, ← n3, wdist_symm]; rfl
    · rw [one_mul, wdist_symm, distSq_wdist, s2]
  · simp only
    have : 0 ≤ max dflt eps := hd0.le.trans (le_max_left _ _)
    have := mul_le_mul_of_nonneg_left (show normSq (ds1 ++ d :: d2 :: ds3) Q ≤ normSq (ds1 ++ d :: d2 :: ds3) x.P by linarith) this
    linarith

end MPS.Trotter
