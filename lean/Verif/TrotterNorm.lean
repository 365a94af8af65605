import Verif.TrotterTrunc5
import Verif.CanonIdem2

/-! # A sweep of gates with maximal dimension leaves a canonical form, whatever the state and the gates -/

set_option linter.unusedSectionVars false
set_option linter.unusedSimpArgs false

namespace MPS.Trotter
open MPS Tensor MPS.Props Minim Order

/-- the sites which a sweep in the direction `sense` has left behind, being at `c`, are isometries -/
structure Half (ds : List Nat) (sense : Int) (P : List (Tensor ℂ)) (c : Nat) : Prop where
  wf : WF 1 P ds 1
  lo : sense > 0 → ∀ j < c, LeftIso (site P j)
  hi : ¬ sense > 0 → ∀ j, c < j → j < ds.length → RightIso (site P j)

theorem Half.cast {ds : List Nat} {sense : Int} {P : List (Tensor ℂ)} {c c' : Nat} (h : Half ds sense P c) (e : c = c') : Half ds sense P c' := e ▸ h

theorem half_set {svd : Tensor ℂ → SvdRes ℂ} (hg : GoodSvd svd) (eps : ℝ) {dflt : ℝ} (hd0 : 0 < dflt) {ds : List Nat} {sense : Int} {Q : List (Tensor ℂ)}
    {k : Nat} (h : Half ds sense Q k) (hk : k < ds.length) :
    Half ds sense (setCanonical svd eps dflt Q k (site Q k) sense true).1 (nextCentre ds.length sense k) := by
  have hlen := h.wf.length
  have hok : 0 < effTol dflt (splitTol true) := by rw [effTol_default]; exact hd0
  by_cases hs : sense > 0
  · by_cases hl : k + 1 = Q.length
    · have hr : setCanonical svd eps dflt Q k (site Q k) sense true = (Q, 0) := by
        unfold setCanonical
        rw [if_pos hs, if_pos hl, Props.set_site_self _ _ (by omega)]
      rw [hr]
      refine ⟨h.wf, fun _ j hj => h.lo hs j ?_, fun h' => absurd hs h'⟩
      unfold nextCentre at hj; rw [if_pos hs] at hj; split at hj <;> omega
    · have hr : setCanonical svd eps dflt Q k (site Q k) sense true = setCanonical svd eps dflt Q k (site Q k) 1 true := by
        unfold setCanonical
        rw [if_pos hs, if_pos (show (1 : Int) > 0 by omega)]
      rw [hr]
      obtain ⟨r1, r2, r3, -⟩ := setCanonical_right_full hg eps hd0.le h.wf k (by omega) true (Or.inl hok)
      refine ⟨r1, fun _ j hj => ?_, fun h' => absurd hs h'⟩
      have hj' : j < k + 1 := by unfold nextCentre at hj; rw [if_pos hs] at hj; split at hj <;> omega
      by_cases e : j = k
      · subst e; exact r2
      · rw [r3 j e (by omega)]; exact h.lo hs j (by omega)
  · have hnc : nextCentre ds.length sense k = k - 1 := by unfold nextCentre; rw [if_neg hs]
    rw [hnc]
    by_cases h0 : k = 0
    · have hr : setCanonical svd eps dflt Q k (site Q k) sense true = (Q, 0) := by
        unfold setCanonical
        rw [if_neg hs, if_pos h0, Props.set_site_self _ _ (by omega)]
      rw [hr]
      exact ⟨h.wf, fun h' => absurd h' hs, fun _ j hj hj2 => h.hi hs j (by omega) hj2⟩
    · obtain ⟨q, rfl⟩ : ∃ q, k = q + 1 := ⟨k - 1, by omega⟩
      obtain ⟨r1, r2, r3, -⟩ := setCanonical_left_full hg eps hd0.le h.wf q (by omega) true sense (by omega) (Or.inl hok)
      refine ⟨r1, fun h' => absurd h' hs, fun _ j hj hj2 => ?_⟩
      by_cases e : j = q + 1
      · subst e; exact r2
      · rw [r3 j (by omega) e]; exact h.hi hs j (by omega) hj2

theorem Half.one {svd : Tensor ℂ → SvdRes ℂ} (hg : GoodSvd svd) (eps : ℝ) {dflt : ℝ} (hd0 : 0 < dflt) {x : Evo} {ds : List Nat} {k : Nat} {sense : Int}
    (h : Half ds sense x.P k) (hk : k < ds.length) {U : Tensor ℂ} (hUd : U.dims = [ds.getD k 0, ds.getD k 0]) {D : Nat} (hD : D ≠ 0) :
    Half ds sense (applyOne svd eps dflt x U k sense D).P (nextCentre ds.length sense k) := by
  have hlen := h.wf.length
  have hdk : 0 < ds.getD k 0 := by
    obtain ⟨a', d, b', -, -, h2, -, h4, -⟩ := path_zero h.wf k (by omega)
    rw [h4]; exact h2
  have hUne : U.isEmpty = false := by
    simp [Tensor.isEmpty, Tensor.size, hUd]; simpa using hdk.ne'
  set Q := x.P.set k (foldin U (-1) (site x.P k) 1) with hQ
  have hw : WF 1 Q ds 1 := h.wf.set_act hUd
  have hc : Half ds sense Q k := ⟨hw,
    fun hs j hj => by rw [hQ, site_set _ _ _ _ (by omega), if_neg (by omega)]; exact h.lo hs j hj,
    fun hs j hj hj2 => by rw [hQ, site_set _ _ _ _ (by omega), if_neg (by omega)]; exact h.hi hs j hj hj2⟩
  have hy : (applyOne svd eps dflt x U k sense D).P = (setCanonical svd eps dflt Q k (site Q k) sense true).1 := by
    simp only [applyOne, hUne, Bool.false_eq_true, if_false, ne_eq, hD, not_false_eq_true, if_true]
    rw [hQ, Form.site_set_self (by omega), ← setCanonical_set _ _ _ _ _ (by omega), Form.site_set_self (by omega)]
  rw [hy]
  exact half_set hg eps hd0 hc hk

theorem Half.two {svd : Tensor ℂ → SvdRes ℂ} (hg : GoodSvd svd) (eps : ℝ) {dflt : ℝ} (hd0 : 0 < dflt) {x : Evo} {ds : List Nat} {k : Nat} {sense : Int}
    (h : Half ds sense x.P (if sense > 0 then k else k + 1)) (hk : k + 1 < ds.length) {U : Tensor ℂ}
    (hUd : U.dims = [ds.getD k 0 * ds.getD (k + 1) 0, ds.getD k 0 * ds.getD (k + 1) 0]) (tol : ℝ) (htol : 0 < effTol dflt tol) {D : Nat} (hD : D ≠ 0) :
    Half ds sense (applyTwo svd eps dflt x U k sense tol D).P (nextCentre ds.length sense (if sense > 0 then k + 1 else k)) := by
  have hlen := h.wf.length
  have hw := h.wf
  obtain ⟨pre, X, Y, post, hP, hlp⟩ := split_at2 x.P k (by omega)
  rw [hP] at hw
  obtain ⟨ds1, ds', c, rfl, w1, w2⟩ := hw.split
  cases w2 with
  | @cons c d e b A As ds'' hXd hc hd he w3 =>
  cases w3 with
  | @cons e d2 f b A As ds3 hYd _ hd2 hf w4 =>
  have hg1 : (ds1 ++ d :: d2 :: ds3).getD k 0 = d := by rw [← hlp, w1.length]; simp
  have hg2 : (ds1 ++ d :: d2 :: ds3).getD (k + 1) 0 = d2 := by rw [← hlp, w1.length]; simp
  rw [hg1, hg2] at hUd
  obtain ⟨B1, B2, g, err, hB1, hB2, hg0, -, hI, -, -, -, happ⟩ := applyTwo_core hg eps hd0 x hP w1 hXd hYd ⟨hc, hd, he, hd2, hf⟩ w4 U hUd sense tol
    htol D
  rw [hlp] at happ
  set Q := pre ++ B1 :: B2 :: post with hQdef
  have hQ : WF 1 Q (ds1 ++ d :: d2 :: ds3) 1 := w1.append (WF.cons hB1 hc hd hg0 (WF.cons hB2 hg0 hd2 hf w4))
  have siteQ : ∀ j, j ≠ k → j ≠ k + 1 → site Q j = site x.P j := by
    intro j h1 h2
    rw [hP, hQdef, ← hlp] at *
    simp only [site, List.getD_eq_getElem?_getD]
    by_cases hj : j < pre.length
    · rw [List.getElem?_append_left hj, List.getElem?_append_left hj]
    · obtain ⟨m, rfl⟩ : ∃ m, j = pre.length + (m + 2) := ⟨j - pre.length - 2, by omega⟩
      rw [List.getElem?_append_right (by omega), List.getElem?_append_right (by omega)]
      simp
  have sB1 : site Q k = B1 := by rw [hQdef, ← hlp]; simp [site]
  have sB2 : site Q (k + 1) = B2 := by rw [hQdef, ← hlp]; simp [site]
  have hcent : Half (ds1 ++ d :: d2 :: ds3) sense Q (if sense > 0 then k + 1 else k) := by
    by_cases hdk : sense > 0
    · simp only [if_pos hdk] at hI h ⊢
      refine ⟨hQ, fun _ j hj => ?_, fun h' => absurd hdk h'⟩
      by_cases hjk : j = k
      · rw [hjk, sB1]; exact hI
      · rw [siteQ j hjk (by omega)]; exact h.lo hdk j (by omega)
    · simp only [if_neg hdk] at hI h ⊢
      refine ⟨hQ, fun h' => absurd h' hdk, fun _ j hj hj2 => ?_⟩
      by_cases hjk : j = k + 1
      · rw [hjk, sB2]; exact hI
      · rw [siteQ j (by omega) hjk]; exact h.hi hdk j (by omega) hj2
  have hy : (applyTwo svd eps dflt x U k sense tol D).P = (setCanonical svd eps dflt Q (if sense > 0 then k + 1 else k)
      (site Q (if sense > 0 then k + 1 else k)) sense true).1 := by
    rw [happ]; simp only [ne_eq, hD, not_false_eq_true, if_true]
  rw [hy]
  exact half_set hg eps hd0 hcent (by split <;> omega)

theorem sweep_half {svd : Tensor ℂ → SvdRes ℂ} (hg : GoodSvd svd) (eps : ℝ) {dflt : ℝ} (hd0 : 0 < dflt)
    {ds : List Nat} {k : Nat} {W : Unitary} (hW : Fits W ds k) (x : Evo) (hpos : 0 < ds.length) (sense : Int)
    (h : WF 1 x.P ds 1) (tol : ℝ) (htol : 0 < effTol dflt tol) {Dmax : Nat} (hD : Dmax ≠ 0) :
    Half ds sense (sweep svd eps dflt W x sense tol Dmax).P (if sense > 0 then ds.length - 1 else 0) := by
  have hlen := h.length
  obtain ⟨n, hn, n1, n2, n3, n4⟩ := layerEnd_spec ds.length k hW.le
  have hle := hW.le
  have hgates := fun p hp => layer_gates (p := p) hW.le n1 n2 n3 n4 hp
  have hkN : W.kN = n := by rw [hW.kN, hn]
  unfold sweep
  rw [hW.k0, hkN, hlen]
  by_cases hs : sense > 0
  · simp only [if_pos hs]
    have hnc : ∀ m, m < ds.length → nextCentre ds.length sense m = min (m + 1) (ds.length - 1) := by
      intro m hm; unfold nextCentre; rw [if_pos hs]; split <;> omega
    have h0 : Half ds sense x.P (min (0 : Int).toNat (ds.length - 1)) := ⟨h, fun _ j hj => by simp at hj, fun h' => absurd hs h'⟩
    obtain ⟨k1, g1, g2, g3, h1⟩ := loopUp_inv (b := (k : Int)) (step := 1) (by omega)
      (body := fun k x => applyOne svd eps dflt x (site W.U k) k sense Dmax)
      (fun i y => 0 ≤ i ∧ i ≤ k ∧ Half ds sense y.P (min i.toNat (ds.length - 1))) (by
        rintro i y hi ⟨i1, i2, hy⟩
        refine ⟨by omega, by omega, ?_⟩
        obtain ⟨m, rfl⟩ : ∃ m : Nat, i = m := ⟨i.toNat, by omega⟩
        have hm : m < ds.length := by omega
        refine ((hy.cast (c' := m) (by omega)).one hg eps hd0 hm (hW.gates.2 m ((hgates m hm).1 (Or.inl (by omega)))) hD).cast ?_
        rw [hnc m hm]; omega) (ds.length + 1) 0 x (by push_cast; omega) ⟨le_refl _, by omega, h0⟩
    obtain rfl : k1 = k := by omega
    obtain ⟨k2, g4, g5, g6, g7, h2⟩ := loopUp_inv (b := (n : Int)) (step := 2) (by omega)
      (body := fun k x => applyTwo svd eps dflt x (site W.U k) k sense tol Dmax)
      (fun i y => k ≤ i ∧ i ≤ n ∧ (i - k) % 2 = 0 ∧ Half ds sense y.P (min i.toNat (ds.length - 1))) (by
        rintro i y hi ⟨i1, i2, i3, hy⟩
        refine ⟨by omega, by omega, by omega, ?_⟩
        obtain ⟨m, rfl⟩ : ∃ m : Nat, i = m := ⟨i.toNat, by omega⟩
        have hm : m < ds.length := by omega
        have hpm := (hgates m hm).2.1 (by omega) (by omega) (by omega)
        have := hpm.2
        refine ((hy.cast (c' := if sense > 0 then m else m + 1) (by rw [if_pos hs]; omega)).two hg eps hd0 hpm.2 (hW.gates.1 m hpm) tol htol hD).cast ?_
        rw [if_pos hs, hnc (m + 1) hpm.2]; omega) (ds.length + 1) k _ (by push_cast; omega) ⟨le_refl _, by omega, by omega, h1⟩
    obtain rfl : k2 = n := by omega
    obtain ⟨k3, g8, g9, g10, h3⟩ := loopUp_inv (b := (ds.length : Int)) (step := 1) (by omega)
      (body := fun k x => applyOne svd eps dflt x (site W.U k) k sense Dmax)
      (fun i y => n ≤ i ∧ i ≤ max n ds.length ∧ Half ds sense y.P (min i.toNat (ds.length - 1))) (by
        rintro i y hi ⟨i1, i2, hy⟩
        refine ⟨by omega, by omega, ?_⟩
        obtain ⟨m, rfl⟩ : ∃ m : Nat, i = m := ⟨i.toNat, by omega⟩
        have hm : m < ds.length := by omega
        refine ((hy.cast (c' := m) (by omega)).one hg eps hd0 hm (hW.gates.2 m ((hgates m hm).1 (Or.inr (by omega)))) hD).cast ?_
        rw [hnc m hm]; omega) (ds.length + 1) n _ (by push_cast; omega) ⟨le_refl _, by omega, h2⟩
    exact h3.cast (by omega)
  · simp only [if_neg hs]
    have hnc : ∀ m, nextCentre ds.length sense m = m - 1 := by
      intro m; unfold nextCentre; rw [if_neg hs]
    have h0 : Half ds sense x.P ((ds.length : Int) - 1).toNat := ⟨h, fun h' => absurd h' hs, fun _ j hj hj2 => by omega⟩
    obtain ⟨k1, g1, g2, g3, h1⟩ := loopDown_inv (b := (n : Int)) (step := 1) (by omega)
      (body := fun k x => applyOne svd eps dflt x (site W.U k) k sense Dmax)
      (fun i y => n ≤ i + 1 ∧ i < ds.length ∧ Half ds sense y.P i.toNat) (by
        rintro i y hi ⟨i1, i2, hy⟩
        refine ⟨by omega, by omega, ?_⟩
        obtain ⟨m, rfl⟩ : ∃ m : Nat, i = m := ⟨i.toNat, by omega⟩
        have hm : m < ds.length := by omega
        refine ((hy.cast (c' := m) (by omega)).one hg eps hd0 hm (hW.gates.2 m ((hgates m hm).1 (Or.inr (by omega)))) hD).cast ?_
        rw [hnc]; omega) (ds.length + 1) (ds.length - 1) x (by push_cast; omega)
        ⟨by omega, by omega, h0⟩
    obtain rfl : k1 = n - 1 := by omega
    obtain ⟨k2, g4, g5, g6, g7, h2⟩ := loopDown_inv (b := (k : Int)) (step := 2) (by omega)
      (body := fun k x => applyTwo svd eps dflt x (site W.U k) k sense tol Dmax)
      (fun i y => (k : Int) - 2 ≤ i ∧ i + 2 ≤ n ∧ (i - k) % 2 = 0 ∧ Half ds sense y.P (i + 1).toNat) (by
        rintro i y hi ⟨i1, i2, i3, hy⟩
        refine ⟨by omega, by omega, by omega, ?_⟩
        obtain ⟨m, rfl⟩ : ∃ m : Nat, i = m := ⟨i.toNat, by omega⟩
        have hm : m < ds.length := by omega
        have hpm := (hgates m hm).2.1 (by omega) (by omega) (by omega)
        have := hpm.2
        refine ((hy.cast (c' := if sense > 0 then m else m + 1) (by rw [if_neg hs]; omega)).two hg eps hd0 hpm.2 (hW.gates.1 m hpm) tol htol hD).cast ?_
        rw [if_neg hs, hnc]; omega) (ds.length + 1) (n - 2) _ (by push_cast; omega)
        ⟨by omega, by omega, by omega, h1.cast (by omega)⟩
    obtain rfl : k2 = k - 2 := by omega
    obtain ⟨k3, g8, g9, g10, h3⟩ := loopDown_inv (b := (0 : Int)) (step := 1) (by omega)
      (body := fun k x => applyOne svd eps dflt x (site W.U k) k sense Dmax)
      (fun i y => -1 ≤ i ∧ i ≤ k - 1 ∧ Half ds sense y.P i.toNat) (by
        rintro i y hi ⟨i1, i2, hy⟩
        refine ⟨by omega, by omega, ?_⟩
        obtain ⟨m, rfl⟩ : ∃ m : Nat, i = m := ⟨i.toNat, by omega⟩
        have hm : m < ds.length := by omega
        refine ((hy.cast (c' := m) (by omega)).one hg eps hd0 hm (hW.gates.2 m ((hgates m hm).1 (Or.inl (by omega)))) hD).cast ?_
        rw [hnc]; omega) (ds.length + 1) (k - 1) _ (by push_cast; omega)
        ⟨by omega, by omega, h2.cast (by omega)⟩
    exact h3.cast (by omega)

end MPS.Trotter
