import Verif.ObcLemmas

set_option linter.unusedSectionVars false
set_option linter.unusedSimpArgs false

namespace MPS.Obc
open MPS Tensor Form Minim
variable {K : Type} [RCLike K]

theorem best_of {ds : List Nat} {q : List Nat → K} {P : List (Tensor K)} {k : Nat} (hk : k < P.length)
    (h : ∀ Y : Tensor K, Y.dims = (site P k).dims → normSq ds (P.set k Y) = sumCfg Y.dims (fun I => ‖Y.get I‖ ^ 2) ∧
      MPS.inner ds q (amp (P.set k Y)) = sumCfg Y.dims (fun I => star ((site P k).get I) * Y.get I)) : Best ds q P k := by
  have d : ∀ Y : Tensor K, Y.dims = (site P k).dims → distTo ds q (P.set k Y) = normSqOf ds q -
      sumCfg Y.dims (fun I => ‖(site P k).get I‖ ^ 2) + sumCfg Y.dims (fun I => ‖(site P k).get I - Y.get I‖ ^ 2) :=
    fun Y hY => dist_core (h Y hY).2 (h Y hY).1
  have dP := d (site P k) rfl
  obtain ⟨nP, iP⟩ := h (site P k) rfl
  rw [Props.set_site_self P k hk] at dP nP iP
  refine ⟨?_, ?_, ?_⟩
  · rw [dP, nP]; simp
  · rw [iP, nP, sumCfg_ofReal]
    exact sumCfg_congr fun I _ => by rw [ofReal_normSq]
  · intro Y hY
    rw [d Y hY, dP, hY]
    simp

/-- the linear form around a pair -/
theorem around_pair' {ψ : List (Tensor K)} {N k p : Nat} (step : Int) (hlen : ψ.length = N) (hk : k < N) (hp : pairOf step k = p) (hp1 : p + 1 < N)
    (hk1 : step > 0 ∨ 1 ≤ k) :
    HasPair step (ψ.take k, ψ.drop (k + 1)) ∧ Form.aroundPair step (ψ.take k, ψ.drop (k + 1)) = (ψ.take p, ψ.drop (p + 2)) := by
  unfold HasPair Form.aroundPair
  unfold pairOf at hp
  by_cases hs : step > 0
  · rw [if_pos hs] at hp ⊢
    subst hp
    rw [if_pos hs]
    refine ⟨?_, ?_⟩
    · intro h0
      have := congrArg List.length h0
      simp only [List.length_drop, List.length_nil] at this; omega
    · simp [List.tail_drop]
  · rw [if_neg hs] at hp ⊢
    rw [if_neg hs]
    have hk0 : 1 ≤ k := by rcases hk1 with h | h; exact absurd h hs; exact h
    obtain ⟨k, rfl⟩ : ∃ k', k = k' + 1 := ⟨k - 1, by omega⟩
    simp only [Nat.add_sub_cancel] at hp
    subst hp
    refine ⟨?_, ?_⟩
    · intro h0
      have := congrArg List.length h0
      simp only [List.length_take, List.length_nil] at this; omega
    · rw [take_succ_site (by omega)]; simp

/-- one step of the two-site algorithm, when all the tensors outside of the pair are isometries -/
theorem two_core {svd : Tensor K → SvdRes K} (hg : GoodSvd svd) (eps : ℝ) {dflt : ℝ} (hd0 : 0 < dflt) {ds : List Nat} {w : List K}
    {Q : List (List (Tensor K))} (hne : Q ≠ []) (hQ : ∀ b ∈ Q, WF 1 b ds 1) {P : List (Tensor K)} {lf : LForm K} {k p : Nat}
    (hk : k < ds.length) (hw : WF 1 P ds 1) (hl : LGood ds w Q lf (P.take k, P.drop (k + 1))) (step : Int) (hp : pairOf step k = p) (hp1 : p + 1 < ds.length)
    (hk1 : step > 0 ∨ 1 ≤ k) (hlo' : ∀ j < p, LeftIso (site P j)) (hhi' : ∀ j, p + 1 < j → j < ds.length → RightIso (site P j))
    (Dmax : Nat) {tol : ℝ} (htol : tol ≠ 0) :
    ∃ v P' lost, lf.twoSiteVector step = some v ∧ setCanonical2 svd eps dflt P (conj v) k step Dmax tol false = some (P', lost, 0) ∧
    LCent ds w Q P' (lf.propagate (site P' k) step) (nextCentre ds.length step k) ∧
    distTo ds (superpose w Q) P' ≤ distTo ds (superpose w Q) P + lost ∧ 0 ≤ lost ∧
    Best ds (superpose w Q) P' (nextCentre ds.length step k) ∧ (∀ j, j ≠ p → j ≠ p + 1 → site P' j = site P j) ∧
    (0 < Dmax → (site P' p).dim 2 ≤ Dmax) := by
  have hlen := hw.length
  obtain ⟨a, c, b, k1, k2, k3, k4, k5, k6, k7, k8, k9⟩ := WF.aroundPair hw hp1
  set d := ds.getD p 0 with hd
  set d' := ds.getD (p + 1) 0 with hd'
  set q := superpose w Q with hq
  obtain ⟨ap1, ap2⟩ := around_pair' step hlen hk hp hp1 hk1
  have hlt : (P.take p).length = p := by simp; omega
  obtain ⟨v, v0, v1, v2⟩ := Props.lgood_pair hne hQ step hl ap1 ap2 (D := a) (E := b) (by rw [hlt]; exact k1) (by rw [hlt]; exact k4)
  rw [hlt, ← hd, ← hd'] at v1 v2
  set T := conj v with hT
  have hTd : T.dims = [a, d, d', b] := v1
  -- the geometry of the pair
  have geo : ∀ (A B : Tensor K) (n : Nat), 0 < n → A.dims = [a, d, n] → B.dims = [n, d', b] →
      WF 1 (setPair P p A B) ds 1 ∧ normSq ds (setPair P p A B) = sumCfg [a, d, d', b] (fun I => ‖joined n A B I‖ ^ 2) ∧
      MPS.inner ds q (amp (setPair P p A B)) = sumCfg [a, d, d', b] (fun I => star (T.get I) * joined n A B I) := by
    intro A B n hn hA hB
    refine ⟨WF.setPair hp1 hlen k1 k4 hA hB ⟨k5, k6, hn, k8, k9⟩, ?_, ?_⟩
    · have := pair_norm (A := A) (B := B) k1 hA hB ⟨k5, k6, hn, k8, k9⟩ k4 (iso_take hlo') (iso_drop fun j hj hj2 => hhi' j (by omega) (by omega))
      rw [← ds_pair hp1, ← setPair_eq (by omega)] at this
      exact this
    · rw [setPair_eq (by omega), ← v2 A B n hA hB]
      exact sumCfg_congr fun I _ => by simp [hT, conj]
  have hfs : Props.firstSite (k : Int) step = p := by
    unfold Props.firstSite
    unfold pairOf at hp
    split_ifs at hp ⊢ <;> omega
  obtain ⟨P', lost, s1, s2, s3, s4, s5, s6, -, s8⟩ := Props.pair_store hg eps hd0.le hw T k step p hfs hp1
    (by rw [hTd, dim0_of k2, dim2_of k3]) Dmax tol (by
      rcases lt_or_gt_of_ne htol with h | h
      · exact Or.inr (Or.inl ⟨h, hd0⟩)
      · exact Or.inl h)
  obtain ⟨g, g1, g2, g3, g4⟩ := chain_dims s2 hw hp1 s3 k1 k4
  rw [← hd] at g1
  rw [← hd'] at g2
  set U := site P' p with hU
  set C := site P' (p + 1) with hC
  have hP'l := s2.length
  have hnc : nextCentre ds.length step k = (if step > 0 then p + 1 else p) := by
    unfold nextCentre pairOf at *
    split_ifs at hp ⊢ <;> omega
  have hst : ∀ j, j ≠ k → j ≠ nextCentre ds.length step k → site P' j = site P j := by
    intro j h1 h2
    rw [hnc] at h2
    apply s3
    · unfold pairOf at hp; split_ifs at hp h2 <;> omega
    · unfold pairOf at hp; split_ifs at hp h2 <;> omega
  have hlost : sumCfg [a, d, d', b] (fun I => ‖T.get I - joined g U C I‖ ^ 2) = lost := by
    rw [← s6]
    simp only [sumCfg_cons, sumCfg_nil, dim0_of k2, dim2_of k3]
    refine Finset.sum_congr rfl fun x hx => Finset.sum_congr rfl fun i hi => Finset.sum_congr rfl fun j hj => Finset.sum_congr rfl fun y hy => ?_
    unfold Props.pairProduct joined
    rw [← hU, dim2_of g1]
    rfl
  have hcent : LCent ds w Q P' (lf.propagate (site P' k) step) (nextCentre ds.length step k) := by
    refine ⟨?_, s2, move_form hne hQ (φ := P) (χ := P') hk hlen s2.length step hl hst, ?_, ?_⟩
    · rw [hnc]; split_ifs <;> omega
    · intro j hj
      rw [hnc] at hj
      by_cases hs : step > 0
      · rw [if_pos hs] at hj s5
        by_cases hjk : j = p
        · rw [hjk]; exact s5
        · rw [s3 j hjk (by omega)]; exact hlo' j (by omega)
      · rw [if_neg hs] at hj
        rw [s3 j (by omega) (by omega)]; exact hlo' j (by omega)
    · intro j hj hj2
      rw [hnc] at hj
      by_cases hs : step > 0
      · rw [if_pos hs] at hj
        rw [s3 j (by omega) (by omega)]; exact hhi' j (by omega) hj2
      · rw [if_neg hs] at hj s5
        by_cases hjk : j = p + 1
        · rw [hjk]; exact s5
        · rw [s3 j (by omega) (by omega)]; exact hhi' j (by omega) hj2
  have hP : P = setPair P p (site P p) (site P (p + 1)) := by
    rw [setPair_eq (by omega)]
    conv_lhs => rw [← List.take_append_drop p P, drop_site (by omega), drop_site (by omega)]
  refine ⟨v, P', lost, v0, s1, hcent, ?_, ?_, ?_, s3, ?_⟩
  · obtain ⟨-, n1, i1⟩ := geo U C g g3 g1 g2
    rw [← g4] at n1 i1
    obtain ⟨-, n2, i2⟩ := geo (site P p) (site P (p + 1)) c k7 k2 k3
    rw [← hP] at n2 i2
    rw [dist_core i1 n1, dist_core i2 n2, hlost]
    have : 0 ≤ sumCfg [a, d, d', b] fun I => ‖T.get I - joined c (site P p) (site P (p + 1)) I‖ ^ 2 := sumCfg_nonneg _ _ fun _ _ => by positivity
    linarith
  · rw [← hlost]; exact sumCfg_nonneg _ _ fun _ _ => by positivity
  · refine best_of (by rw [hP'l]; exact hcent.lt) fun Y hY => ?_
    obtain ⟨-, gg⟩ := single_geometry hne hQ hcent
    refine ⟨(gg Y hY).2.1, ?_⟩
    rw [hnc] at hY ⊢
    by_cases hs : step > 0
    · rw [if_pos hs] at hY s8 ⊢
      rw [← hC] at hY ⊢
      rw [g2] at hY
      have e : P'.set (p + 1) Y = setPair P p U Y := by
        conv_lhs => rw [g4]
        unfold setPair
        rw [List.set_set]
      rw [e, (geo U Y g g3 g1 hY).2.2, hY]
      rw [dim2_of g1, dim0_of k2, dim2_of k3] at s8
      simp only [sumCfg_cons, sumCfg_nil, joined, List.getD_cons_zero, List.getD_cons_succ]
      have e2 : ∀ m ∈ Finset.range g, ∀ j ∈ Finset.range d', ∀ y ∈ Finset.range b, star (C.get [m, j, y]) * Y.get [m, j, y] =
          ∑ x ∈ Finset.range a, ∑ i ∈ Finset.range d, star (T.get [x, i, j, y]) * (U.get [x, i, m] * Y.get [m, j, y]) := by
        intro m hm j hj y hy
        rw [← s8 m j y (Finset.mem_range.1 hm) (Finset.mem_range.1 hj) (Finset.mem_range.1 hy)]
        simp only [star_sum, star_mul', star_star, Finset.sum_mul]
        exact Finset.sum_congr rfl fun x _ => Finset.sum_congr rfl fun i _ => by ring
      rw [Finset.sum_congr rfl fun m hm => Finset.sum_congr rfl fun j hj => Finset.sum_congr rfl fun y hy => e2 m hm j hj y hy]
      simp only [Finset.mul_sum]
      simp only [← Finset.sum_product']
      refine Finset.sum_nbij' (fun z => (z.2.2.2.2, z.2.2.1, z.2.2.2.1, z.1, z.2.1)) (fun z => (z.2.2.2.1, z.2.2.2.2, z.2.1, z.2.2.1, z.1)) ?_ ?_ ?_ ?_ ?_
      · intro z hz; simp only [Finset.mem_product] at hz ⊢; tauto
      · intro z hz; simp only [Finset.mem_product] at hz ⊢; tauto
      · intro z _; rfl
      · intro z _; rfl
      · intro z _; rfl
    · rw [if_neg hs] at hY s8 ⊢
      rw [← hU] at hY ⊢
      rw [g1] at hY
      have e : P'.set p Y = setPair P p Y C := by
        conv_lhs => rw [g4]
        unfold setPair
        rw [List.set_comm _ _ (by omega), List.set_set]
      rw [e, (geo Y C g g3 hY g2).2.2, hY]
      rw [dim2_of g1, dim0_of k2, dim2_of k3] at s8
      simp only [sumCfg_cons, sumCfg_nil, joined, List.getD_cons_zero, List.getD_cons_succ]
      have e2 : ∀ x ∈ Finset.range a, ∀ i ∈ Finset.range d, ∀ m ∈ Finset.range g, star (U.get [x, i, m]) * Y.get [x, i, m] =
          ∑ j ∈ Finset.range d', ∑ y ∈ Finset.range b, star (T.get [x, i, j, y]) * (Y.get [x, i, m] * C.get [m, j, y]) := by
        intro x hx i hi m hm
        rw [← s8 x i m (Finset.mem_range.1 hx) (Finset.mem_range.1 hi) (Finset.mem_range.1 hm)]
        simp only [star_sum, star_mul', star_star, Finset.sum_mul]
        exact Finset.sum_congr rfl fun x _ => Finset.sum_congr rfl fun i _ => by ring
      rw [Finset.sum_congr rfl fun x hx => Finset.sum_congr rfl fun i hi => Finset.sum_congr rfl fun m hm => e2 x hx i hi m hm]
      simp only [Finset.mul_sum]
      refine Finset.sum_congr rfl fun x _ => Finset.sum_congr rfl fun i _ => ?_
      simp only [← Finset.sum_product']
      refine Finset.sum_nbij' (fun z => (z.2.2, z.1, z.2.1)) (fun z => (z.2.1, z.2.2, z.1)) ?_ ?_ ?_ ?_ ?_
      · intro z hz; simp only [Finset.mem_product] at hz ⊢; tauto
      · intro z hz; simp only [Finset.mem_product] at hz ⊢; tauto
      · intro z _; rfl
      · intro z _; rfl
      · intro z _; rfl
  · intro hD
    have := s4 (by exact_mod_cast hD)
    exact_mod_cast this

/-- one step of the two-site algorithm -/
theorem two_step {svd : Tensor K → SvdRes K} (hg : GoodSvd svd) (eps : ℝ) {dflt : ℝ} (hd0 : 0 < dflt) {ds : List Nat} {w : List K}
    {Q : List (List (Tensor K))} (hne : Q ≠ []) (hQ : ∀ b ∈ Q, WF 1 b ds 1) {P : List (Tensor K)} {lf : LForm K} {k p : Nat}
    (hc : LCent ds w Q P lf k) (step : Int) (hp : pairOf step k = p) (hp1 : p + 1 < ds.length) (hk1 : step > 0 ∨ 1 ≤ k)
    (Dmax : Nat) {tol : ℝ} (htol : tol ≠ 0) :
    ∃ v P' lost, lf.twoSiteVector step = some v ∧ setCanonical2 svd eps dflt P (conj v) k step Dmax tol false = some (P', lost, 0) ∧
    LCent ds w Q P' (lf.propagate (site P' k) step) (nextCentre ds.length step k) ∧
    distTo ds (superpose w Q) P' ≤ distTo ds (superpose w Q) P + lost ∧ 0 ≤ lost ∧
    Best ds (superpose w Q) P' (nextCentre ds.length step k) ∧ (∀ j, j ≠ p → j ≠ p + 1 → site P' j = site P j) ∧
    (0 < Dmax → (site P' p).dim 2 ≤ Dmax) := by
  obtain ⟨hk, hw, hl, hlo, hhi⟩ := hc
  refine two_core hg eps hd0 hne hQ hk hw hl step hp hp1 hk1 (fun j hj => hlo j ?_) (fun j hj hj2 => hhi j ?_ hj2) Dmax htol
  · unfold pairOf at hp; split_ifs at hp <;> omega
  · unfold pairOf at hp; split_ifs at hp <;> omega

/-- the part of `two_core` which is true whatever the other tensors -/
theorem two_weak {svd : Tensor K → SvdRes K} (hg : GoodSvd svd) (eps : ℝ) {dflt : ℝ} (hd0 : 0 < dflt) {ds : List Nat} {w : List K}
    {Q : List (List (Tensor K))} (hne : Q ≠ []) (hQ : ∀ b ∈ Q, WF 1 b ds 1) {P : List (Tensor K)} {lf : LForm K} {k p : Nat}
    (hk : k < ds.length) (hw : WF 1 P ds 1) (hl : LGood ds w Q lf (P.take k, P.drop (k + 1))) (step : Int) (hp : pairOf step k = p) (hp1 : p + 1 < ds.length)
    (hk1 : step > 0 ∨ 1 ≤ k) (Dmax : Nat) {tol : ℝ} (htol : tol ≠ 0) :
    ∃ v P' lost, lf.twoSiteVector step = some v ∧ setCanonical2 svd eps dflt P (conj v) k step Dmax tol false = some (P', lost, 0) ∧
    WF 1 P' ds 1 ∧ LGood ds w Q (lf.propagate (site P' k) step) (P'.take (nextCentre ds.length step k), P'.drop (nextCentre ds.length step k + 1)) ∧
    0 ≤ lost ∧ (if step > 0 then LeftIso (site P' p) else RightIso (site P' (p + 1))) ∧ (∀ j, j ≠ p → j ≠ p + 1 → site P' j = site P j) ∧
    (0 < Dmax → (site P' p).dim 2 ≤ Dmax) := by
  have hlen := hw.length
  obtain ⟨a, c, b, k1, k2, k3, k4, k5, k6, k7, k8, k9⟩ := WF.aroundPair hw hp1
  obtain ⟨ap1, ap2⟩ := around_pair' step hlen hk hp hp1 hk1
  have hlt : (P.take p).length = p := by simp; omega
  obtain ⟨v, v0, v1, v2⟩ := Props.lgood_pair hne hQ step hl ap1 ap2 (D := a) (E := b) (by rw [hlt]; exact k1) (by rw [hlt]; exact k4)
  rw [hlt] at v1 v2
  have hfs : Props.firstSite (k : Int) step = p := by
    unfold Props.firstSite
    unfold pairOf at hp
    split_ifs at hp ⊢ <;> omega
  obtain ⟨P', lost, s1, s2, s3, s4, s5, s6, -, -⟩ := Props.pair_store hg eps hd0.le hw (conj v) k step p hfs hp1
    (by rw [dim0_of k2, dim2_of k3]; exact v1) Dmax tol (by
      rcases lt_or_gt_of_ne htol with h | h
      · exact Or.inr (Or.inl ⟨h, hd0⟩)
      · exact Or.inl h)
  have hnc : nextCentre ds.length step k = (if step > 0 then p + 1 else p) := by
    unfold nextCentre pairOf at *
    split_ifs at hp ⊢ <;> omega
  have hst : ∀ j, j ≠ k → j ≠ nextCentre ds.length step k → site P' j = site P j := by
    intro j h1 h2
    rw [hnc] at h2
    apply s3
    · unfold pairOf at hp; split_ifs at hp h2 <;> omega
    · unfold pairOf at hp; split_ifs at hp h2 <;> omega
  refine ⟨v, P', lost, v0, s1, s2, move_form hne hQ (φ := P) (χ := P') hk hlen s2.length step hl hst, ?_, s5, s3, ?_⟩
  · rw [← s6]; exact Finset.sum_nonneg fun _ _ => Finset.sum_nonneg fun _ _ => Finset.sum_nonneg fun _ _ => Finset.sum_nonneg fun _ _ => sq_nonneg _
  · intro hD
    have := s4 (by exact_mod_cast hD)
    exact_mod_cast this

end MPS.Obc
