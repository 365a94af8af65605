import Verif.ObcLemmas4

/-!
# `simplify_obc` started from a state in any form
-/

set_option linter.unusedSectionVars false
set_option linter.unusedSimpArgs false

namespace MPS.Obc
open MPS Tensor Form Minim
variable {K : Type} [RCLike K]

/-- the state of the program, with tensors that need not be isometries -/
structure LWeak (ds : List Nat) (w : List K) (Q : List (List (Tensor K))) (P : List (Tensor K)) (lf : LForm K) (k : Nat) : Prop where
  lt : k < ds.length
  wf : WF 1 P ds 1
  l : LGood ds w Q lf (P.take k, P.drop (k + 1))

/-- what a sweep achieves, without reference to the state it started from -/
structure Swept0 (ds : List Nat) (w : List K) (Q : List (List (Tensor K))) (D : Nat) (x y : Sim K) : Prop where
  s : y.s = { x.s with k := x.s.kN }
  cent : LCent ds w Q y.P y.lf y.s.k.toNat
  lost : x.lost ≤ y.lost
  best : Best ds (superpose w Q) y.P y.s.k.toNat
  bonds : ∀ j, j + 1 < ds.length → BondOk D (site y.P j)

theorem Swept0.trans {ds : List Nat} {w : List K} {Q : List (List (Tensor K))} {D : Nat} {x y z : Sim K} (h : Swept0 ds w Q D y z)
    (hs : y.s = { x.s with k := y.s.k }) (hl : x.lost ≤ y.lost) : Swept0 ds w Q D x z := by
  refine ⟨?_, h.cent, ?_, h.best, h.bonds⟩
  · rw [h.s, hs]
  · have := h.lost; linarith

theorem Swept.weak {ds : List Nat} {w : List K} {Q : List (List (Tensor K))} {D : Nat} {x y : Sim K} (h : Swept ds w Q D x y) : Swept0 ds w Q D x y :=
  ⟨h.s, h.cent, h.lost, h.best, h.bonds⟩

/-- one step of the single-site algorithm -/
theorem single_weak {svd : Tensor K → SvdRes K} (hg : GoodSvd svd) (eps : ℝ) {dflt : ℝ} (hd0 : 0 < dflt) {ds : List Nat} {w : List K}
    {Q : List (List (Tensor K))} (hne : Q ≠ []) (hQ : ∀ b ∈ Q, WF 1 b ds 1) {P : List (Tensor K)} {lf : LForm K} {k : Nat}
    (hc : LWeak ds w Q P lf k) (step : Int) (hmv : if step > 0 then k + 1 < ds.length else 0 < k) :
    ∃ P' lost, setCanonical svd eps dflt P k (conj lf.singleSiteVector) step true = (P', lost) ∧
    LWeak ds w Q P' (lf.propagate (site P' k) step) (nextCentre ds.length step k) ∧ 0 ≤ lost ∧
    (if step > 0 then LeftIso (site P' k) else RightIso (site P' k)) ∧
    (∀ j, j ≠ k → j ≠ nextCentre ds.length step k → site P' j = site P j) := by
  obtain ⟨hk, hw, hl⟩ := hc
  have hlen := hw.length
  obtain ⟨a, b, w1, w2, w3, p1, p2, p3⟩ := WF.around hw hk
  have hlt : (P.take k).length = k := by simp; omega
  obtain ⟨-, v1, -⟩ := Props.lgood_single hne hQ hl (D := a) (E := b) (by rw [hlt]; exact w1) (by rw [hlt]; exact w3)
  rw [hlt] at v1
  set X := conj lf.singleSiteVector with hX
  have hXd : X.dims = [a, ds.getD k 0, b] := v1
  have wX : WF 1 (P.set k X) ds 1 := WF.replace hk hlen w1 w3 hXd p1 p2 p3
  have hsX : site (P.set k X) k = X := by rw [site_set _ _ _ _ (by omega), if_pos rfl]
  have hnc : nextCentre ds.length step k < ds.length := by
    unfold nextCentre; split_ifs <;> omega
  have hcan := setCanonical_set svd eps dflt P k (by omega) X step true
  refine ⟨_, _, Prod.mk.eta.symm, ?_⟩
  by_cases hs : step > 0
  · rw [if_pos hs] at hmv ⊢
    have er : setCanonical svd eps dflt P k X step true = setCanonical svd eps dflt (P.set k X) k (site (P.set k X) k) 1 true := by
      rw [← hcan]
      simp only [setCanonical, hs, if_true, show (1 : Int) > 0 by decide]
    obtain ⟨c1, c2, c3, -, -, -, Z, z1, z2, z3⟩ := setCanonical_right_full hg eps hd0.le wX k (by rw [wX.length]; omega) true (Or.inl (by rw [effTol_default]; exact hd0))
    rw [← er] at c1 c2 c3 z2
    have e : nextCentre ds.length step k = k + 1 := by simp [nextCentre, hs]; omega
    have hst : ∀ j, j ≠ k → j ≠ nextCentre ds.length step k → site (setCanonical svd eps dflt P k X step true).1 j = site P j := by
      intro j h1 h2
      rw [e] at h2
      rw [c3 j h1 h2, site_set _ _ _ _ (by omega), if_neg h1]
    exact ⟨⟨hnc, c1, move_form hne hQ (φ := P) hk hlen c1.length step hl hst⟩, by rw [← z2]; exact sumCfg_nonneg _ _ fun _ _ => by positivity, c2, hst⟩
  · rw [if_neg hs] at hmv ⊢
    obtain ⟨k, rfl⟩ : ∃ k', k = k' + 1 := ⟨k - 1, by omega⟩
    obtain ⟨c1, c2, c3, -, -, -, Z, z1, z2, z3⟩ := setCanonical_left_full hg eps hd0.le wX k (by rw [wX.length]; omega) true step (by omega)
      (Or.inl (by rw [effTol_default]; exact hd0))
    rw [hcan] at c1 c2 c3 z2
    have e : nextCentre ds.length step (k + 1) = k := by simp [nextCentre, hs]
    have hst : ∀ j, j ≠ k + 1 → j ≠ nextCentre ds.length step (k + 1) → site (setCanonical svd eps dflt P (k + 1) X step true).1 j = site P j := by
      intro j h1 h2
      rw [e] at h2
      rw [c3 j h2 h1, site_set _ _ _ _ (by omega), if_neg h1]
    exact ⟨⟨hnc, c1, move_form hne hQ (φ := P) hk hlen c1.length step hl hst⟩, by rw [← z2]; exact sumCfg_nonneg _ _ fun _ _ => by positivity, c2, hst⟩

theorem single_right0 {svd : Tensor K → SvdRes K} (hg : GoodSvd svd) (eps : ℝ) {dflt : ℝ} (hd0 : 0 < dflt) {ds : List Nat} {w : List K}
    {Q : List (List (Tensor K))} (hne : Q ≠ []) (hQ : ∀ b ∈ Q, WF 1 b ds 1) (fuel : Nat) {k : Nat} (hfuel : k + fuel + 1 = ds.length)
    {x : Sim K} (hs : x.s = ⟨k, 0, (ds.length : Int) - 1, 1⟩) (hc : LWeak ds w Q x.P x.lf k) (hlo : ∀ j < k, LeftIso (site x.P j)) :
    ∃ y, singleSweep svd eps dflt (fuel + 1) x = some y ∧ Swept0 ds w Q 0 x y := by
  induction fuel generalizing k x with
  | zero =>
    obtain ⟨y, h1, h2⟩ := single_right hg eps hd0 hne hQ 0 hfuel hs ⟨hc.lt, hc.wf, hc.l, hlo, fun j h0 h1 => by omega⟩
    exact ⟨y, h1, h2.weak⟩
  | succ fuel ih =>
    obtain ⟨P', lost, b1, a1, a3, a4, a5⟩ := single_weak hg eps hd0 hne hQ hc 1 (by rw [if_pos (by decide)]; omega)
    have e : nextCentre ds.length 1 k = k + 1 := by simp [nextCentre]; omega
    rw [e] at a1 a5
    rw [if_pos (by decide)] at a4
    have hd : x.s.dec = (true, ⟨((k + 1 : Nat) : Int), 0, (ds.length : Int) - 1, 1⟩) := by
      simp only [Sweeper.dec, hs]; rw [if_neg (by omega)]; simp
    have hk : x.s.k.toNat = k := by rw [hs]; simp
    have hdk : x.s.dk = 1 := by rw [hs]
    rw [singleSweep, hd, hk, hdk, b1]
    simp only
    obtain ⟨y, h1, h2⟩ := ih (k := k + 1) (by omega)
      (x := ⟨P', x.lf.propagate (site P' k) 1, ⟨((k + 1 : Nat) : Int), 0, (ds.length : Int) - 1, 1⟩, x.lost + lost⟩) rfl a1 (by
        intro j hj
        by_cases hjk : j = k
        · rw [hjk]; exact a4
        · simp only; rw [a5 j hjk (by omega)]; exact hlo j (by omega))
    refine ⟨y, h1, h2.trans ?_ ?_⟩
    · rw [hs]
    · simp only; linarith

theorem single_left0 {svd : Tensor K → SvdRes K} (hg : GoodSvd svd) (eps : ℝ) {dflt : ℝ} (hd0 : 0 < dflt) {ds : List Nat} {w : List K}
    {Q : List (List (Tensor K))} (hne : Q ≠ []) (hQ : ∀ b ∈ Q, WF 1 b ds 1) {k : Nat}
    {x : Sim K} (hs : x.s = ⟨k, (ds.length : Int) - 1, 0, -1⟩) (hc : LWeak ds w Q x.P x.lf k) (hhi : ∀ j, k < j → j < ds.length → RightIso (site x.P j)) :
    ∃ y, singleSweep svd eps dflt (k + 1) x = some y ∧ Swept0 ds w Q 0 x y := by
  induction k generalizing x with
  | zero =>
    obtain ⟨y, h1, h2⟩ := single_left hg eps hd0 hne hQ hs ⟨hc.lt, hc.wf, hc.l, fun j h0 => by omega, hhi⟩
    exact ⟨y, h1, h2.weak⟩
  | succ k ih =>
    obtain ⟨P', lost, b1, a1, a3, a4, a5⟩ := single_weak hg eps hd0 hne hQ hc (-1) (by rw [if_neg (by decide)]; omega)
    have e : nextCentre ds.length (-1) (k + 1) = k := by simp [nextCentre]
    rw [e] at a1 a5
    rw [if_neg (by decide)] at a4
    have hd : x.s.dec = (true, ⟨(k : Int), (ds.length : Int) - 1, 0, -1⟩) := by
      simp only [Sweeper.dec, hs]; rw [if_neg (by omega)]; simp
    have hk : x.s.k.toNat = k + 1 := by rw [hs]; simp only; omega
    have hdk : x.s.dk = -1 := by rw [hs]
    rw [singleSweep, hd, hk, hdk, b1]
    simp only
    obtain ⟨y, h1, h2⟩ := ih
      (x := ⟨P', x.lf.propagate (site P' (k + 1)) (-1), ⟨(k : Int), (ds.length : Int) - 1, 0, -1⟩, x.lost + lost⟩) rfl a1 (by
        intro j hj hj2
        by_cases hjk : j = k + 1
        · rw [hjk]; exact a4
        · simp only; rw [a5 j hjk (by omega)]; exact hhi j (by omega) hj2)
    refine ⟨y, h1, h2.trans ?_ ?_⟩
    · rw [hs]
    · simp only; linarith

theorem two_right0 {svd : Tensor K → SvdRes K} (hg : GoodSvd svd) (eps : ℝ) {dflt : ℝ} (hd0 : 0 < dflt) {ds : List Nat} {w : List K}
    {Q : List (List (Tensor K))} (hne : Q ≠ []) (hQ : ∀ b ∈ Q, WF 1 b ds 1) (D : Nat) {tol : ℝ} (htol : tol ≠ 0) (fuel : Nat) {k : Nat}
    (hfuel : k + fuel + 2 = ds.length) {x : Sim K} (hs : x.s = ⟨k, 0, (ds.length : Int) - 1, 1⟩) (hc : LWeak ds w Q x.P x.lf k)
    (hlo : ∀ j < k, LeftIso (site x.P j)) (hb : ∀ j < k, BondOk D (site x.P j)) :
    ∃ y, twoSweep svd eps dflt D tol (fuel + 2) x = some y ∧ Swept0 ds w Q D x y := by
  have hp : pairOf 1 k = k := by simp [pairOf]
  induction fuel generalizing k x with
  | zero =>
    obtain ⟨v, P', lost, b1, b2, a1, a2, a3, a4, a5, a6⟩ := two_core hg eps hd0 hne hQ hc.lt hc.wf hc.l 1 hp (by omega) (Or.inl (by decide)) hlo
      (fun j h0 h1 => by omega) D htol
    have e : nextCentre ds.length 1 k = k + 1 := by simp [nextCentre]; omega
    rw [e] at a1 a4
    have hd : x.s.dec = (true, ⟨((k + 1 : Nat) : Int), 0, (ds.length : Int) - 1, 1⟩) := by
      simp only [Sweeper.dec, hs]; rw [if_neg (by omega)]; simp
    have hk : x.s.k = k := by rw [hs]
    have hdk : x.s.dk = 1 := by rw [hs]
    rw [twoSweep, hd, hk, hdk, b1, Option.bind_some, b2, Option.bind_some]
    simp only
    rw [if_pos (by simp [Sweeper.isLast]; omega)]
    refine ⟨_, rfl, ⟨?_, ?_, ?_, ?_, ?_⟩⟩
    · rw [hs]; simp; omega
    · simpa using a1
    · simp only; linarith
    · simpa using a4
    · intro j hj
      by_cases hjk : j = k
      · rw [hjk]; exact a6
      · simp only; rw [a5 j hjk (by omega)]; exact hb j (by omega)
  | succ fuel ih =>
    obtain ⟨v, P', lost, b1, b2, a1, a2, a3, a4, a5, a6⟩ := two_weak hg eps hd0 hne hQ hc.lt hc.wf hc.l 1 hp (by omega) (Or.inl (by decide)) D htol
    have e : nextCentre ds.length 1 k = k + 1 := by simp [nextCentre]; omega
    rw [e] at a2
    rw [if_pos (by decide)] at a4
    have hd : x.s.dec = (true, ⟨((k + 1 : Nat) : Int), 0, (ds.length : Int) - 1, 1⟩) := by
      simp only [Sweeper.dec, hs]; rw [if_neg (by omega)]; simp
    have hk : x.s.k = k := by rw [hs]
    have hdk : x.s.dk = 1 := by rw [hs]
    rw [twoSweep, hd, hk, hdk, b1, Option.bind_some, b2, Option.bind_some]
    simp only
    rw [if_neg (by simp [Sweeper.isLast]; omega)]
    obtain ⟨y, h1, h2⟩ := ih (k := k + 1) (by omega) (x := ⟨P', x.lf.propagate (site P' k) 1, ⟨((k + 1 : Nat) : Int), 0, (ds.length : Int) - 1, 1⟩, x.lost + lost⟩) rfl
      ⟨by omega, a1, a2⟩
      (by
        intro j hj
        by_cases hjk : j = k
        · rw [hjk]; exact a4
        · simp only; rw [a5 j hjk (by omega)]; exact hlo j (by omega))
      (by
        intro j hj
        by_cases hjk : j = k
        · rw [hjk]; exact a6
        · simp only; rw [a5 j hjk (by omega)]; exact hb j (by omega)) (by simp [pairOf])
    refine ⟨y, h1, h2.trans ?_ ?_⟩
    · rw [hs]
    · simp only; linarith

theorem bonds_left {ds : List Nat} {D p : Nat} {P P' : List (Tensor K)} (h : WF 1 P ds 1) (h' : WF 1 P' ds 1) (hp1 : p + 1 < ds.length)
    (hb : ∀ j, p < j → j + 1 < ds.length → BondOk D (site P j)) (ho : ∀ j, j ≠ p → j ≠ p + 1 → site P' j = site P j) (hp : BondOk D (site P' p)) :
    ∀ j, p ≤ j → j + 1 < ds.length → BondOk D (site P' j) := by
  intro j hj hj2
  by_cases hjk : j = p
  · rw [hjk]; exact hp
  · by_cases hj1 : j = p + 1
    · obtain ⟨a, c, b, k1, k2, k3, k4, -⟩ := WF.aroundPair h (p := p) (by omega)
      obtain ⟨g, g1, g2, g3, g4⟩ := chain_dims h' h (p := p) (by omega) ho k1 k4
      have := hb j (by omega) hj2
      intro hD
      rw [hj1, dim2_of g2, ← dim2_of k3, ← hj1]
      exact this hD
    · rw [ho j hjk (by omega)]; exact hb j (by omega) hj2

theorem two_left0 {svd : Tensor K → SvdRes K} (hg : GoodSvd svd) (eps : ℝ) {dflt : ℝ} (hd0 : 0 < dflt) {ds : List Nat} {w : List K}
    {Q : List (List (Tensor K))} (hne : Q ≠ []) (hQ : ∀ b ∈ Q, WF 1 b ds 1) (D : Nat) {tol : ℝ} (htol : tol ≠ 0) {k : Nat}
    {x : Sim K} (hs : x.s = ⟨((k + 1 : Nat) : Int), (ds.length : Int) - 1, 0, -1⟩) (hc : LWeak ds w Q x.P x.lf (k + 1))
    (hhi : ∀ j, k + 1 < j → j < ds.length → RightIso (site x.P j))
    (hb : ∀ j, k < j → j + 1 < ds.length → BondOk D (site x.P j)) :
    ∃ y, twoSweep svd eps dflt D tol (k + 2) x = some y ∧ Swept0 ds w Q D x y := by
  induction k generalizing x with
  | zero =>
    have hlt := hc.lt
    obtain ⟨v, P', lost, b1, b2, a1, a2, a3, a4, a5, a6⟩ := two_core hg eps hd0 hne hQ hc.lt hc.wf hc.l (-1) (p := 0) (by simp [pairOf]) (by omega)
      (Or.inr (by omega)) (fun j h0 => by omega) (fun j h0 h1 => hhi j (by omega) h1) D htol
    have e : nextCentre ds.length (-1) (0 + 1) = 0 := by simp [nextCentre]
    rw [e] at a1 a4
    have hd : x.s.dec = (true, ⟨0, (ds.length : Int) - 1, 0, -1⟩) := by
      simp only [Sweeper.dec, hs]; rw [if_neg (by omega)]; simp
    have hk : x.s.k = ((0 + 1 : Nat) : Int) := by rw [hs]
    have hdk : x.s.dk = -1 := by rw [hs]
    rw [twoSweep, hd, hk, hdk, b1, Option.bind_some, b2, Option.bind_some]
    simp only
    rw [if_pos (by simp [Sweeper.isLast])]
    refine ⟨_, rfl, ⟨?_, ?_, ?_, ?_, ?_⟩⟩
    · rw [hs]
    · simpa using a1
    · simp only; linarith
    · simpa using a4
    · intro j hj
      exact bonds_left hc.wf a1.wf (by omega) hb a5 a6 j (by omega) hj
  | succ k ih =>
    have hlt := hc.lt
    obtain ⟨v, P', lost, b1, b2, a1, a2, a3, a4, a5, a6⟩ := two_weak hg eps hd0 hne hQ hc.lt hc.wf hc.l (-1) (p := k + 1) (by simp [pairOf]) (by omega)
      (Or.inr (by omega)) D htol
    have e : nextCentre ds.length (-1) (k + 1 + 1) = k + 1 := by simp [nextCentre]
    rw [e] at a2
    rw [if_neg (by decide)] at a4
    have hd : x.s.dec = (true, ⟨((k + 1 : Nat) : Int), (ds.length : Int) - 1, 0, -1⟩) := by
      simp only [Sweeper.dec, hs]; rw [if_neg (by omega)]; simp
    have hk : x.s.k = ((k + 1 + 1 : Nat) : Int) := by rw [hs]
    have hdk : x.s.dk = -1 := by rw [hs]
    rw [twoSweep, hd, hk, hdk, b1, Option.bind_some, b2, Option.bind_some]
    simp only
    rw [if_neg (by simp [Sweeper.isLast]; omega)]
    obtain ⟨y, h1, h2⟩ := ih (x := ⟨P', x.lf.propagate (site P' (k + 1 + 1)) (-1), ⟨((k + 1 : Nat) : Int), (ds.length : Int) - 1, 0, -1⟩, x.lost + lost⟩) rfl
      ⟨by omega, a1, a2⟩
      (by
        intro j hj hj2
        by_cases hjk : j = k + 1 + 1
        · rw [hjk]; exact a4
        · simp only; rw [a5 j (by omega) (by omega)]; exact hhi j (by omega) hj2)
      (fun j hj hj2 => bonds_left hc.wf a1 (by omega) hb a5 a6 j (by omega) hj2)
    refine ⟨y, h1, h2.trans ?_ ?_⟩
    · rw [hs]
    · simp only; linarith

end MPS.Obc
