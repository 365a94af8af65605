import Verif.ObcSpec
import Verif.MinimizerLemmas5
import Verif.Props.FormProps

set_option linter.unusedSectionVars false
set_option linter.unusedSimpArgs false

namespace MPS.Obc
open MPS Tensor Form Minim
variable {K : Type} [RCLike K]

theorem sumCfg_sub (ds : List Nat) (F G : List Nat → ℝ) : sumCfg ds (fun s => F s - G s) = sumCfg ds F - sumCfg ds G := by
  have h := sumCfg_add ds (fun s => F s - G s) G
  simp only [sub_add_cancel] at h
  linarith

theorem sumCfg_re (ds : List Nat) (F : List Nat → K) : RCLike.re (sumCfg ds F) = sumCfg ds fun s => RCLike.re (F s) := by
  induction ds generalizing F with
  | nil => simp
  | cons d ds ih => simp [sumCfg_cons, ih]

theorem norm_sub_expand (a b : K) : ‖a - b‖ ^ 2 = ‖a‖ ^ 2 + ‖b‖ ^ 2 - 2 * RCLike.re (star a * b) := by
  have h1 : ∀ x : K, ‖x‖ ^ 2 = RCLike.re (star x * x) := by
    intro x
    rw [RCLike.star_def, RCLike.conj_mul]
    norm_cast
  have h2 : RCLike.re (star b * a) = RCLike.re (star a * b) := by
    have : star b * a = star (star a * b) := by rw [star_mul, star_star]
    rw [this, RCLike.star_def, RCLike.conj_re]
  rw [h1, h1 a, h1 b, star_sub]
  have : (star a - star b) * (a - b) = star a * a + star b * b - star a * b - star b * a := by ring
  rw [this]
  simp only [map_add, map_sub, h2]
  ring

theorem dist_expand (ds : List Nat) (x y : List Nat → K) :
    sumCfg ds (fun s => ‖x s - y s‖ ^ 2) =
      sumCfg ds (fun s => ‖x s‖ ^ 2) + sumCfg ds (fun s => ‖y s‖ ^ 2) - 2 * RCLike.re (sumCfg ds fun s => star (x s) * y s) := by
  rw [sumCfg_re, ← sumCfg_mul_left, ← sumCfg_add, ← sumCfg_sub]
  exact sumCfg_congr fun s _ => norm_sub_expand _ _

/-- distances in the space of the tensors of one or two sites -/
theorem dist_core {ds dd : List Nat} {q : List Nat → K} {φ : List (Tensor K)} {X Y : List Nat → K}
    (h1 : MPS.inner ds q (amp φ) = sumCfg dd fun I => star (X I) * Y I)
    (h2 : normSq ds φ = sumCfg dd fun I => ‖Y I‖ ^ 2) :
    distTo ds q φ = normSqOf ds q - sumCfg dd (fun I => ‖X I‖ ^ 2) + sumCfg dd fun I => ‖X I - Y I‖ ^ 2 := by
  unfold distTo normSqOf
  unfold normSq at h2
  unfold MPS.inner at h1
  rw [dist_expand, dist_expand, h1, h2]
  ring

/-- the state of the program: canonical around site `k`, with a linear form that belongs to the state -/
structure LCent (ds : List Nat) (w : List K) (Q : List (List (Tensor K))) (P : List (Tensor K)) (lf : LForm K) (k : Nat) : Prop where
  lt : k < ds.length
  wf : WF 1 P ds 1
  l : LGood ds w Q lf (P.take k, P.drop (k + 1))
  lo : ∀ j < k, LeftIso (site P j)
  hi : ∀ j, k < j → j < ds.length → RightIso (site P j)

/-- the linear form after a step -/
theorem move_form {ds : List Nat} {w : List K} {Q : List (List (Tensor K))} (hne : Q ≠ []) (hQ : ∀ b ∈ Q, WF 1 b ds 1) {lf : LForm K}
    {φ χ : List (Tensor K)} {k : Nat} (hk : k < ds.length) (h1 : φ.length = ds.length) (h2 : χ.length = ds.length) (step : Int)
    (hq : LGood ds w Q lf (φ.take k, φ.drop (k + 1)))
    (hs : ∀ j, j ≠ k → j ≠ nextCentre ds.length step k → site χ j = site φ j) :
    LGood ds w Q (lf.propagate (site χ k) step) (χ.take (nextCentre ds.length step k), χ.drop (nextCentre ds.length step k + 1)) := by
  have hb : ∀ b ∈ Q, b.length = ds.length := fun b hb => (hQ b hb).length
  by_cases hst : step > 0
  · have := hq.move hb hne (.right (site χ k))
    have e : lf.propagate (site χ k) step = lf.move (.right (site χ k)) := by
      simp only [LForm.move, LForm.propagate, hst, if_true, show (1 : Int) > 0 by decide]
    rw [e]
    by_cases hl : k + 1 = ds.length
    · have en : nextCentre ds.length step k = k := by simp [nextCentre, hst, hl]
      rw [en] at hs ⊢
      rw [Move.after, if_pos (by simp; omega)] at this
      rw [take_ext (l := χ) (l' := φ) (by omega) (by omega) (fun j hj => hs j (by omega) (by omega)),
        drop_ext (l := χ) (l' := φ) (k := k + 1) (by omega) (fun j hj hj2 => hs j (by omega) (by omega))]
      exact this
    · have en : nextCentre ds.length step k = k + 1 := by simp [nextCentre, hst, hl]
      rw [en] at hs ⊢
      rw [Move.after, if_neg (by simp; omega)] at this
      rw [take_succ_site (by omega), take_ext (l := χ) (l' := φ) (by omega) (by omega) (fun j hj => hs j (by omega) (by omega)),
        drop_ext (l := χ) (l' := φ) (k := k + 1 + 1) (by omega) (fun j hj hj2 => hs j (by omega) (by omega))]
      simpa [List.tail_drop] using this
  · have := hq.move hb hne (.left (site χ k))
    have e : lf.propagate (site χ k) step = lf.move (.left (site χ k)) := by
      simp only [LForm.move, LForm.propagate, hst, if_false, show ¬ (-1 : Int) > 0 by decide]
    rw [e]
    by_cases hl : k = 0
    · have en : nextCentre ds.length step k = k := by simp [nextCentre, hst, hl]
      rw [en] at hs ⊢
      rw [Move.after, if_pos (by simp [hl])] at this
      rw [take_ext (l := χ) (l' := φ) (by omega) (by omega) (fun j hj => hs j (by omega) (by omega)),
        drop_ext (l := χ) (l' := φ) (k := k + 1) (by omega) (fun j hj hj2 => hs j (by omega) (by omega))]
      exact this
    · obtain ⟨k, rfl⟩ : ∃ k', k = k' + 1 := ⟨k - 1, by omega⟩
      have en : nextCentre ds.length step (k + 1) = k := by simp [nextCentre, hst]
      rw [en] at hs ⊢
      rw [Move.after, if_neg (by intro hh; have := congrArg List.length hh; simp only [List.length_take, List.length_nil] at this; omega)] at this
      have e1 : χ.drop (k + 1) = site χ (k + 1) :: φ.drop (k + 1 + 1) := by
        rw [drop_site (by omega), drop_ext (l := χ) (l' := φ) (k := k + 1 + 1) (by omega) (fun j hj hj2 => hs j (by omega) (by omega))]
      rw [e1, take_ext (l := χ) (l' := φ) (by omega) (by omega) (fun j hj => hs j (by omega) (by omega))]
      have e2 : (φ.take (k + 1)).dropLast = φ.take k := by
        rw [take_succ_site (by omega)]; simp
      simp only [e2] at this
      exact this

/-- `set_canonical` with truncation, on a state which is canonical around `k`: the result is the state with another tensor at
`k`, at the distance lost -/
theorem store_trunc {svd : Tensor K → SvdRes K} (hg : GoodSvd svd) (eps : ℝ) {dflt : ℝ} (hd0 : 0 < dflt) {φ : List (Tensor K)}
    {ds : List Nat} (h : WF 1 φ ds 1) {k : Nat} (hk : k < ds.length) (step : Int)
    (hl : ∀ j < k, LeftIso (site φ j)) (hr : ∀ j, k < j → j < ds.length → RightIso (site φ j)) :
    let r := setCanonical svd eps dflt φ k (site φ k) step true
    WF 1 r.1 ds 1 ∧
    (∃ Z : Tensor K, Z.dims = (site φ k).dims ∧ sumCfg Z.dims (fun I => ‖(site φ k).get I - Z.get I‖ ^ 2) = r.2 ∧
      ∀ s, IsCfg ds s → amp r.1 s = amp (φ.set k Z) s) ∧
    (∀ j < nextCentre ds.length step k, LeftIso (site r.1 j)) ∧
    (∀ j, nextCentre ds.length step k < j → j < ds.length → RightIso (site r.1 j)) ∧
    (∀ j, j ≠ k → j ≠ nextCentre ds.length step k → site r.1 j = site φ j) ∧
    (nextCentre ds.length step k = k → r = (φ, 0)) := by
  intro r
  have hlen := h.length
  have hne : φ ≠ [] := by rintro rfl; simp at hlen; omega
  obtain ⟨a, b, w1, w2, w3, p1, p2, p3⟩ := WF.around h hk
  have hamp : ∀ {χ : List (Tensor K)} {Z : Tensor K}, Z.dims = (site φ k).dims → WF 1 χ ds 1 →
      (∀ s, IsCfg ds s → ∀ x < 1, ∀ y, path χ s x y = path (φ.set k Z) s x y) →
      ∀ s, IsCfg ds s → amp χ s = amp (φ.set k Z) s := by
    intro χ Z hZ hχ hp s hs
    have hne' : χ ≠ [] := by rintro rfl; have := hχ.length; simp at this; omega
    have hwZ : WF 1 (φ.set k Z) ds 1 := WF.replace hk hlen w1 w3 (by rw [hZ, w2]) p1 p2 p3
    have hne2 : φ.set k Z ≠ [] := by intro h0; have := hwZ.length; rw [h0] at this; simp at this; omega
    rw [amp_of_WF hχ hne', amp_of_WF hwZ hne2, Finset.sum_range_one, Finset.sum_range_one, hp s hs 0 (by omega)]
  have hsame : ∃ Z : Tensor K, Z.dims = (site φ k).dims ∧ sumCfg Z.dims (fun I => ‖(site φ k).get I - Z.get I‖ ^ 2) = 0 ∧
      ∀ s, IsCfg ds s → amp φ s = amp (φ.set k Z) s :=
    ⟨site φ k, rfl, by simp, fun s _ => by rw [Props.set_site_self φ k (by omega)]⟩
  by_cases hs : step > 0
  · by_cases hl1 : k + 1 = ds.length
    · have e : nextCentre ds.length step k = k := by simp [nextCentre, hs, hl1]
      have er : r = (φ, 0) := by
        simp only [r, setCanonical, hs, if_true, hlen, hl1]
        rw [Props.set_site_self φ k (by omega)]
      rw [e, er]
      exact ⟨h, hsame, hl, hr, fun _ _ _ => rfl, fun _ => rfl⟩
    · have e : nextCentre ds.length step k = k + 1 := by simp [nextCentre, hs, hl1]
      have er : r = setCanonical svd eps dflt φ k (site φ k) 1 true := by
        simp only [r, setCanonical, hs, if_true, show (1 : Int) > 0 by decide]
      obtain ⟨c1, c2, c3, -, -, -, Z, z1, z2, z3⟩ := setCanonical_right_full hg eps hd0.le h k (by omega) true (Or.inl (by rw [effTol_default]; exact hd0))
      rw [← er] at c1 c2 c3 z2 z3
      rw [e]
      refine ⟨c1, ⟨Z, z1, z2, hamp z1 c1 z3⟩, ?_, ?_, fun j h1 h2 => c3 j h1 h2, fun hh => by omega⟩
      · intro j hj
        by_cases hjk : j = k
        · rw [hjk]; exact c2
        · rw [c3 j hjk (by omega)]; exact hl j (by omega)
      · intro j hj hj2
        rw [c3 j (by omega) (by omega)]; exact hr j (by omega) hj2
  · by_cases hk0 : k = 0
    · have e : nextCentre ds.length step k = k := by simp [nextCentre, hs, hk0]
      have er : r = (φ, 0) := by
        simp only [r, setCanonical, hs, if_false, hk0, if_true]
        rw [Props.set_site_self φ 0 (by omega)]
      rw [e, er]
      exact ⟨h, hsame, hl, hr, fun _ _ _ => rfl, fun _ => rfl⟩
    · obtain ⟨k, rfl⟩ : ∃ k', k = k' + 1 := ⟨k - 1, by omega⟩
      have e : nextCentre ds.length step (k + 1) = k := by simp [nextCentre, hs]
      obtain ⟨c1, c2, c3, -, -, -, Z, z1, z2, z3⟩ := setCanonical_left_full hg eps hd0.le h k (by omega) true step (by omega)
        (Or.inl (by rw [effTol_default]; exact hd0))
      rw [e]
      refine ⟨c1, ⟨Z, z1, z2, hamp z1 c1 z3⟩, ?_, ?_, fun j h1 h2 => c3 j h2 h1, fun hh => by omega⟩
      · intro j hj
        rw [c3 j (by omega) (by omega)]; exact hl j (by omega)
      · intro j hj hj2
        by_cases hjk : j = k + 1
        · rw [hjk]; exact c2
        · rw [c3 j (by omega) hjk]; exact hr j (by omega) hj2

/-- distances of the states that differ at `k`, from the vector of the linear form -/
theorem single_geometry {ds : List Nat} {w : List K} {Q : List (List (Tensor K))} (hne : Q ≠ []) (hQ : ∀ b ∈ Q, WF 1 b ds 1)
    {P : List (Tensor K)} {lf : LForm K} {k : Nat} (hc : LCent ds w Q P lf k) :
    (conj lf.singleSiteVector).dims = (site P k).dims ∧
    (∀ Y : Tensor K, Y.dims = (site P k).dims → WF 1 (P.set k Y) ds 1 ∧
      normSq ds (P.set k Y) = sumCfg Y.dims (fun I => ‖Y.get I‖ ^ 2) ∧
      MPS.inner ds (superpose w Q) (amp (P.set k Y)) = sumCfg Y.dims (fun I => star ((conj lf.singleSiteVector).get I) * Y.get I) ∧
      distTo ds (superpose w Q) (P.set k Y) = normSqOf ds (superpose w Q) - sumCfg Y.dims (fun I => ‖(conj lf.singleSiteVector).get I‖ ^ 2) +
        sumCfg Y.dims fun I => ‖(conj lf.singleSiteVector).get I - Y.get I‖ ^ 2) := by
  obtain ⟨hk, hw, hl, hlo, hhi⟩ := hc
  have hlen := hw.length
  obtain ⟨a, b, w1, w2, w3, p1, p2, p3⟩ := WF.around hw hk
  have hlt : (P.take k).length = k := by simp; omega
  obtain ⟨-, v1, v2⟩ := Props.lgood_single hne hQ hl (D := a) (E := b) (by rw [hlt]; exact w1) (by rw [hlt]; exact w3)
  rw [hlt] at v1 v2
  have hXd : (conj lf.singleSiteVector).dims = [a, ds.getD k 0, b] := v1
  refine ⟨by rw [hXd, w2], fun Y hY => ?_⟩
  rw [w2] at hY
  have hwY : WF 1 (P.set k Y) ds 1 := WF.replace hk hlen w1 w3 hY p1 p2 p3
  have hsY : site (P.set k Y) k = Y := by rw [site_set _ _ _ _ (by omega), if_pos rfl]
  have n1 : normSq ds (P.set k Y) = sumCfg Y.dims (fun I => ‖Y.get I‖ ^ 2) := by
    rw [normSq_at hwY hk, hsY]
    · intro j hj; rw [site_set _ _ _ _ (by omega), if_neg (by omega)]; exact hlo j hj
    · intro j hj hj2; rw [site_set _ _ _ _ (by omega), if_neg (by omega)]; exact hhi j hj hj2
  have i1 : MPS.inner ds (superpose w Q) (amp (P.set k Y)) = sumCfg Y.dims (fun I => star ((conj lf.singleSiteVector).get I) * Y.get I) := by
    rw [set_split (by omega), ← v2 Y hY, hY]
    exact sumCfg_congr fun I _ => by simp [conj]
  exact ⟨hwY, n1, i1, dist_core i1 n1⟩

/-- one step of the single-site algorithm -/
theorem single_step {svd : Tensor K → SvdRes K} (hg : GoodSvd svd) (eps : ℝ) {dflt : ℝ} (hd0 : 0 < dflt) {ds : List Nat} {w : List K}
    {Q : List (List (Tensor K))} (hne : Q ≠ []) (hQ : ∀ b ∈ Q, WF 1 b ds 1) {P : List (Tensor K)} {lf : LForm K} {k : Nat}
    (hc : LCent ds w Q P lf k) (step : Int) :
    let c := setCanonical svd eps dflt P k (conj lf.singleSiteVector) step true
    LCent ds w Q c.1 (lf.propagate (site c.1 k) step) (nextCentre ds.length step k) ∧
    distTo ds (superpose w Q) c.1 ≤ distTo ds (superpose w Q) P + c.2 ∧ 0 ≤ c.2 ∧
    (nextCentre ds.length step k = k → Best ds (superpose w Q) c.1 k) := by
  intro c
  obtain ⟨g1, g2⟩ := single_geometry hne hQ hc
  obtain ⟨hk, hw, hl, hlo, hhi⟩ := hc
  have hlen := hw.length
  set X := conj lf.singleSiteVector with hX
  set q := superpose w Q with hq
  obtain ⟨wX, nX, iX, dX⟩ := g2 X g1
  obtain ⟨-, nP, iP, dP⟩ := g2 (site P k) rfl
  rw [Props.set_site_self P k (by omega)] at nP iP dP
  set φ := P.set k X with hφ
  have hsX : site φ k = X := by rw [hφ, site_set _ _ _ _ (by omega), if_pos rfl]
  have hlo' : ∀ j < k, LeftIso (site φ j) := by
    intro j hj; rw [hφ, site_set _ _ _ _ (by omega), if_neg (by omega)]; exact hlo j hj
  have hhi' : ∀ j, k < j → j < ds.length → RightIso (site φ j) := by
    intro j hj hj2; rw [hφ, site_set _ _ _ _ (by omega), if_neg (by omega)]; exact hhi j hj hj2
  have hcan : setCanonical svd eps dflt φ k (site φ k) step true = c := by
    exact setCanonical_set svd eps dflt P k (by omega) X step true
  have st := store_trunc hg eps hd0 wX hk step hlo' hhi'
  rw [hcan] at st
  obtain ⟨s1, ⟨Z, z1, z2, z3⟩, s3, s4, s5, s6⟩ := st
  rw [hsX] at z1 z2
  have hnc : nextCentre ds.length step k < ds.length := by
    unfold nextCentre; split_ifs <;> omega
  have hZd : distTo ds q c.1 = distTo ds q φ + c.2 := by
    obtain ⟨-, -, -, dZ⟩ := g2 Z (by rw [z1, g1])
    have e1 : distTo ds q c.1 = distTo ds q (P.set k Z) := by
      unfold distTo
      refine sumCfg_congr fun s hs => ?_
      rw [z3 s hs, hφ, List.set_set]
    rw [e1, dZ, dX, ← z2, z1]
    simp
  have hle : distTo ds q φ ≤ distTo ds q P := by
    rw [dX, dP, g1]
    have : 0 ≤ sumCfg (site P k).dims fun I => ‖X.get I - (site P k).get I‖ ^ 2 := sumCfg_nonneg _ _ fun _ _ => by positivity
    simpa using this
  have hc2 : 0 ≤ c.2 := by rw [← z2]; exact sumCfg_nonneg _ _ fun _ _ => by positivity
  refine ⟨⟨hnc, s1, ?_, s3, s4⟩, by rw [hZd]; linarith, hc2, ?_⟩
  · exact move_form hne hQ (φ := P) (χ := c.1) hk hlen s1.length step hl (fun j h1 h2 => by
      rw [s5 j h1 h2, hφ, site_set _ _ _ _ (by omega), if_neg h1])
  · intro hn
    have hcφ : c.1 = φ := by rw [s6 hn]
    rw [hcφ]
    refine ⟨?_, ?_, ?_⟩
    · rw [dX, nX]; simp
    · rw [iX, nX, sumCfg_ofReal]
      exact sumCfg_congr fun I _ => by rw [ofReal_normSq]
    · intro Y hY
      rw [hsX] at hY ⊢
      obtain ⟨-, -, -, dY⟩ := g2 Y (by rw [hY, g1])
      rw [show φ.set k Y = P.set k Y by rw [hφ, List.set_set], dY, dX, hY]
      simp

end MPS.Obc
