import Verif.DmrgLemmas5
import Verif.ObcLemmas
import Mathlib.Data.List.GetD

/-! One step of the single-site algorithm. -/

set_option linter.unusedSectionVars false
set_option linter.unusedSimpArgs false

namespace MPS.Dmrg
open MPS Tensor Form Minim
variable {K : Type} [RCLike K]

theorem solve_site {eigs : Eigs K} (he : GoodEigs eigs) {ds : List Nat} {P A : List (Tensor K)} (h : WF 1 P ds 1) {H : Ham K} (hH : HamOk ds H)
    {k a b : Nat} (hk : k < ds.length) (hX : (site P k).dims = [a, ds.getD k 0, b]) (hl : ∀ j < k, LeftIso (site P j))
    (hr : ∀ j, k < j → j < ds.length → RightIso (site P j)) (hAl : 0 < k → LGood ds H P A (k - 1))
    (hAr : k + 1 < ds.length → RGood ds H P A (k + 1)) (dk : Int) (P0 : Tensor K) {mul : Tensor K → Tensor K}
    (hmul : mul = denseMul (opLeft H P A k dk) (opRight H P A k dk) a b ∨ mul = arpackMul (opLeft H P A k dk) (opRight H P A k dk) a (ds.getD k 0) b)
    (hok : (eigs mul [a, ds.getD k 0, b].prod P0).ok = true) :
    let r := eigs mul [a, ds.getD k 0, b].prod P0
    let X := reshape r.P [a, ds.getD k 0, b]
    WF 1 (P.set k X) ds 1 ∧ normSq ds (P.set k X) = 1 ∧ hamExp ds H (P.set k X) (P.set k X) = ((RCLike.re r.E : ℝ) : K) ∧
    ∀ Y : Tensor K, Y.dims = [a, ds.getD k 0, b] → RCLike.re r.E * normSq ds (P.set k Y) ≤ hamEnergy ds H (P.set k Y) := by
  intro r X
  have hlen := h.length
  obtain ⟨a', b', h1, hd, h2, ha, hd0, hb⟩ := WF.around h hk
  rw [hd] at hX
  simp only [List.cons.injEq, and_true, true_and] at hX
  obtain ⟨rfl, rfl⟩ := hX
  obtain ⟨F, G, o1, o2, o3, o4, o5⟩ := ops_spec h hH hk hd hl hr hAl hAr dk
  set M := heff (opLeft H P A k dk) (opRight H P A k dk) a' b' with hM
  have hpos : ∀ n ∈ [a', ds.getD k 0, b'], 0 < n := by intro n hn; simp at hn; rcases hn with rfl | rfl | rfl <;> assumption
  have hget : ∀ {u i x v j y}, u < a' → i < ds.getD k 0 → x < b' → v < a' → j < ds.getD k 0 → y < b' →
      M.get [flat [a', ds.getD k 0, b'] [u, i, x], flat [a', ds.getD k 0, b'] [v, j, y]] = effM ds H P k u i x v j y :=
    fun hu hi hx hv hj hy => by rw [hM, heff_get o1 o2 hu hi hx hv hj hy, o5]
  have hMne : M.isEmpty = false := by
    have : M.dims = [a' * ds.getD k 0 * b', a' * ds.getD k 0 * b'] := by
      rw [hM]; unfold heff; simp only [Tensor.add]
      rw [Props.kron2_dims o1.1 (show (eye b' : Tensor K).dims = [b', b'] from rfl)]
    simp [Tensor.isEmpty, Tensor.size, this]
    refine ⟨⟨?_, ?_⟩, ?_⟩ <;> simp only [List.getD_eq_getElem?_getD] at hd0 <;> omega
  have hherm : ∀ I J, IsCfg [a', ds.getD k 0, b'] I → IsCfg [a', ds.getD k 0, b'] J →
      star (M.get [flat [a', ds.getD k 0, b'] I, flat [a', ds.getD k 0, b'] J]) = M.get [flat [a', ds.getD k 0, b'] J, flat [a', ds.getD k 0, b'] I] := by
    intro I J hI hJ
    obtain ⟨u, i, x, rfl, hu, hi, hx⟩ := cfg3 hI
    obtain ⟨v, j, y, rfl, hv, hj, hy⟩ := cfg3 hJ
    rw [hM, heff_get o1 o2 hu hi hx hv hj hy, heff_get o1 o2 hv hj hy hu hi hx, star_add, star_mul', star_mul', star_delta, star_delta,
      o3 u i v j hu hi hv hj, o4 i x j y hi hx hj hy]
  have hA : ∀ X : Tensor K, X.dims = [[a', ds.getD k 0, b'].prod] → (mul X).dims = [[a', ds.getD k 0, b'].prod] ∧
      ∀ I, IsCfg [a', ds.getD k 0, b'] I → (mul X).get [flat [a', ds.getD k 0, b'] I] =
      sumCfg [a', ds.getD k 0, b'] fun J => M.get [flat [a', ds.getD k 0, b'] I, flat [a', ds.getD k 0, b'] J] * X.get [flat [a', ds.getD k 0, b'] J] := by
    intro X hX
    rcases hmul with rfl | rfl
    · exact dense_spec o1 o2 hpos hX
    · exact arpack_spec o1 o2 hX
  obtain ⟨c1, c2, c3⟩ := eig_core he hpos hMne hherm hA P0 hok
  have hw : ∀ Y : Tensor K, Y.dims = [a', ds.getD k 0, b'] → WF 1 (P.set k Y) ds 1 := fun Y hY =>
    WF.replace hk hlen h1 h2 hY ha hd0 hb
  have hnorm : ∀ Y : Tensor K, Y.dims = [a', ds.getD k 0, b'] → normSq ds (P.set k Y) = sumCfg [a', ds.getD k 0, b'] fun I => ‖Y.get I‖ ^ 2 := by
    intro Y hY
    rw [normSq_at (hw Y hY) hk, site_set _ _ _ _ (by omega), if_pos rfl, hY]
    · intro j hj; rw [site_set _ _ _ _ (by omega), if_neg (by omega)]; exact hl j hj
    · intro j hj hj2; rw [site_set _ _ _ _ (by omega), if_neg (by omega)]; exact hr j hj hj2
  have hform : ∀ Y : Tensor K, Y.dims = [a', ds.getD k 0, b'] → hamExp ds H (P.set k Y) (P.set k Y) =
      matForm M [a', ds.getD k 0, b'] [a', ds.getD k 0, b'] Y.get Y.get := by
    intro Y hY
    unfold hamExp
    rw [ham_at h hH.pos H hk hd hl hr hY hY]
    unfold matForm
    rw [hMne, if_neg (by simp)]
    simp only [sumCfg_cons, sumCfg_nil]
    refine Finset.sum_congr rfl fun u hu => Finset.sum_congr rfl fun i hi => Finset.sum_congr rfl fun x hx => Finset.sum_congr rfl fun v hv =>
      Finset.sum_congr rfl fun j hj => Finset.sum_congr rfl fun y hy => ?_
    rw [hget (Finset.mem_range.1 hu) (Finset.mem_range.1 hi) (Finset.mem_range.1 hx) (Finset.mem_range.1 hv) (Finset.mem_range.1 hj) (Finset.mem_range.1 hy)]
  refine ⟨hw X rfl, ?_, ?_, fun Y hY => ?_⟩
  · rw [hnorm X rfl]; exact c1
  · rw [hform X rfl]; exact c2
  · have := c3 Y.get
    rw [hnorm Y hY]
    refine le_trans this (le_of_eq ?_)
    unfold hamEnergy
    rw [hform Y hY]

/-- the object between two steps: canonical around site `k`, with matrices that belong to the state -/
structure Cent (ds : List Nat) (H : Ham K) (d : St K) (k : Nat) : Prop where
  lt : k < ds.length
  wf : WF 1 d.P ds 1
  len : d.A.length = ds.length
  lo : ∀ j < k, LeftIso (site d.P j)
  hi : ∀ j, k < j → j < ds.length → RightIso (site d.P j)
  lg : ∀ j < k, LGood ds H d.P d.A j
  rg : ∀ j, k < j → j < ds.length → RGood ds H d.P d.A j

/-- `d.P` is at the squared distance `d.lost` from a normalised state of energy `E`, whose energy cannot be lowered by changing one of its tensors -/
structure Best (ds : List Nat) (H : Ham K) (d : St K) (E : ℝ) : Prop where
  near : ∃ χ k, WF 1 χ ds 1 ∧ k < ds.length ∧ normSq ds χ = 1 ∧ hamExp ds H χ χ = (E : K) ∧ distSq ds χ d.P = d.lost ∧
    ∀ Y : Tensor K, Y.dims = (site χ k).dims → E * normSq ds (χ.set k Y) ≤ hamEnergy ds H (χ.set k Y)
  pos : 0 ≤ d.lost

theorem amp_set_sub {ds : List Nat} {P : List (Tensor K)} {k a b : Nat} (hlen : P.length = ds.length) (hk : k < ds.length)
    (h1 : WF 1 (P.take k) (ds.take k) a) (h2 : WF b (P.drop (k + 1)) (ds.drop (k + 1)) 1) (ha : 0 < a) (hd : 0 < ds.getD k 0) (hb : 0 < b)
    {X Z W : Tensor K} (hX : X.dims = [a, ds.getD k 0, b]) (hZ : Z.dims = [a, ds.getD k 0, b]) (hW : W.dims = [a, ds.getD k 0, b])
    (h : ∀ I, IsCfg [a, ds.getD k 0, b] I → W.get I = X.get I - Z.get I) {s : List Nat} (hs : IsCfg ds s) :
    amp (P.set k W) s = amp (P.set k X) s - amp (P.set k Z) s := by
  have e : ∀ {Y : Tensor K}, Y.dims = [a, ds.getD k 0, b] → amp (P.set k Y) s =
      ∑ x ∈ Finset.range a, path (P.take k) (s.take k) 0 x * ∑ y ∈ Finset.range b, Y.get [x, s.getD k 0, y] * path (P.drop (k + 1)) (s.drop (k + 1)) y 0 := by
    intro Y hY
    have hw : WF 1 (P.set k Y) ds 1 := WF.replace hk hlen h1 h2 hY ha hd hb
    have hne : P.set k Y ≠ [] := by intro h0; have := hw.length; rw [h0] at this; simp at this; omega
    have hsl : s.length = ds.length := hs.length
    have hs' : s = s.take k ++ (s.getD k 0 :: s.drop (k + 1)) := by
      rw [List.getD_eq_getElem _ _ (by omega : k < s.length), List.cons_getElem_drop_succ, List.take_append_drop]
    rw [amp_open hw hne, set_split (by omega) Y]
    conv_lhs => rw [hs']
    rw [path_append h1 (by simp; omega) (by omega)]
    refine Finset.sum_congr rfl fun x _ => ?_
    rw [path_cons, dim2_of hY]
  have hi : s.getD k 0 < ds.getD k 0 := by
    have hsl : s.length = ds.length := hs.length
    have := List.Forall₂.get hs (by omega : k < s.length) hk
    rw [List.getD_eq_getElem _ _ (by omega : k < s.length), List.getD_eq_getElem _ _ hk]
    simpa using this
  rw [e hW, e hX, e hZ, ← Finset.sum_sub_distrib]
  refine Finset.sum_congr rfl fun x hx => ?_
  rw [← mul_sub, ← Finset.sum_sub_distrib]
  congr 1
  refine Finset.sum_congr rfl fun y hy => ?_
  rw [h _ (.cons (Finset.mem_range.1 hx) (.cons hi (.cons (Finset.mem_range.1 hy) .nil)))]
  ring

theorem single_site {svd : Tensor K → SvdRes K} (hg : GoodSvd svd) (eps : ℝ) {dflt : ℝ} (hd0 : 0 < dflt) {eigs : Eigs K} (he : GoodEigs eigs)
    {ds : List Nat} {H : Ham K} (hH : HamOk ds H) (P0 : List (List (Tensor K))) {d : St K} {k : Nat} (hc : Cent ds H d k) {dk : Int}
    (hdk : k = 0 → dk > 0) {d' : St K} {E : ℝ} (hrun : singleSite svd eps dflt eigs H P0 d k dk = some (d', E)) :
    Cent ds H d' (nextCentre ds.length dk k) ∧ Best ds H d' E ∧ E * normSq ds d.P ≤ hamEnergy ds H d.P ∧ d'.total = d.total + d'.lost ∧
      (nextCentre ds.length dk k = k → d'.lost = 0) := by
  obtain ⟨hk, hw, hA, hlo, hhi, hlg, hrg⟩ := hc
  have hlen := hw.length
  obtain ⟨a, b, h1, hd, h2, ha, hdp, hb⟩ := WF.around hw hk
  have hsz : (site d.P k).size = [a, ds.getD k 0, b].prod := by simp only [Tensor.size, hd]
  unfold singleSite at hrun
  simp only [dim0_of hd, dim1_of hd, dim2_of hd, hsz] at hrun
  by_cases hloc : (H.loc k).isEmpty = true
  · rw [if_pos hloc] at hrun; exact absurd hrun (by simp)
  rw [if_neg hloc] at hrun
  obtain ⟨mul, hmul, hr⟩ : ∃ mul, (mul = denseMul (opLeft H d.P d.A k dk) (opRight H d.P d.A k dk) a b ∨
      mul = arpackMul (opLeft H d.P d.A k dk) (opRight H d.P d.A k dk) a (ds.getD k 0) b) ∧
      (if a * ds.getD k 0 * b ≤ 10 then eigs (denseMul (opLeft H d.P d.A k dk) (opRight H d.P d.A k dk) a b) [a, ds.getD k 0, b].prod
        (reshape (site d.P k) [[a, ds.getD k 0, b].prod]) else eigs (arpackMul (opLeft H d.P d.A k dk) (opRight H d.P d.A k dk) a (ds.getD k 0) b)
        [a, ds.getD k 0, b].prod (reshape (site d.P k) [[a, ds.getD k 0, b].prod])) =
      eigs mul [a, ds.getD k 0, b].prod (reshape (site d.P k) [[a, ds.getD k 0, b].prod]) := by
    by_cases hs : a * ds.getD k 0 * b ≤ 10
    · exact ⟨_, Or.inl rfl, if_pos hs⟩
    · exact ⟨_, Or.inr rfl, if_neg hs⟩
  simp only [hr] at hrun
  set r := eigs mul [a, ds.getD k 0, b].prod (reshape (site d.P k) [[a, ds.getD k 0, b].prod]) with hrr
  by_cases hok : r.ok = true
  swap
  · rw [if_neg hok] at hrun; exact absurd hrun (by simp)
  rw [if_pos hok] at hrun
  simp only [Option.some.injEq, Prod.mk.injEq] at hrun
  obtain ⟨hd', rfl⟩ := hrun
  obtain ⟨w1, w2, w3, w4⟩ := solve_site he hw hH hk hd hlo hhi (fun hk0 => hlg _ (by omega)) (fun hk1 => hrg _ (by omega) hk1) dk _ hmul hok
  simp only [← hrr] at w1 w2 w3 w4
  set X := reshape r.P [a, ds.getD k 0, b] with hX
  set φ := d.P.set k X with hφ
  have hsX : site φ k = X := by rw [hφ, site_set _ _ _ _ (by omega), if_pos rfl]
  have hXd : X.dims = [a, ds.getD k 0, b] := rfl
  have hso : ∀ j, j ≠ k → site φ j = site d.P j := fun j hj => by rw [hφ, site_set _ _ _ _ (by omega), if_neg hj]
  obtain ⟨s1, ⟨Z, z1, z2, z3⟩, s3, s4, s5, s6⟩ := Obc.store_trunc hg eps hd0 w1 hk dk (fun j hj => by rw [hso j (by omega)]; exact hlo j hj)
    (fun j hj hj2 => by rw [hso j (by omega)]; exact hhi j hj hj2)
  have hcan : setCanonical svd eps dflt φ k (site φ k) dk true = setCanonical svd eps dflt d.P k X dk true := by
    exact setCanonical_set svd eps dflt d.P k (by omega) X dk true
  rw [hcan] at s1 z2 z3 s3 s4 s5 s6
  set c := setCanonical svd eps dflt d.P k X dk true with hc
  have hstart : RCLike.re r.E * normSq ds d.P ≤ hamEnergy ds H d.P := by
    have := w4 (site d.P k) hd
    rwa [Props.set_site_self _ _ (by omega)] at this
  have hdist : distSq ds φ c.1 = c.2 := by
    rw [hsX] at z1 z2
    rw [hXd] at z1
    have hWd : (⟨[a, ds.getD k 0, b], fun I => X.get I - Z.get I⟩ : Tensor K).dims = [a, ds.getD k 0, b] := rfl
    set W : Tensor K := ⟨[a, ds.getD k 0, b], fun I => X.get I - Z.get I⟩ with hWdef
    have hw3 : WF 1 (d.P.set k W) ds 1 := WF.replace hk hlen h1 h2 hWd ha hdp hb
    have e : distSq ds φ c.1 = normSq ds (d.P.set k W) := by
      unfold distSq normSq
      refine sumCfg_congr fun s hs => ?_
      rw [z3 s hs, hφ, List.set_set, ← amp_set_sub hlen hk h1 h2 ha hdp hb hXd z1 hWd (fun I _ => rfl) hs]
    rw [e, normSq_at hw3 hk, site_set _ _ _ _ (by omega), if_pos rfl, hWd, ← z2, z1]
    · intro j hj; rw [site_set _ _ _ _ (by omega), if_neg (by omega)]; exact hlo j hj
    · intro j hj hj2; rw [site_set _ _ _ _ (by omega), if_neg (by omega)]; exact hhi j hj hj2
  have hP' : d'.P = c.1 := by rw [← hd']; split_ifs <;> rfl
  have hlost : d'.lost = c.2 := by rw [← hd']; split_ifs <;> rfl
  have hc2 : 0 ≤ c.2 := by rw [← z2]; exact sumCfg_nonneg _ _ fun s _ => by positivity
  refine ⟨?_, ⟨⟨φ, k, w1, hk, w2, w3, by rw [hP', hdist, hlost], fun Y hY => ?_⟩, by rw [hlost]; exact hc2⟩, hstart, by rw [← hd']; split_ifs <;> rfl,
    fun hn => by rw [hlost, s6 hn]⟩
  · have hcl : c.1.length = d.P.length := by rw [s1.length, hlen]
    by_cases hs : dk > 0
    · rw [if_pos hs] at hd'
      have hsame : ∀ l, l < k → site c.1 l = site d.P l := fun l hl => by
        rw [s5 l (by omega) (by unfold nextCentre; split_ifs <;> omega), hso l (by omega)]
      have hge : k ≤ nextCentre ds.length dk k := by unfold nextCentre; split_ifs <;> omega
      have hlt : nextCentre ds.length dk k < ds.length := by unfold nextCentre; split_ifs <;> omega
      rw [← hd']
      have hold : ∀ j < k, LGood ds H c.1 d.A j := fun j hj => (hlg j hj).congr hcl (by omega) (fun l hl => hsame l (by omega)) rfl
      refine ⟨hlt, s1, by simp [updateLeft, hA], s3, s4, fun j hj => ?_, fun j hj hj2 => ?_⟩
      · by_cases hjk : j = k
        · subst hjk
          obtain ⟨a2, b2, -, q2, -⟩ := WF.around s1 hk
          obtain ⟨m1, m2⟩ := leftMatrix_spec s1 hH hk q2 (fun l hl => s3 l (by omega)) (fun hk0 => hold _ (by omega))
          have es : site (d.A.set j (leftMatrix H c.1 d.A j)) j = leftMatrix H c.1 d.A j := by
            rw [site_set _ _ _ _ (by omega), if_pos rfl]
          change LGood ds H c.1 (d.A.set j (leftMatrix H c.1 d.A j)) j
          unfold LGood
          rw [es, dim2_of q2]
          exact ⟨m1, fun x y hx hy => ⟨(m2 x y hx hy).1, by rw [(m2 x y hx hy).1, (m2 y x hy hx).1]; exact (m2 x y hx hy).2⟩⟩
        · have hjk : j < k := by unfold nextCentre at hj; split_ifs at hj <;> omega
          refine (hold j hjk).congr rfl (by rw [hcl]; omega) (fun _ _ => rfl) ?_
          change site (d.A.set k _) j = _
          rw [site_set _ _ _ _ (by omega), if_neg (by omega)]
      · refine (hrg j (by omega) hj2).congr hcl (by omega) (fun l hl hl2 => ?_) ?_
        · change site c.1 l = _
          rw [s5 l (by omega) (by omega), hso l (by omega)]
        · change site (d.A.set k _) j = _
          rw [site_set _ _ _ _ (by omega), if_neg (by omega)]
    · rw [if_neg hs] at hd'
      have hk0 : k ≠ 0 := fun h0 => hs (hdk h0)
      have en : nextCentre ds.length dk k = k - 1 := by unfold nextCentre; rw [if_neg hs]
      rw [en] at s3 s4 s5 ⊢
      rw [← hd']
      have hold : ∀ j, k < j → j < ds.length → RGood ds H c.1 d.A j := fun j hj hj2 =>
        (hrg j hj hj2).congr hcl (by omega) (fun l hl hl2 => by rw [s5 l (by omega) (by omega), hso l (by omega)]) rfl
      refine ⟨by omega, s1, by simp [updateRight, hA], s3, s4, fun j hj => ?_, fun j hj hj2 => ?_⟩
      · refine (hlg j (by omega)).congr hcl (by omega) (fun l hl => ?_) ?_
        · change site c.1 l = _
          rw [s5 l (by omega) (by omega), hso l (by omega)]
        · change site (d.A.set k _) j = _
          rw [site_set _ _ _ _ (by omega), if_neg (by omega)]
      · by_cases hjk : j = k
        · subst hjk
          obtain ⟨a2, b2, -, q2, -⟩ := WF.around s1 hk
          obtain ⟨m1, m2⟩ := rightMatrix_spec s1 hH hk q2 (fun l hl hl2 => s4 l (by omega) hl2) (fun hk1 => hold _ (by omega) hk1)
          have es : site (d.A.set j (rightMatrix H c.1 d.A j)) j = rightMatrix H c.1 d.A j := by
            rw [site_set _ _ _ _ (by omega), if_pos rfl]
          change RGood ds H c.1 (d.A.set j (rightMatrix H c.1 d.A j)) j
          unfold RGood
          rw [es, dim0_of q2]
          exact ⟨m1, fun x y hx hy => ⟨(m2 x y hx hy).1, by rw [(m2 x y hx hy).1, (m2 y x hy hx).1]; exact (m2 x y hx hy).2⟩⟩
        · refine (hold j (by omega) hj2).congr rfl (by rw [hcl]; omega) (fun _ _ _ => rfl) ?_
          change site (d.A.set k _) j = _
          rw [site_set _ _ _ _ (by omega), if_neg (by omega)]
  · rw [hsX] at hY
    rw [hφ, List.set_set]
    exact w4 Y hY

end MPS.Dmrg
