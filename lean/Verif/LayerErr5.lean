import Verif.LayerErr4

/-! # The invariant of a sweep without maximal dimension: start, one-site and two-site gates -/

set_option linter.unusedSectionVars false
set_option linter.unusedSimpArgs false

namespace MPS.Trotter
open MPS Tensor Minim

/-- the sites after `c` have not been touched: they are isometries, with bonds of dimension `D` at most; all bonds are balanced -/
structure Lay (ds : List Nat) (D : Nat) (n0 : ℝ) (P : List (Tensor ℂ)) (c : Nat) : Prop where
  wf : WF 1 P ds 1
  hi : ∀ j, c < j → j < ds.length → RightIso (site P j)
  bonds : ∀ j, c < j → j < ds.length → (site P j).dim 0 ≤ D
  norm : normSq ds P ≤ n0
  bal : ∀ j < ds.length, Bal ds P j (D * n0)

theorem mem_drop_iso {P : List (Tensor ℂ)} {L j : Nat} (hL : P.length = L) (h : ∀ i, j ≤ i → i < L → RightIso (site P i)) :
    ∀ A ∈ P.drop j, RightIso A := by
  intro A hA
  obtain ⟨i, hi, rfl⟩ := List.getElem_of_mem hA
  have hi' : i < P.length - j := by simpa using hi
  have := h (j + i) (by omega) (by omega)
  have e : site P (j + i) = (P.drop j)[i] := by
    simp only [site, List.getElem_drop]
    rw [List.getD_eq_getElem _ _ (by omega)]
  rwa [e] at this

theorem bal_iso {ds : List Nat} {P : List (Tensor ℂ)} {j D : Nat} {n0 : ℝ} (hw : WF 1 P ds 1) (hj : j < ds.length)
    (hiso : ∀ i, j ≤ i → i < ds.length → RightIso (site P i)) (hD : (site P j).dim 0 ≤ D) (hn : normSq ds P ≤ n0) : Bal ds P j (D * n0) := by
  have hlen := hw.length
  obtain ⟨a, b, w1, w2, w3, p1, p2, p3⟩ := WF.around hw hj
  have wd : WF a (P.drop j) (ds.drop j) 1 := by
    rw [Form.drop_site (by omega), show ds.drop j = ds.getD j 0 :: ds.drop (j + 1) by rw [List.drop_eq_getElem_cons hj]; simp [hj]]
    exact WF.cons w2 p1 p2 p3 w3
  have hpost := mem_drop_iso hlen hiso
  have hne : P.take j ++ P.drop j ≠ [] := by
    rw [List.take_append_drop]; intro h; rw [h] at hlen; simp at hlen; omega
  have hLB := LBound.of_iso w1 wd hpost hne
  have hN := Trotter.normSq_nonneg ds P
  rw [List.take_append_drop, List.take_append_drop] at hLB
  refine ⟨P.take j, P.drop j, ds.take j, ds.drop j, a, normSq ds P, (List.take_append_drop _ _).symm, by simp; omega,
    (List.take_append_drop _ _).symm, w1, wd, hN, hLB, ?_⟩
  rw [rNorm_iso wd hpost, mul_comm]
  rw [dim0_of w2] at hD
  exact mul_le_mul (by exact_mod_cast hD) hn hN (Nat.cast_nonneg _)

/-- a state in canonical form with respect to the first site -/
theorem lay_start {ds : List Nat} {P : List (Tensor ℂ)} {D : Nat} (hD : 1 ≤ D) (h : Cent ds P 0) (hpos : 0 < ds.length)
    (hb : ∀ j, 0 < j → j < ds.length → (site P j).dim 0 ≤ D) : Lay ds D (normSq ds P) P 0 := by
  refine ⟨h.wf, fun j h1 h2 => h.hi j h1 h2, hb, le_rfl, fun j hj => ?_⟩
  by_cases h0 : j = 0
  · subst h0
    have hne : P ≠ [] := by intro hh; have := h.wf.length; rw [hh] at this; simp at this; omega
    refine ⟨[], P, [], ds, 1, 1, rfl, rfl, rfl, WF.nil 1, h.wf, zero_le_one, fun v => ?_, ?_⟩
    · simp [sumCfg_nil, path_nil]
    · have : rNorm 1 ds P = normSq ds P := by
        unfold rNorm normSq
        rw [Finset.sum_range_one]
        exact sumCfg_congr fun s _ => by rw [amp_of_WF h.wf hne, Finset.sum_range_one]
      rw [this]
      exact mul_le_mul_of_nonneg_right (by exact_mod_cast hD) (Trotter.normSq_nonneg ds P)
  · exact bal_iso h.wf hj (fun i h1 h2 => h.hi i (by omega) h2) (hb j (by omega) hj) le_rfl

/-- a unitary on one site does not change the bounds -/
theorem Bal.one {ds : List Nat} {P : List (Tensor ℂ)} {j k : Nat} {v : ℝ} (h : Bal ds P j v) (hk : k < ds.length) {U : Tensor ℂ}
    (hUd : U.dims = [ds.getD k 0, ds.getD k 0]) (hU : IsUnitary (ds.getD k 0) U) : Bal ds (P.set k (foldin U (-1) (site P k) 1)) j v := by
  obtain ⟨pre, post, ds1, ds2, c, C, rfl, rfl, rfl, w1, w2, hC, hL, hv⟩ := h
  have l1 := w1.length
  have l2 := w2.length
  by_cases hkj : k < pre.length
  · have hs : site (pre ++ post) k = site pre k := by
      simp only [site, List.getD_eq_getElem?_getD]; rw [List.getElem?_append_left hkj]
    have hd : (ds1 ++ ds2).getD k 0 = ds1.getD k 0 := by
      simp only [List.getD_eq_getElem?_getD]; rw [List.getElem?_append_left (by omega)]
    rw [hd] at hUd hU
    rw [List.set_append_left _ _ hkj, hs]
    refine ⟨_, post, ds1, ds2, c, C, rfl, by simp, rfl, w1.set_act hUd, w2, hC, fun u => ?_, hv⟩
    refine le_trans (le_of_eq ?_) (hL u)
    rw [← sumSq_of_inner (inner_actSite (ds := ds1) (by omega) hU fun s => ∑ x ∈ Finset.range c, path pre s 0 x * u x)]
    refine sumCfg_congr fun s hs => ?_
    unfold actSite
    congr 2
    simp only [path_set_act w1 hkj hUd hs.length, Finset.sum_mul, Finset.mul_sum]
    rw [Finset.sum_comm]
    exact Finset.sum_congr rfl fun t _ => Finset.sum_congr rfl fun x _ => by ring
  · have hs : site (pre ++ post) k = site post (k - pre.length) := by
      simp only [site, List.getD_eq_getElem?_getD]; rw [List.getElem?_append_right (by omega)]
    have hd : (ds1 ++ ds2).getD k 0 = ds2.getD (k - pre.length) 0 := by
      simp only [List.getD_eq_getElem?_getD]; rw [List.getElem?_append_right (by omega), l1]
    rw [hd] at hUd hU
    rw [List.set_append_right _ _ (by omega), hs]
    have hk2 : k - pre.length < ds2.length := by rw [List.length_append] at hk; omega
    refine ⟨pre, _, ds1, ds2, c, C, rfl, rfl, rfl, w1, w2.set_act hUd, hC, hL, ?_⟩
    have : rNorm c ds2 (post.set (k - pre.length) (foldin U (-1) (site post (k - pre.length)) 1)) = rNorm c ds2 post := by
      unfold rNorm
      refine Finset.sum_congr rfl fun x _ => ?_
      rw [← sumSq_of_inner (inner_actSite (ds := ds2) hk2 hU fun s => path post s x 0)]
      refine sumCfg_congr fun s hs => ?_
      rw [path_set_act w2 (by omega) hUd hs.length]
      rfl
    rw [this]; exact hv

theorem lay_one {svd : Tensor ℂ → SvdRes ℂ} (eps dflt : ℝ) {x : Evo} {ds : List Nat} {D k : Nat} {n0 : ℝ} (h : Lay ds D n0 x.P k) (hk : k < ds.length)
    {U : Tensor ℂ} (hUd : U.dims = [ds.getD k 0, ds.getD k 0]) (hU : IsUnitary (ds.getD k 0) U) (dk : Int) :
    let y := applyOne svd eps dflt x U k dk 0
    Lay ds D n0 y.P (k + 1) ∧ normSq ds y.P = normSq ds x.P ∧ ∀ s, IsCfg ds s → amp y.P s = actSite (ds.getD k 0) U k (amp x.P) s := by
  intro y
  have hlen := h.wf.length
  have hdk : 0 < ds.getD k 0 := by
    obtain ⟨a', d, b', -, -, h2, -, h4, -⟩ := path_zero h.wf k (by omega)
    rw [h4]; exact h2
  have hUne : U.isEmpty = false := by
    simp [Tensor.isEmpty, Tensor.size, hUd]; simpa using hdk.ne'
  have hy : y.P = x.P.set k (foldin U (-1) (site x.P k) 1) := by simp [y, applyOne, hUne]
  have hw : WF 1 y.P ds 1 := by rw [hy]; exact h.wf.set_act hUd
  have hact : ∀ s, IsCfg ds s → amp y.P s = actSite (ds.getD k 0) U k (amp x.P) s := by
    intro s hs
    have hne : y.P ≠ [] := by intro h0; have := hw.length; rw [h0] at this; simp at this; omega
    have hne' : x.P ≠ [] := by intro h0; rw [h0] at hlen; simp at hlen; omega
    rw [amp_of_WF hw hne, Finset.sum_range_one, hy, path_set_act h.wf (by omega) hUd hs.length]
    unfold actSite
    refine Finset.sum_congr rfl fun i _ => ?_
    rw [amp_of_WF h.wf hne', Finset.sum_range_one]
  have hn : normSq ds y.P = normSq ds x.P := by
    unfold normSq
    rw [sumCfg_congr fun s hs => by rw [hact s hs]]
    exact sumSq_of_inner (inner_actSite hk hU _)
  have hst : ∀ j, k + 1 < j → site y.P j = site x.P j := fun j hj => by
    rw [hy, site_set _ _ _ _ (by omega), if_neg (by omega)]
  refine ⟨⟨hw, fun j h1 h2 => by rw [hst j h1]; exact h.hi j (by omega) h2, fun j h1 h2 => by rw [hst j h1]; exact h.bonds j (by omega) h2,
    by rw [hn]; exact h.norm, fun j hj => by rw [hy]; exact (h.bal j hj).one hk hUd hU⟩, hn, hact⟩

end MPS.Trotter
