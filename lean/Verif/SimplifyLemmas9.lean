import Verif.SimplifyLemmas8

/-!
# Two-site sweeps of `simplify(&P, {Q}, weights, Dmax, tol, ...)`
-/

set_option linter.unusedSectionVars false
set_option linter.unusedSimpArgs false

namespace MPS.Simp
open MPS Tensor Form Minim Obc
variable {K : Type} [RCLike K]

theorem Proj2.inner' {ds : List Nat} {q : List Nat → K} {P : List (Tensor K)} {k a b : Nat} {X : Tensor K} (h : Proj2 ds q P k a b X)
    {A B : Tensor K} {n : Nat} (hn : 0 < n) (hA : A.dims = [a, ds.getD k 0, n]) (hB : B.dims = [n, ds.getD (k + 1) 0, b]) :
    MPS.inner ds q (amp (setPair P k A B)) = sumCfg [a, ds.getD k 0, ds.getD (k + 1) 0, b] fun I => star (X.get I) * joined n A B I := by
  rw [← Props.inner_star', h.inner A B n hn hA hB, sumCfg_star]
  refine sumCfg_congr fun I _ => ?_
  rw [star_mul', star_star, mul_comm]

theorem Gap2.norm {ds : List Nat} {P : List (Tensor K)} {k a b : Nat} (hg : Gap2 ds P k a b) (hlo : ∀ j < k, LeftIso (site P j))
    (hhi : ∀ j, k + 1 < j → j < ds.length → RightIso (site P j)) {A B : Tensor K} {n : Nat} (hn : 0 < n) (hA : A.dims = [a, ds.getD k 0, n])
    (hB : B.dims = [n, ds.getD (k + 1) 0, b]) :
    normSq ds (setPair P k A B) = sumCfg [a, ds.getD k 0, ds.getD (k + 1) 0, b] fun I => ‖joined n A B I‖ ^ 2 := by
  have hl := hg.len
  have := pair_norm (A := A) (B := B) hg.wl hA hB ⟨hg.pa, hg.pd, hn, hg.pd', hg.pb⟩ hg.wr (iso_take hlo)
    (iso_drop fun j hj hj2 => hhi j (by omega) (by omega))
  rw [← ds_pair hg.lt, ← setPair_eq (by have := hg.lt; omega)] at this
  exact this

/-- distances of the states that differ at the pair -/
theorem Proj2.dist {ds : List Nat} {q : List Nat → K} {P : List (Tensor K)} {k a b : Nat} {X : Tensor K} (h : Proj2 ds q P k a b X)
    (hg : Gap2 ds P k a b) (hlo : ∀ j < k, LeftIso (site P j)) (hhi : ∀ j, k + 1 < j → j < ds.length → RightIso (site P j))
    {A B : Tensor K} {n : Nat} (hn : 0 < n) (hA : A.dims = [a, ds.getD k 0, n]) (hB : B.dims = [n, ds.getD (k + 1) 0, b]) :
    distTo ds q (setPair P k A B) = normSqOf ds q - sumCfg [a, ds.getD k 0, ds.getD (k + 1) 0, b] (fun I => ‖X.get I‖ ^ 2) +
      sumCfg [a, ds.getD k 0, ds.getD (k + 1) 0, b] fun I => ‖X.get I - joined n A B I‖ ^ 2 :=
  dist_core (h.inner' hn hA hB) (hg.norm hlo hhi hn hA hB)

/-- what is left of the distance when the pair is `X` itself -/
noncomputable def gapDist (ds : List Nat) (q : List Nat → K) (X : Tensor K) : ℝ := normSqOf ds q - sumCfg X.dims fun I => ‖X.get I‖ ^ 2

theorem Proj2.le_dist {ds : List Nat} {q : List Nat → K} {P : List (Tensor K)} {k a b : Nat} {X : Tensor K} (h : Proj2 ds q P k a b X)
    (hg : Gap2 ds P k a b) (hlo : ∀ j < k, LeftIso (site P j)) (hhi : ∀ j, k + 1 < j → j < ds.length → RightIso (site P j))
    {A B : Tensor K} {n : Nat} (hn : 0 < n) (hA : A.dims = [a, ds.getD k 0, n]) (hB : B.dims = [n, ds.getD (k + 1) 0, b]) :
    gapDist ds q X ≤ distTo ds q (setPair P k A B) := by
  rw [h.dist hg hlo hhi hn hA hB, gapDist, h.dims]
  have : 0 ≤ sumCfg [a, ds.getD k 0, ds.getD (k + 1) 0, b] fun I => ‖X.get I - joined n A B I‖ ^ 2 := sumCfg_nonneg _ _ fun _ _ => by positivity
  linarith

theorem setPair_self {P : List (Tensor K)} {k : Nat} (hk : k + 1 < P.length) : setPair P k (site P k) (site P (k + 1)) = P := by
  rw [setPair_eq hk]
  conv_rhs => rw [← List.take_append_drop k P, drop_site (by omega), drop_site (by omega)]

theorem Gap2.of_WF {ds : List Nat} {P : List (Tensor K)} (h : WF 1 P ds 1) {k : Nat} (hk : k + 1 < ds.length) :
    ∃ a b c, Gap2 ds P k a b ∧ 0 < c ∧ (site P k).dims = [a, ds.getD k 0, c] ∧ (site P (k + 1)).dims = [c, ds.getD (k + 1) 0, b] := by
  obtain ⟨a, c, b, k1, k2, k3, k4, k5, k6, k7, k8, k9⟩ := WF.aroundPair h hk
  exact ⟨a, b, c, ⟨hk, h.length, WF.phys_pos h, k1, k4⟩, k7, k2, k3⟩

/-- what `set_canonical_2_sites` makes of the new pair -/
structure Stored (ds : List Nat) (P : List (Tensor K)) (k a b : Nat) (X : Tensor K) (s : Int) (Dmax : Nat) (Q R : List (Tensor K)) (lost : ℝ)
    (g : Nat) : Prop where
  wfQ : WF 1 Q ds 1
  wfR : WF 1 R ds 1
  pos : 0 < g
  first : (site Q k).dims = [a, ds.getD k 0, g]
  second : (site Q (k + 1)).dims = [g, ds.getD (k + 1) 0, b]
  eq : Q = setPair P k (site Q k) (site Q (k + 1))
  bond : 0 < Dmax → g ≤ Dmax
  lost : sumCfg [a, ds.getD k 0, ds.getD (k + 1) 0, b] (fun I => ‖X.get I - joined g (site Q k) (site Q (k + 1)) I‖ ^ 2) = lost
  iso : if s > 0 then LeftIso (site Q k) else RightIso (site Q (k + 1))
  centre : if s > 0 then ∀ m j y, m < g → j < ds.getD (k + 1) 0 → y < b →
        ∑ x ∈ Finset.range a, ∑ i ∈ Finset.range (ds.getD k 0), star ((site Q k).get [x, i, m]) * X.get [x, i, j, y] = (site Q (k + 1)).get [m, j, y]
      else ∀ x i m, x < a → i < ds.getD k 0 → m < g →
        ∑ j ∈ Finset.range (ds.getD (k + 1) 0), ∑ y ∈ Finset.range b, X.get [x, i, j, y] * star ((site Q (k + 1)).get [m, j, y]) = (site Q k).get [x, i, m]
  after : if s > 0 then
        (∀ j, j ≠ k + 1 → j ≠ k + 2 → site R j = site Q j) ∧ (k + 2 = ds.length → R = Q)
      else
        (∀ j, j ≠ k → j + 1 ≠ k → site R j = site Q j) ∧ (k = 0 → R = Q)

theorem stored' {svd : Tensor K → SvdRes K} (hg : GoodSvd svd) (eps : ℝ) {dflt : ℝ} (hd0 : 0 < dflt) {ds : List Nat} {P : List (Tensor K)}
    (hw : WF 1 P ds 1) {k a b : Nat} {X : Tensor K} (hk : k + 1 < ds.length) (hgap : Gap2 ds P k a b) (hX : X.dims = [a, ds.getD k 0, ds.getD (k + 1) 0, b])
    (Dmax : Nat) {tol : ℝ} (htol : tol ≠ 0) (i s : Int) (hp : Props.firstSite i s = k) :
    ∃ Q R lost lost2 g, setCanonical2 svd eps dflt P X i s Dmax tol true = some (R, lost, lost2) ∧ Stored ds P k a b X s Dmax Q R lost g ∧
      0 ≤ lost2 ∧ (lost2 = 0 → ∀ s, IsCfg ds s → amp R s = amp Q s) := by
  obtain ⟨a', c, b', k1, k2, k3, k4, k5, k6, k7, k8, k9⟩ := WF.aroundPair hw hk
  obtain rfl : a' = a := WF_right k1 hgap.wl
  obtain rfl : b' = b := by
    have e : ∀ {x y : Nat} {l : List (Tensor K)} {d : List Nat}, WF x l d 1 → WF y l d 1 → (l ≠ [] ∨ x = 1 ∧ y = 1) → x = y := by
      intro x y l d h1 h2 h3
      cases h1 with
      | nil => cases h2; rfl
      | cons e1 => cases h2 with
        | cons e2 => rw [e1] at e2; exact (List.cons.inj e2).1
    refine e k4 hgap.wr ?_
    by_cases h0 : P.drop (k + 2) = []
    · right
      have h1 := k4
      have h2 := hgap.wr
      rw [h0] at h1 h2
      cases h : ds.drop (k + 2) with
      | nil => rw [h] at h1 h2; cases h1; cases h2; exact ⟨rfl, rfl⟩
      | cons => rw [h] at h1; cases h1
    · exact Or.inl h0
  obtain ⟨Q, lost, s1, s2, s3, s4, s5, s6, -, s8⟩ := Props.pair_store hg eps hd0.le hw X i s k hp hk
    (by rw [hX, dim0_of k2, dim2_of k3]) Dmax tol (by
      rcases lt_or_gt_of_ne htol with h | h
      · exact Or.inr (Or.inl ⟨h, hd0⟩)
      · exact Or.inl h)
  obtain ⟨g, g1, g2, g3, g4⟩ := chain_dims s2 hw hk s3 k1 k4
  obtain ⟨R, lost2, r1, r2, r3, -, r5, r6⟩ := Props.C17_both hg eps hd0.le X i s k hp hk Dmax tol s1 s2 (Or.inl hd0)
  refine ⟨Q, R, lost, lost2, g, r1, ⟨s2, r2, g3, g1, g2, g4, ?_, ?_, s5, ?_, ?_⟩, r3, fun h0 s hs => ?_⟩
  · intro hD
    have := s4 (by exact_mod_cast hD)
    rw [dim2_of g1] at this
    exact_mod_cast this
  · rw [← s6]
    simp only [sumCfg_cons, sumCfg_nil, dim0_of k2, dim2_of k3]
    refine Finset.sum_congr rfl fun x hx => Finset.sum_congr rfl fun i hi => Finset.sum_congr rfl fun j hj => Finset.sum_congr rfl fun y hy => ?_
    unfold Props.pairProduct joined
    rw [dim2_of g1]
    rfl
  · rw [dim2_of g1, dim0_of k2, dim2_of k3] at s8
    exact s8
  · split_ifs at r6 ⊢
    · exact ⟨r6.1, r6.2.2⟩
    · exact ⟨r6.1, r6.2.2⟩
  · have ne : ∀ {χ : List (Tensor K)}, WF 1 χ ds 1 → χ ≠ [] := by
      rintro χ hχ rfl; have := hχ.length; simp at this; omega
    rw [amp_of_WF r2 (ne r2), amp_of_WF s2 (ne s2), Finset.sum_range_one, Finset.sum_range_one, r5 h0 s hs 0 (by omega)]

theorem stored {svd : Tensor K → SvdRes K} (hg : GoodSvd svd) (eps : ℝ) {dflt : ℝ} (hd0 : 0 < dflt) {ds : List Nat} {P : List (Tensor K)}
    (hw : WF 1 P ds 1) {k a b : Nat} {X : Tensor K} (hk : k + 1 < ds.length) (hgap : Gap2 ds P k a b) (hX : X.dims = [a, ds.getD k 0, ds.getD (k + 1) 0, b])
    (Dmax : Nat) {tol : ℝ} (htol : tol ≠ 0) (i s : Int) (hp : Props.firstSite i s = k) :
    ∃ Q R lost lost2 g, setCanonical2 svd eps dflt P X i s Dmax tol true = some (R, lost, lost2) ∧ Stored ds P k a b X s Dmax Q R lost g := by
  obtain ⟨Q, R, lost, lost2, g, h1, h2, -⟩ := stored' hg eps hd0 hw hk hgap hX Dmax htol i s hp
  exact ⟨Q, R, lost, lost2, g, h1, h2⟩

/-- the tensor at the new centre is the best one -/
theorem Stored.best {ds : List Nat} {q : List Nat → K} {P : List (Tensor K)} {k a b : Nat} {X : Tensor K} {s : Int} {Dmax : Nat} {Q R : List (Tensor K)}
    {lost : ℝ} {g : Nat} (h : Stored ds P k a b X s Dmax Q R lost g) (hp : Proj2 ds q P k a b X) (hk : k + 1 < ds.length)
    (hlo : ∀ j < k, LeftIso (site P j)) (hhi : ∀ j, k + 1 < j → j < ds.length → RightIso (site P j)) :
    Best ds q Q (if s > 0 then k + 1 else k) := by
  have hQl := h.wfQ.length
  set d := ds.getD k 0 with hd
  set d' := ds.getD (k + 1) 0 with hd'
  set U := site Q k with hU
  set C := site Q (k + 1) with hC
  have hPl : P.length = ds.length := by
    have := congrArg List.length h.eq
    rw [setPair, List.length_set, List.length_set] at this
    omega
  have sQ : ∀ j, j ≠ k → j ≠ k + 1 → site Q j = site P j := by
    intro j h1 h2
    rw [h.eq, setPair, site_set _ _ _ _ (by simp; omega), if_neg h2, site_set _ _ _ _ (by omega), if_neg h1]
  have hc := h.centre
  have hi := h.iso
  by_cases hs : s > 0
  · rw [if_pos hs] at hc hi ⊢
    obtain ⟨a1, b1, gp, e1⟩ := Gap.of_WF h.wfQ (k := k + 1) hk
    refine best_of (by omega) fun Y hY => ?_
    rw [← hC, h.second] at hY
    have e0 : [a1, ds.getD (k + 1) 0, b1] = [g, d', b] := by rw [← e1, ← h.second]
    have hYd : Y.dims = [a1, ds.getD (k + 1) 0, b1] := by rw [e0]; exact hY
    refine ⟨?_, ?_⟩
    · rw [hYd]
      refine normSq_set gp (fun j hj => ?_) (fun j h1 h2 => ?_) hYd
      · by_cases hjk : j = k
        · rw [hjk]; exact hi
        · rw [sQ j hjk (by omega)]; exact hlo j (by omega)
      · rw [sQ j (by omega) (by omega)]; exact hhi j (by omega) h2
    · have e : Q.set (k + 1) Y = setPair P k U Y := by
        conv_lhs => rw [h.eq]
        unfold setPair
        rw [List.set_set]
      rw [e, hp.inner' h.pos h.first hY, hY, ← hC]
      simp only [sumCfg_cons, sumCfg_nil, joined, List.getD_cons_zero, List.getD_cons_succ]
      have e2 : ∀ m ∈ Finset.range g, ∀ j ∈ Finset.range d', ∀ y ∈ Finset.range b, star (C.get [m, j, y]) * Y.get [m, j, y] =
          ∑ x ∈ Finset.range a, ∑ i ∈ Finset.range d, star (X.get [x, i, j, y]) * (U.get [x, i, m] * Y.get [m, j, y]) := by
        intro m hm j hj y hy
        rw [← hc m j y (Finset.mem_range.1 hm) (Finset.mem_range.1 hj) (Finset.mem_range.1 hy)]
        simp only [star_sum, star_mul', star_star, Finset.sum_mul]
        exact Finset.sum_congr rfl fun x _ => Finset.sum_congr rfl fun i _ => by ring
      rw [Finset.sum_congr rfl fun m hm => Finset.sum_congr rfl fun j hj => Finset.sum_congr rfl fun y hy => e2 m hm j hj y hy]
      simp only [Finset.mul_sum]
      simp only [← Finset.sum_product']
      refine Finset.sum_nbij' (fun z => (z.2.2.2.2, z.2.2.1, z.2.2.2.1, z.1, z.2.1)) (fun z => (z.2.2.2.1, z.2.2.2.2, z.2.1, z.2.2.1, z.1)) ?_ ?_ ?_ ?_ ?_
      · intro z hz; simp only [Finset.mem_product] at hz ⊢; tauto
      · intro z hz; simp only [Finset.mem_product] at hz ⊢; tauto
      · intro z _; rfl
      · intro z _; rfl
      · intro z _; rfl
  · rw [if_neg hs] at hc hi ⊢
    obtain ⟨a1, b1, gp, e1⟩ := Gap.of_WF h.wfQ (k := k) (by omega)
    refine best_of (by omega) fun Y hY => ?_
    rw [← hU, h.first] at hY
    have e0 : [a1, ds.getD k 0, b1] = [a, d, g] := by rw [← e1, ← h.first]
    have hYd : Y.dims = [a1, ds.getD k 0, b1] := by rw [e0]; exact hY
    refine ⟨?_, ?_⟩
    · rw [hYd]
      refine normSq_set gp (fun j hj => ?_) (fun j h1 h2 => ?_) hYd
      · rw [sQ j (by omega) (by omega)]; exact hlo j (by omega)
      · by_cases hjk : j = k + 1
        · rw [hjk]; exact hi
        · rw [sQ j (by omega) hjk]; exact hhi j (by omega) h2
    · have e : Q.set k Y = setPair P k Y C := by
        conv_lhs => rw [h.eq]
        unfold setPair
        rw [List.set_comm _ _ (by omega), List.set_set]
      rw [e, hp.inner' h.pos hY h.second, hY, ← hU]
      simp only [sumCfg_cons, sumCfg_nil, joined, List.getD_cons_zero, List.getD_cons_succ]
      have e2 : ∀ x ∈ Finset.range a, ∀ i ∈ Finset.range d, ∀ m ∈ Finset.range g, star (U.get [x, i, m]) * Y.get [x, i, m] =
          ∑ j ∈ Finset.range d', ∑ y ∈ Finset.range b, star (X.get [x, i, j, y]) * (Y.get [x, i, m] * C.get [m, j, y]) := by
        intro x hx i hi m hm
        rw [← hc x i m (Finset.mem_range.1 hx) (Finset.mem_range.1 hi) (Finset.mem_range.1 hm)]
        simp only [star_sum, star_mul', star_star, Finset.sum_mul]
        exact Finset.sum_congr rfl fun x _ => Finset.sum_congr rfl fun i _ => by ring
      rw [Finset.sum_congr rfl fun x hx => Finset.sum_congr rfl fun i hi => Finset.sum_congr rfl fun m hm => e2 x hx i hi m hm]
      simp only [Finset.mul_sum]
      refine Finset.sum_congr rfl fun x _ => Finset.sum_congr rfl fun i _ => ?_
      simp only [← Finset.sum_product']
      refine Finset.sum_nbij' (fun z => (z.2.2, z.1, z.2.1)) (fun z => (z.2.1, z.2.2, z.1)) ?_ ?_ ?_ ?_ ?_
      · intro z hz; simp only [Finset.mem_product] at hz ⊢; tauto
      · intro z hz; simp only [Finset.mem_product] at hz ⊢; tauto
      · intro z _; rfl
      · intro z _; rfl
      · intro z _; rfl

theorem Stored.lost_nonneg {ds : List Nat} {P : List (Tensor K)} {k a b : Nat} {X : Tensor K} {s : Int} {Dmax : Nat} {Q R : List (Tensor K)}
    {lost : ℝ} {g : Nat} (h : Stored ds P k a b X s Dmax Q R lost g) : 0 ≤ lost := by
  rw [← h.lost]; exact sumCfg_nonneg _ _ fun _ _ => by positivity

theorem Stored.dist {ds : List Nat} {q : List Nat → K} {P : List (Tensor K)} {k a b : Nat} {X : Tensor K} {s : Int} {Dmax : Nat} {Q R : List (Tensor K)}
    {lost : ℝ} {g : Nat} (h : Stored ds P k a b X s Dmax Q R lost g) (hp : Proj2 ds q P k a b X) (hgap : Gap2 ds P k a b)
    (hlo : ∀ j < k, LeftIso (site P j)) (hhi : ∀ j, k + 1 < j → j < ds.length → RightIso (site P j)) :
    distTo ds q Q = gapDist ds q X + lost := by
  have := hp.dist hgap hlo hhi h.pos h.first h.second
  rw [← h.eq, h.lost] at this
  rw [this, gapDist, hp.dims]

theorem Stored.site {ds : List Nat} {P : List (Tensor K)} {k a b : Nat} {X : Tensor K} {s : Int} {Dmax : Nat} {Q R : List (Tensor K)}
    {lost : ℝ} {g : Nat} (h : Stored ds P k a b X s Dmax Q R lost g) (hP : P.length = ds.length) (hk : k + 1 < ds.length) :
    ∀ j, j ≠ k → j ≠ k + 1 → site Q j = site P j := by
  intro j h1 h2
  rw [h.eq, setPair, site_set _ _ _ _ (by simp; omega), if_neg h2, site_set _ _ _ _ (by omega), if_neg h1]

end MPS.Simp
