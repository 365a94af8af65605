import Verif.ApplyOpt
import Verif.TrotterTrunc4

/-! # A gate with truncation is a projection, and the truncation is as good as any with the same bond dimension -/

set_option linter.unusedSectionVars false
set_option linter.unusedSimpArgs false

namespace MPS.Trotter
open MPS Tensor Minim Order MPS.Props

/-- the block states on the side already swept see `T` as they see the state -/
def Sees (sense : Int) (ds : List Nat) (P : List (Tensor ℂ)) (T : List Nat → ℂ) (c : Nat) : Prop :=
  (sense > 0 → SeesL ds P T c) ∧ (¬ sense > 0 → SeesR ds P T c)

theorem Sees.congr {sense : Int} {ds : List Nat} {P : List (Tensor ℂ)} {T T' : List Nat → ℂ} {c : Nat} (h : Sees sense ds P T c)
    (he : ∀ s, IsCfg ds s → T' s = T s) : Sees sense ds P T' c := ⟨fun hs => (h.1 hs).congr he, fun hs => (h.2 hs).congr he⟩

theorem Sees.overlap {sense : Int} {ds : List Nat} {P : List (Tensor ℂ)} {T : List Nat → ℂ} {c : Nat} (h : Sees sense ds P T c) (hc : Cent ds P c)
    (hne : P ≠ []) : MPS.inner ds (amp P) T = MPS.inner ds (amp P) (amp P) := by
  by_cases hs : sense > 0
  · exact (h.1 hs).overlap hc.lo hne
  · exact (h.2 hs).overlap hc.hi hne

theorem pair_seesL {ds1 ds3 : List Nat} {pre post : List (Tensor ℂ)} {X Y U B1 B2 : Tensor ℂ} {T : List Nat → ℂ} {c d e d2 f g : Nat} (w1 : WF 1 pre ds1 c)
    (hX : X.dims = [c, d, e]) (hY : Y.dims = [e, d2, f]) (hpos : 0 < c ∧ 0 < d ∧ 0 < e ∧ 0 < d2 ∧ 0 < f) (hg : 0 < g) (w4 : WF f post ds3 1)
    (hB1 : B1.dims = [c, d, g]) (hB2 : B2.dims = [g, d2, f])
    (h : SeesL (ds1 ++ d :: d2 :: ds3) (pre ++ X :: Y :: post) T pre.length)
    (hpr : ∀ m j y, m < g → j < d2 → y < f →
          ∑ x ∈ Finset.range c, ∑ i ∈ Finset.range d, star (B1.get [x, i, m]) *
            (∑ i' ∈ Finset.range d, ∑ j' ∈ Finset.range d2, U.get [i + d * j, i' + d * j'] * ∑ z ∈ Finset.range e, X.get [x, i', z] * Y.get [z, j', y]) = B2.get [m, j, y]) :
    SeesL (ds1 ++ d :: d2 :: ds3) (pre ++ B1 :: B2 :: post) (actPair d d2 U pre.length T) (pre.length + 1) := by
  obtain ⟨hc, hd, he, hd2, hf⟩ := hpos
  refine ⟨ds1 ++ [d], d2 :: ds3, pre ++ [B1], B2 :: post, g, by simp, by simp, by simp, w1.append (WF.cons hB1 hc hd hg (WF.nil g)), WF.cons hB2 hg hd2 hf w4, ?_⟩
  intro m r hm hr
  cases hr with
  | @cons j _ r _ hj hr =>
  rw [ovL_snoc w1 hB1 _ hm, path_cons, dim2_of hB2]
  have e1 : ∀ x ∈ Finset.range c, ∀ i ∈ Finset.range d, star (B1.get [x, i, m]) * ovL ds1 pre (actPair d d2 U pre.length T) x (i :: j :: r) =
      ∑ y ∈ Finset.range f, star (B1.get [x, i, m]) *
      (∑ i' ∈ Finset.range d, ∑ j' ∈ Finset.range d2, U.get [i + d * j, i' + d * j'] * ∑ z ∈ Finset.range e, X.get [x, i', z] * Y.get [z, j', y]) *
        path post r y 0 := by
    intro x hx i hi
    rw [SeesL.pair w1 hX hY ⟨hc, hd, he, hd2, hf⟩ w4 h (Finset.mem_range.1 hx) (Finset.mem_range.1 hi) hj hr, Finset.mul_sum]
    exact Finset.sum_congr rfl fun _ _ => by ring
  rw [Finset.sum_congr rfl fun x hx => Finset.sum_congr rfl fun i hi => e1 x hx i hi]
  rw [Finset.sum_congr rfl fun x _ => Finset.sum_comm, Finset.sum_comm]
  refine Finset.sum_congr rfl fun y hy => ?_
  rw [← hpr m j y hm hj (Finset.mem_range.1 hy)]
  simp only [Finset.sum_mul]

theorem pair_seesR {ds1 ds3 : List Nat} {pre post : List (Tensor ℂ)} {X Y U B1 B2 : Tensor ℂ} {T : List Nat → ℂ} {c d e d2 f g : Nat} (w1 : WF 1 pre ds1 c)
    (hX : X.dims = [c, d, e]) (hY : Y.dims = [e, d2, f]) (hpos : 0 < c ∧ 0 < d ∧ 0 < e ∧ 0 < d2 ∧ 0 < f) (hg : 0 < g) (w4 : WF f post ds3 1)
    (hB1 : B1.dims = [c, d, g]) (hB2 : B2.dims = [g, d2, f])
    (h : SeesR (ds1 ++ d :: d2 :: ds3) (pre ++ X :: Y :: post) T (pre.length + 1))
    (hpr : ∀ x i m, x < c → i < d → m < g →
          ∑ j ∈ Finset.range d2, ∑ y ∈ Finset.range f,
            (∑ i' ∈ Finset.range d, ∑ j' ∈ Finset.range d2, U.get [i + d * j, i' + d * j'] * ∑ z ∈ Finset.range e, X.get [x, i', z] * Y.get [z, j', y]) * star (B2.get [m, j, y]) = B1.get [x, i, m]) :
    SeesR (ds1 ++ d :: d2 :: ds3) (pre ++ B1 :: B2 :: post) (actPair d d2 U pre.length T) pre.length := by
  obtain ⟨hc, hd, he, hd2, hf⟩ := hpos
  refine ⟨ds1 ++ [d], d2 :: ds3, pre ++ [B1], B2 :: post, g, by simp, by simp, by simp, w1.append (WF.cons hB1 hc hd hg (WF.nil g)), WF.cons hB2 hg hd2 hf w4, ?_⟩
  intro m l hm hl
  obtain ⟨l, r, rfl, hl1, hr⟩ := isCfg_split hl
  cases hr with
  | @cons i _ r _ hi hr =>
  cases hr
  rw [ovR_cons hB2, path_append w1 (by rw [hl1.length, w1.length]) Nat.one_pos]
  have e1 : ∀ j ∈ Finset.range d2, ∀ y ∈ Finset.range f, star (B2.get [m, j, y]) * ovR ds3 post (actPair d d2 U pre.length T) y ((l ++ [i]) ++ [j]) =
      ∑ x ∈ Finset.range c, path pre l 0 x *
      ((∑ i' ∈ Finset.range d, ∑ j' ∈ Finset.range d2, U.get [i + d * j, i' + d * j'] * ∑ z ∈ Finset.range e, X.get [x, i', z] * Y.get [z, j', y]) *
        star (B2.get [m, j, y])) := by
    intro j hj y hy
    rw [List.append_assoc, List.singleton_append,
      SeesR.pair w1 hX hY ⟨hc, hd, he, hd2, hf⟩ w4 h (Finset.mem_range.1 hy) hi (Finset.mem_range.1 hj) hl1, Finset.mul_sum]
    exact Finset.sum_congr rfl fun _ _ => by ring
  rw [Finset.sum_congr rfl fun j hj => Finset.sum_congr rfl fun y hy => e1 j hj y hy]
  rw [Finset.sum_congr rfl fun j _ => Finset.sum_comm, Finset.sum_comm]
  refine Finset.sum_congr rfl fun x hx => ?_
  rw [path_single hB1 hm, ← hpr x i m (Finset.mem_range.1 hx) hi hm]
  simp only [Finset.mul_sum]

/-- both blocks together -/
theorem ovP_L {ds1 ds3 : List Nat} {pre post : List (Tensor ℂ)} {f x i j y : Nat} {T : List Nat → ℂ} (w4 : WF f post ds3 1) (hpost : ∀ A ∈ post, RightIso A)
    {Θ : Nat → ℂ} (h : ∀ r, IsCfg ds3 r → ovL ds1 pre T x (i :: j :: r) = ∑ y ∈ Finset.range f, Θ y * path post r y 0) (hy : y < f) :
    ovP ds1 ds3 pre post T x i j y = Θ y := by
  unfold ovP
  have e1 : ∀ r, IsCfg ds3 r → star (path post r y 0) * (sumCfg ds1 fun l => star (path pre l 0 x) * T (l ++ i :: j :: r)) =
      ∑ y' ∈ Finset.range f, Θ y' * (path post r y' 0 * star (path post r y 0)) := by
    intro r hr
    have := h r hr
    unfold ovL at this
    rw [this, Finset.mul_sum]
    exact Finset.sum_congr rfl fun _ _ => by ring
  rw [sumCfg_congr e1, sumCfg_sum]
  have e2 : ∀ y' ∈ Finset.range f, sumCfg ds3 (fun r => Θ y' * (path post r y' 0 * star (path post r y 0))) = if y' = y then Θ y' else 0 := by
    intro y' hy'
    have := right_chain w4 hpost y' y (Finset.mem_range.1 hy') hy
    rw [Finset.sum_range_one] at this
    rw [sumCfg_mul_left, this]
    split_ifs <;> simp
  rw [Finset.sum_congr rfl e2, Finset.sum_ite_eq', if_pos (Finset.mem_range.2 hy)]

theorem ovP_R {ds1 ds3 : List Nat} {pre post : List (Tensor ℂ)} {c x i j y : Nat} {T : List Nat → ℂ} (w1 : WF 1 pre ds1 c) (hpre : ∀ A ∈ pre, LeftIso A)
    {Θ : Nat → ℂ} (h : ∀ l, IsCfg ds1 l → ovR ds3 post T y (l ++ [i, j]) = ∑ x ∈ Finset.range c, path pre l 0 x * Θ x) (hx : x < c) :
    ovP ds1 ds3 pre post T x i j y = Θ x := by
  unfold ovP
  have e0 : (sumCfg ds3 fun r => star (path post r y 0) * sumCfg ds1 fun l => star (path pre l 0 x) * T (l ++ i :: j :: r)) =
      sumCfg ds1 fun l => star (path pre l 0 x) * ovR ds3 post T y (l ++ [i, j]) := by
    unfold ovR
    simp only [← sumCfg_mul_left]
    rw [sumCfg_comm]
    exact sumCfg_congr fun l _ => sumCfg_congr fun r _ => by
      rw [List.append_assoc]; simp only [List.cons_append, List.nil_append]; ring
  have e1 : ∀ l, IsCfg ds1 l → star (path pre l 0 x) * ovR ds3 post T y (l ++ [i, j]) =
      ∑ x' ∈ Finset.range c, (star (path pre l 0 x) * path pre l 0 x') * Θ x' := by
    intro l hl
    rw [h l hl, Finset.mul_sum]
    exact Finset.sum_congr rfl fun _ _ => by ring
  rw [e0, sumCfg_congr e1, sumCfg_sum]
  have e2 : ∀ x' ∈ Finset.range c, sumCfg ds1 (fun l => (star (path pre l 0 x) * path pre l 0 x') * Θ x') = if x = x' then Θ x' else 0 := by
    intro x' hx'
    have := left_chain w1 hpre x x' hx (Finset.mem_range.1 hx')
    rw [Finset.sum_range_one] at this
    rw [sumCfg_mul_right, this]
    split_ifs <;> simp
  rw [Finset.sum_congr rfl e2, Finset.sum_ite_eq, if_pos (Finset.mem_range.2 hx)]

set_option maxHeartbeats 1600000 in
/-- a two-site gate with truncation, any matrix -/
theorem gate2_sees {svd : Tensor ℂ → SvdRes ℂ} (hg : GoodSvd svd) (eps : ℝ) {dflt : ℝ} (hd0 : 0 < dflt) (x : Evo) {ds : List Nat} {k : Nat}
    (hw : WF 1 x.P ds 1) (hl : ∀ j < k, LeftIso (site x.P j)) (hr : ∀ j, k + 1 < j → j < ds.length → RightIso (site x.P j))
    (hk : k + 1 < ds.length) {U : Tensor ℂ}
    (hUd : U.dims = [ds.getD k 0 * ds.getD (k + 1) 0, ds.getD k 0 * ds.getD (k + 1) 0])
    (dk : Int) (tol : ℝ) (htol : 0 < effTol dflt tol) {D : Nat} (hD : D ≠ 0) {T : List Nat → ℂ} (hT : Sees dk ds x.P T (if dk > 0 then k else k + 1)) :
    let y := applyTwo svd eps dflt x U k dk tol D
    let T' := actPair (ds.getD k 0) (ds.getD (k + 1) 0) U k T
    Cent ds y.P (nextCentre ds.length dk (if dk > 0 then k + 1 else k)) ∧ Sees dk ds y.P T' (nextCentre ds.length dk (if dk > 0 then k + 1 else k)) ∧
      (SortedSvd svd → ∀ φ : List Nat → ℂ, SchmidtRank ds (k + 1) D φ →
        y.err - x.err ≤ max (sumCfg ds fun s => ‖T' s - φ s‖ ^ 2) (max (effTol dflt tol) eps * sumCfg ds fun s => ‖T' s‖ ^ 2)) := by
  intro y T'
  have hlen := hw.length
  obtain ⟨pre, X, Y, post, hP, hlp⟩ := split_at2 x.P k (by omega)
  rw [hP] at hw
  obtain ⟨ds1, ds', c, rfl, w1, w2⟩ := hw.split
  cases w2 with
  | @cons c d e b A As ds'' hXd hc hd he w3 =>
  cases w3 with
  | @cons e d2 f b A As ds3 hYd _ hd2 hf w4 =>
  have hg1 : (ds1 ++ d :: d2 :: ds3).getD k 0 = d := by rw [← hlp, w1.length]; simp
  have hg2 : (ds1 ++ d :: d2 :: ds3).getD (k + 1) 0 = d2 := by rw [← hlp, w1.length]; simp
  have hT' : T' = actPair d d2 U k T := by simp only [T']; rw [hg1, hg2]
  clear_value T'
  subst hT'
  rw [hg1, hg2] at hUd
  obtain ⟨B1, B2, g, err, hB1, hB2, hg0, -, hI, -, -, -, hpr, ⟨A, hA, hAget, hgA, herrA⟩, happ⟩ := applyTwo_full hg eps hd0 x hP w1 hXd hYd
    ⟨hc, hd, he, hd2, hf⟩ w4 U hUd dk tol htol D
  rw [hlp] at happ
  have hpl : pre.length + (post.length + 2) = (ds1 ++ d :: d2 :: ds3).length := by rw [← hlen, hP]; simp
  have hpre : ∀ A ∈ pre, LeftIso A := by
    intro A hA
    obtain ⟨j, hj, rfl⟩ := List.getElem_of_mem hA
    have := hl j (by omega)
    rwa [hP, show site (pre ++ X :: Y :: post) j = pre[j] by simp [site, List.getD_eq_getElem?_getD, List.getElem?_append, hj]] at this
  have hpost : ∀ A ∈ post, RightIso A := by
    intro A hA
    obtain ⟨j, hj, rfl⟩ := List.getElem_of_mem hA
    have := hr (k + 2 + j) (by omega) (by omega)
    rwa [hP, show site (pre ++ X :: Y :: post) (k + 2 + j) = post[j] by
      rw [← hlp]
      simp only [site, List.getD_eq_getElem?_getD]
      rw [List.getElem?_append_right (by omega), show pre.length + 2 + j - pre.length = j + 1 + 1 by omega, List.getElem?_cons_succ,
        List.getElem?_cons_succ]
      simp [hj]] at this
  set Q := pre ++ B1 :: B2 :: post with hQdef
  have hQ : WF 1 Q (ds1 ++ d :: d2 :: ds3) 1 := w1.append (WF.cons hB1 hc hd hg0 (WF.cons hB2 hg0 hd2 hf w4))
  have siteQ : ∀ j, j ≠ k → j ≠ k + 1 → site Q j = site x.P j := by
    intro j h1 h2
    rw [hP, hQdef, ← hlp] at *
    simp only [site, List.getD_eq_getElem?_getD]
    by_cases hj : j < pre.length
    · rw [List.getElem?_append_left hj, List.getElem?_append_left hj]
    · obtain ⟨m, rfl⟩ : ∃ m, j = pre.length + (m + 2) := ⟨j - pre.length - 2, by omega⟩
      rw [List.getElem?_append_right (by omega), List.getElem?_append_right (by omega)]
      simp
  have sB1 : site Q k = B1 := by rw [hQdef, ← hlp]; simp [site]
  have sB2 : site Q (k + 1) = B2 := by rw [hQdef, ← hlp]; simp [site]
  set k' := (if dk > 0 then k + 1 else k) with hk'
  have hk'l : k' < (ds1 ++ d :: d2 :: ds3).length := by rw [hk']; split <;> omega
  have hcent : Cent (ds1 ++ d :: d2 :: ds3) Q k' := by
    rw [hk']
    by_cases hdk : dk > 0
    · simp only [if_pos hdk] at hI ⊢
      refine ⟨hQ, fun j hj => ?_, fun j hj hj2 => ?_⟩
      · by_cases hjk : j = k
        · rw [hjk, sB1]; exact hI
        · rw [siteQ j hjk (by omega)]; exact hl j (by omega)
      · rw [siteQ j (by omega) (by omega)]; exact hr j hj hj2
    · simp only [if_neg hdk] at hI ⊢
      refine ⟨hQ, fun j hj => ?_, fun j hj hj2 => ?_⟩
      · rw [siteQ j (by omega) (by omega)]; exact hl j hj
      · by_cases hjk : j = k + 1
        · rw [hjk, sB2]; exact hI
        · rw [siteQ j (by omega) hjk]; exact hr j (by omega) hj2
  obtain ⟨s1, -, -, -, -⟩ := store hg eps hd0 hcent hk'l dk
  have hy : y = ⟨(setCanonical svd eps dflt Q k' (site Q k') dk true).1, x.err + err, x.hidden + (setCanonical svd eps dflt Q k' (site Q k') dk true).2⟩ := by
    simp only [y, happ, ne_eq, hD, not_false_eq_true, if_true]
  rw [hy]
  refine ⟨s1, ⟨fun hdk => ?_, fun hdk => ?_⟩, fun hsort φ hφ => ?_⟩
  · have hk1 : k' = k + 1 := if_pos hdk
    have h1 := hT.1 hdk
    rw [if_pos hdk] at h1 hpr
    rw [hP, ← hlp] at h1
    have := pair_seesL w1 hXd hYd ⟨hc, hd, he, hd2, hf⟩ hg0 w4 hB1 hB2 h1 hpr
    rw [hlp, ← hk1] at this
    exact this.store hg eps hd0 hQ hk'l hdk
  · have hk1 : k' = k := if_neg hdk
    have h1 := hT.2 hdk
    rw [if_neg hdk] at h1 hpr
    rw [hP, ← hlp] at h1
    have := pair_seesR w1 hXd hYd ⟨hc, hd, he, hd2, hf⟩ hg0 w4 hB1 hB2 h1 hpr
    rw [hlp, ← hk1] at this
    rw [← hk1]
    exact this.store hg eps hd0 hQ hk'l hdk
  · simp only [add_sub_cancel_left]
    obtain ⟨o1, o2⟩ := pair_opt hg hsort ⟨hc, hd, hd2, hf⟩ w1 w4 hpre hpost hA (actPair d d2 U k T) (by
      intro a i j b ha hi hj hb
      rw [hAget a i j b ha hi hj hb, ← hlp]
      by_cases hdk : dk > 0
      · have h1 := hT.1 hdk
        rw [if_pos hdk, hP, ← hlp] at h1
        exact (ovP_L (Θ := fun y => ∑ i' ∈ Finset.range d, ∑ j' ∈ Finset.range d2, U.get [i + d * j, i' + d * j'] * ∑ z ∈ Finset.range e, X.get [a, i', z] * Y.get [z, j', y])
          w4 hpost (fun r hr => SeesL.pair w1 hXd hYd ⟨hc, hd, he, hd2, hf⟩ w4 h1 ha hi hj hr) hb).symm
      · have h1 := hT.2 hdk
        rw [if_neg hdk, hP, ← hlp] at h1
        exact (ovP_R (Θ := fun x => ∑ i' ∈ Finset.range d, ∑ j' ∈ Finset.range d2, U.get [i + d * j, i' + d * j'] * ∑ z ∈ Finset.range e, X.get [x, i', z] * Y.get [z, j', b])
          w1 hpre (fun l hl => SeesR.pair w1 hXd hYd ⟨hc, hd, he, hd2, hf⟩ w4 h1 hb hi hj hl) ha).symm)
    have o2 := o2 D φ (by rw [hlp]; exact hφ)
    rw [herrA, Props.cumulated_eq]
    rw [if_pos hD] at hgA
    rcases wtt_cap eps dflt (svd A).s tol (Nat.pos_of_ne_zero hD) hd0.le htol with h | h
    · rw [hgA, h]
      exact le_max_of_le_left o2
    · rw [hgA]
      refine le_max_of_le_right (h.trans ?_)
      exact mul_le_mul_of_nonneg_left o1 (htol.le.trans (le_max_left _ _))

/-- a single-site gate with truncation, any matrix -/
theorem gate1_sees {svd : Tensor ℂ → SvdRes ℂ} (hg : GoodSvd svd) (eps : ℝ) {dflt : ℝ} (hd0 : 0 < dflt) (x : Evo) {ds : List Nat} {k : Nat}
    (h : Cent ds x.P k) (hk : k < ds.length) {U : Tensor ℂ} (hUd : U.dims = [ds.getD k 0, ds.getD k 0])
    (dk : Int) {D : Nat} (hD : D ≠ 0) {T : List Nat → ℂ} (hT : Sees dk ds x.P T k) :
    let y := applyOne svd eps dflt x U k dk D
    Cent ds y.P (nextCentre ds.length dk k) ∧ Sees dk ds y.P (actSite (ds.getD k 0) U k T) (nextCentre ds.length dk k) ∧ y.err = x.err := by
  intro y
  have hlen := h.wf.length
  have hdk : 0 < ds.getD k 0 := by
    obtain ⟨a', d, b', -, -, h2, -, h4, -⟩ := path_zero h.wf k (by omega)
    rw [h4]; exact h2
  have hUne : U.isEmpty = false := by
    simp [Tensor.isEmpty, Tensor.size, hUd]; simpa using hdk.ne'
  set Q := x.P.set k (foldin U (-1) (site x.P k) 1) with hQ
  have hw : WF 1 Q ds 1 := h.wf.set_act hUd
  have hc : Cent ds Q k := ⟨hw,
    fun j hj => by rw [hQ, site_set _ _ _ _ (by omega), if_neg (by omega)]; exact h.lo j hj,
    fun j hj hj2 => by rw [hQ, site_set _ _ _ _ (by omega), if_neg (by omega)]; exact h.hi j hj hj2⟩
  obtain ⟨s1, -, -, -, -⟩ := store hg eps hd0 hc hk dk
  have hy : y = ⟨(setCanonical svd eps dflt Q k (site Q k) dk true).1, x.err, x.hidden + (setCanonical svd eps dflt Q k (site Q k) dk true).2⟩ := by
    simp only [y, applyOne, hUne, Bool.false_eq_true, if_false, ne_eq, hD, not_false_eq_true, if_true]
    rw [hQ, Form.site_set_self (by omega), ← setCanonical_set _ _ _ _ _ (by omega), Form.site_set_self (by omega)]
  rw [hy]
  exact ⟨s1, ⟨fun hs => ((hT.1 hs).one h.wf hk hUd).store hg eps hd0 hw hk hs, fun hs => ((hT.2 hs).one h.wf hk hUd).store hg eps hd0 hw hk hs⟩, rfl⟩

end MPS.Trotter
