import Verif.LayerLeft2

/-! # The invariant of a sweep without maximal dimension, from a state in canonical form with respect to the last site -/

set_option linter.unusedSectionVars false
set_option linter.unusedSimpArgs false

namespace MPS.Trotter
open MPS Tensor Minim Order

/-- a chain of contractions, with bonds of dimension `D` at most after site `c` -/
structure Con (ds : List Nat) (D : Nat) (n0 : ℝ) (P : List (Tensor ℂ)) (c : Nat) : Prop where
  wf : WF 1 P ds 1
  chain : LChain n0 P
  bonds : ∀ j, c < j → j < ds.length → (site P j).dim 0 ≤ D

theorem con_two {svd : Tensor ℂ → SvdRes ℂ} (hg : GoodSvd svd) (eps : ℝ) {dflt : ℝ} (hd0 : 0 < dflt) (x : Evo) {ds : List Nat} {D k : Nat} {n0 : ℝ}
    (hD : 1 ≤ D) (h0 : 0 ≤ n0) (h : Con ds D n0 x.P k) (hk : k + 1 < ds.length) {U : Tensor ℂ}
    (hUd : U.dims = [ds.getD k 0 * ds.getD (k + 1) 0, ds.getD k 0 * ds.getD (k + 1) 0]) (hU : IsUnitary (ds.getD k 0 * ds.getD (k + 1) 0) U)
    (dk : Int) (hdk : dk > 0) (tol : ℝ) (htol : 0 < effTol dflt tol) :
    let y := applyTwo svd eps dflt x U k dk tol 0
    Con ds D n0 y.P (k + 2) ∧
      wdist ds (amp y.P) (actPair (ds.getD k 0) (ds.getD (k + 1) 0) U k (amp x.P)) ≤ Real.sqrt (max (effTol dflt tol) eps * (D * n0)) := by
  intro y
  have hlen := h.wf.length
  obtain ⟨pre, X, Y, post, hP, hlp⟩ := split_at2 x.P k (by omega)
  have hw := h.wf
  rw [hP] at hw
  obtain ⟨ds1, dsr, c, hds, w1, w2⟩ := hw.split
  cases w2 with
  | @cons _ d e _ _ _ dsr' hX p1 p2 p3 w3 =>
  cases w3 with
  | @cons _ d2 f _ _ _ ds3 hY p4 p5 p6 w4 =>
  have hl1 := w1.length
  have hg1 : ds.getD k 0 = d := by rw [hds, ← hlp, hl1]; simp
  have hg2 : ds.getD (k + 1) 0 = d2 := by rw [hds, ← hlp, hl1]; simp
  rw [hg1, hg2] at hUd hU ⊢
  obtain ⟨B1, B2, g, hB1, hB2, hg0, hiso, hloss, -, hleft, hy⟩ := applyTwo_zero hg eps hd0 x hP hX hY ⟨p1, p2, p3, p5, p6⟩ U hUd dk hdk tol htol
  rw [hlp] at hy
  have hch := h.chain
  rw [hP, LChain.append_iff (by simp), LChain.cons_iff (by simp)] at hch
  obtain ⟨cpre, cX, cY⟩ := hch
  obtain ⟨s1, s2⟩ := second_con hX hY hB1 hB2 hU cX hiso hleft
  have wB : WF 1 (pre ++ B1 :: B2 :: post) ds 1 := by
    rw [hds]; exact w1.append (WF.cons hB1 p1 p2 hg0 (WF.cons hB2 hg0 p5 p6 w4))
  have hwy : WF 1 y.P ds 1 := by rw [show y.P = _ from hy]; exact wB
  have ax : ∀ s, amp x.P s = path (pre ++ X :: Y :: post) s 0 0 := fun s => by
    rw [hP, amp_of_WF hw (by simp), Finset.sum_range_one]
  have ay : ∀ s, amp y.P s = path (pre ++ B1 :: B2 :: post) s 0 0 := fun s => by
    rw [show y.P = _ from hy, amp_of_WF wB (by simp), Finset.sum_range_one]
  have hst : ∀ i, k + 2 ≤ i → site y.P i = site x.P i := by
    intro i hi
    rw [show y.P = _ from hy, hP]
    simp only [site, List.getD_eq_getElem?_getD]
    rw [List.getElem?_append_right (by omega), List.getElem?_append_right (by omega)]
    obtain ⟨m, hm⟩ : ∃ m, i - pre.length = m + 2 := ⟨i - pre.length - 2, by omega⟩
    rw [hm]; rfl
  have tau0 : 0 ≤ max (effTol dflt tol) eps := htol.le.trans (le_max_left _ _)
  refine ⟨⟨hwy, ?_, fun j h1 h2 => by rw [hst j (by omega)]; exact h.bonds j (by omega) h2⟩, ?_⟩
  · rw [show y.P = _ from hy, LChain.append_iff (by simp), LChain.cons_iff (by simp)]
    refine ⟨cpre, LCon.of_iso hB1 hiso, ?_⟩
    by_cases hpo : post = []
    · subst hpo
      exact s2.trans cY
    · rw [LChain.cons_iff hpo] at cY ⊢
      exact ⟨s1 cY.1, cY.2⟩
  · obtain ⟨E1, E2, e1, e2, e3⟩ := exists_pair (c := c) (d := d) (d2 := d2) (f := f) p1 (gated U X Y d d2 e)
    have hact := path_pair_act U w1 hX hY e1 e2 ⟨p1, p2, p3, p5, p6, Nat.mul_pos p1 p2⟩ w4 fun x i j y hx hi _ _ => e3 x i j y hx hi
    have hcut := pair_con_dist w1 e1 e2 hB1 hB2 ⟨p1, p2, Nat.mul_pos p1 p2, p5, p6, hg0⟩ w4 zero_le_one (LBound.of_con w1 cpre)
    rw [sumCfg_congr fun s hs => by rw [hact s hs 0 Nat.one_pos 0], ← hds, one_mul] at hcut
    have e4 : ∑ x ∈ Finset.range c, ∑ i ∈ Finset.range d, ∑ j ∈ Finset.range d2, ∑ y ∈ Finset.range f,
        ‖(∑ m ∈ Finset.range (c * d), E1.get [x, i, m] * E2.get [m, j, y]) - ∑ m ∈ Finset.range g, B1.get [x, i, m] * B2.get [m, j, y]‖ ^ 2 =
        ∑ x ∈ Finset.range c, ∑ i ∈ Finset.range d, ∑ j ∈ Finset.range d2, ∑ y ∈ Finset.range f,
        ‖gated U X Y d d2 e x i j y - ∑ m ∈ Finset.range g, B1.get [x, i, m] * B2.get [m, j, y]‖ ^ 2 :=
      Finset.sum_congr rfl fun x hx => Finset.sum_congr rfl fun i hi => Finset.sum_congr rfl fun j _ => Finset.sum_congr rfl fun y _ => by
        rw [e3 x i j y (Finset.mem_range.1 hx) (Finset.mem_range.1 hi)]
    rw [e4] at hcut
    have htot := gated_total (f := f) hX hY hU cX
    have hl : (∑ x ∈ Finset.range c, ∑ i ∈ Finset.range d, ∑ j ∈ Finset.range d2, ∑ y ∈ Finset.range f,
        ‖gated U X Y d d2 e x i j y - ∑ m ∈ Finset.range g, B1.get [x, i, m] * B2.get [m, j, y]‖ ^ 2) ≤ max (effTol dflt tol) eps * sq3 Y :=
      le_trans hloss (mul_le_mul_of_nonneg_left htot tau0)
    have hfin : sq3 Y * rNorm f ds3 post ≤ D * n0 := by
      have hs3 : 0 ≤ sq3 Y := Finset.sum_nonneg fun _ _ => Finset.sum_nonneg fun _ _ => Finset.sum_nonneg fun _ _ => by positivity
      by_cases hpo : post = []
      · subst hpo
        cases w4
        have : rNorm 1 [] [] = 1 := by simp [rNorm, sumCfg_nil, path_nil]
        rw [this, mul_one]
        have hD' : (1 : ℝ) ≤ D := by exact_mod_cast hD
        exact le_trans cY (le_mul_of_one_le_left h0 hD')
      · rw [LChain.cons_iff hpo] at cY
        have hr := cY.2.rNorm w4 rfl hpo
        have hf : f ≤ D := by
          have hk2 : k + 2 < ds.length := by
            have := List.length_pos_of_ne_nil hpo
            rw [hP] at hlen; simp at hlen; omega
          have hb := h.bonds (k + 2) (by omega) hk2
          have : site x.P (k + 2) = site post 0 := by
            rw [hP]
            simp only [site, List.getD_eq_getElem?_getD]
            rw [List.getElem?_append_right (by omega), show k + 2 - pre.length = 2 by omega]
            simp
          rw [this] at hb
          cases w4 with
          | nil => exact absurd rfl hpo
          | cons hh _ _ _ _ => simpa [site, dim0_of hh] using hb
        refine mul_le_mul ((cY.1.total hY).trans (by exact_mod_cast hf)) hr (rNorm_nonneg _ _ _) (Nat.cast_nonneg _)
    have hE : sumCfg ds (fun s => ‖path (pre ++ B1 :: B2 :: post) s 0 0 -
        actPair d d2 U pre.length (fun s => path (pre ++ X :: Y :: post) s 0 0) s‖ ^ 2) ≤ max (effTol dflt tol) eps * (D * n0) := by
      refine hcut.trans ((mul_le_mul_of_nonneg_right hl (rNorm_nonneg _ _ _)).trans ?_)
      rw [mul_assoc]
      exact mul_le_mul_of_nonneg_left hfin tau0
    refine le_trans (le_of_eq ?_) (Real.sqrt_le_sqrt hE)
    unfold wdist wnorm
    congr 1
    refine sumCfg_congr fun s _ => ?_
    beta_reduce
    rw [ay, hlp]
    congr 3
    unfold actPair
    exact Finset.sum_congr rfl fun i _ => Finset.sum_congr rfl fun j _ => by rw [ax]

/-- a unitary on one site -/
theorem unit_one {d : Nat} {U : Tensor ℂ} (hU : IsUnitary d U) (w : Nat → ℂ) :
    ∑ i ∈ Finset.range d, ‖∑ i' ∈ Finset.range d, U.get [i, i'] * w i'‖ ^ 2 = ∑ i ∈ Finset.range d, ‖w i‖ ^ 2 := by
  have h := sumSq_of_inner (inner_actSite (ds := [d]) (k := 0) (by simp) (U := U) (by simpa using hU) fun s => w (s.getD 0 0))
  simpa [sumCfg_cons, sumCfg_nil, actSite] using h

theorem one_con {U X : Tensor ℂ} {c d e : Nat} (hX : X.dims = [c, d, e]) (hUd : U.dims = [d, d]) (hU : IsUnitary d U) :
    (LCon X → LCon (foldin U (-1) X 1)) ∧ sq3 (foldin U (-1) X 1) = sq3 X := by
  have f1 : (foldin U (-1) X 1).dims = [c, d, e] := by simp [foldin, hUd, hX, nrm]
  have f2 : ∀ x i y, (foldin U (-1) X 1).get [x, i, y] = ∑ j ∈ Finset.range d, U.get [i, j] * X.get [x, j, y] := fun x i y => by
    simp [foldin, hUd, hX, nrm]
  constructor
  · intro h v
    have := h v
    rw [dim0_of hX, dim1_of hX, dim2_of hX] at this
    rw [dim0_of f1, dim1_of f1, dim2_of f1]
    refine le_trans (le_of_eq ?_) this
    refine Finset.sum_congr rfl fun x _ => ?_
    rw [← unit_one hU fun i => ∑ y ∈ Finset.range e, X.get [x, i, y] * v y]
    refine Finset.sum_congr rfl fun i _ => ?_
    congr 2
    simp only [f2, Finset.sum_mul, Finset.mul_sum]
    rw [Finset.sum_comm]
    exact Finset.sum_congr rfl fun j _ => Finset.sum_congr rfl fun y _ => by ring
  · unfold sq3
    rw [dim0_of hX, dim1_of hX, dim2_of hX, dim0_of f1, dim1_of f1, dim2_of f1]
    refine Finset.sum_congr rfl fun x _ => ?_
    rw [Finset.sum_comm, Finset.sum_comm (s := Finset.range d)]
    refine Finset.sum_congr rfl fun y _ => ?_
    simp only [f2]
    exact unit_one hU fun i => X.get [x, i, y]

theorem con_one {svd : Tensor ℂ → SvdRes ℂ} (eps dflt : ℝ) {x : Evo} {ds : List Nat} {D k : Nat} {n0 : ℝ} (h : Con ds D n0 x.P k) (hk : k < ds.length)
    {U : Tensor ℂ} (hUd : U.dims = [ds.getD k 0, ds.getD k 0]) (hU : IsUnitary (ds.getD k 0) U) (dk : Int) :
    let y := applyOne svd eps dflt x U k dk 0
    Con ds D n0 y.P (k + 1) ∧ ∀ s, IsCfg ds s → amp y.P s = actSite (ds.getD k 0) U k (amp x.P) s := by
  intro y
  have hlen := h.wf.length
  have hdk : 0 < ds.getD k 0 := by
    obtain ⟨a', d, b', -, -, h2, -, h4, -⟩ := path_zero h.wf k (by omega)
    rw [h4]; exact h2
  have hUne : U.isEmpty = false := by
    simp [Tensor.isEmpty, Tensor.size, hUd]; simpa using hdk.ne'
  have hy : y.P = x.P.set k (foldin U (-1) (site x.P k) 1) := by simp [y, applyOne, hUne]
  have hw : WF 1 y.P ds 1 := by rw [hy]; exact h.wf.set_act hUd
  have hact : ∀ s, IsCfg ds s → amp y.P s = actSite (ds.getD k 0) U k (amp x.P) s := by
    intro s hs
    have hne : y.P ≠ [] := by intro h0; have := hw.length; rw [h0] at this; simp at this; omega
    have hne' : x.P ≠ [] := by intro h0; rw [h0] at hlen; simp at hlen; omega
    rw [amp_of_WF hw hne, Finset.sum_range_one, hy, path_set_act h.wf (by omega) hUd hs.length]
    unfold actSite
    refine Finset.sum_congr rfl fun i _ => ?_
    rw [amp_of_WF h.wf hne', Finset.sum_range_one]
  have hst : ∀ j, k + 1 < j → site y.P j = site x.P j := fun j hj => by
    rw [hy, site_set _ _ _ _ (by omega), if_neg (by omega)]
  refine ⟨⟨hw, ?_, fun j h1 h2 => by rw [hst j h1]; exact h.bonds j (by omega) h2⟩, hact⟩
  obtain ⟨a, b, w1, w2, w3, p1, p2, p3⟩ := WF.around h.wf hk
  obtain ⟨o1, o2⟩ := one_con w2 hUd hU
  have hch := h.chain
  obtain ⟨pre, X, post, hP, hlp⟩ := split_at x.P k (by omega)
  have sX : site x.P k = X := by rw [hP, ← hlp]; simp [site]
  rw [hy, sX, hP, ← hlp, List.set_append_right _ _ le_rfl, Nat.sub_self, List.set_cons_zero, LChain.append_iff (by simp)]
  rw [hP, LChain.append_iff (by simp)] at hch
  rw [sX] at o1 o2
  refine ⟨hch.1, ?_⟩
  by_cases hpo : post = []
  · subst hpo
    exact le_trans (le_of_eq o2) hch.2
  · have := (LChain.cons_iff hpo).1 hch.2
    exact (LChain.cons_iff hpo).2 ⟨o1 this.1, this.2⟩

/-- a state in canonical form with respect to the last site -/
theorem con_start {ds : List Nat} {P : List (Tensor ℂ)} {D : Nat} (h : Cent ds P (ds.length - 1)) (hpos : 0 < ds.length)
    (hb : ∀ j, 0 < j → j < ds.length → (site P j).dim 0 ≤ D) : Con ds D (normSq ds P) P 0 := by
  refine ⟨h.wf, ?_, hb⟩
  have hlen := h.wf.length
  obtain ⟨pre, X, post, hP, hlp⟩ := split_at P (ds.length - 1) (by omega)
  obtain rfl : post = [] := by
    have := congrArg List.length hP
    simp at this
    exact List.eq_nil_of_length_eq_zero (by omega)
  have hcon : ∀ A ∈ pre, LeftIso A := by
    intro A hA
    obtain ⟨i, hi, rfl⟩ := List.getElem_of_mem hA
    have := h.lo i (by omega)
    rwa [hP, show site (pre ++ [X]) i = pre[i] by simp [site, List.getElem?_append_left hi, hi]] at this
  have hw := h.wf
  rw [hP] at hw
  obtain ⟨ds1, ds2, c, hds, w1, w2⟩ := hw.split
  have hall : ∀ (pre : List (Tensor ℂ)) {a c : Nat} {e : List Nat}, WF a pre e c → (∀ A ∈ pre, LeftIso A) → ∀ A ∈ pre, LCon A := by
    intro pre a c e w
    induction w with
    | nil => intro _ A hA; simp at hA
    | cons h1 _ _ _ _ ih =>
      intro hI A hA
      rcases List.mem_cons.1 hA with rfl | hA
      · exact LCon.of_iso h1 (hI _ (by simp))
      · exact ih (fun A hA => hI A (by simp [hA])) A hA
  have hrn : ∀ {a c : Nat} {pre R : List (Tensor ℂ)} {e ds2 : List Nat}, WF a pre e c → (∀ A ∈ pre, LeftIso A) →
      rNorm a (e ++ ds2) (pre ++ R) = rNorm c ds2 R := by
    intro a c pre R e ds2 w
    induction w with
    | nil => intro _; rfl
    | cons h1 _ _ _ _ ih =>
      intro hI
      rw [List.cons_append, List.cons_append, rNorm_cons h1 (hI _ (by simp))]
      exact ih fun A hA => hI A (by simp [hA])
  rw [hP, LChain.append_iff (by simp)]
  refine ⟨hall pre w1 hcon, ?_⟩
  have e1 : normSq ds (pre ++ [X]) = rNorm 1 (ds1 ++ ds2) (pre ++ [X]) := by
    unfold normSq rNorm
    rw [Finset.sum_range_one, hds]
    exact sumCfg_congr fun s _ => by rw [amp_of_WF hw (by simp), Finset.sum_range_one]
  rw [e1, hrn w1 hcon]
  cases w2 with
  | @cons _ d _ _ _ _ _ hX _ _ _ w3 =>
    cases w3
    refine le_of_eq ?_
    unfold sq3 rNorm
    rw [dim0_of hX, dim1_of hX, dim2_of hX]
    refine Finset.sum_congr rfl fun x _ => ?_
    rw [sumCfg_single]
    refine Finset.sum_congr rfl fun i _ => ?_
    rw [Finset.sum_range_one, path_single hX Nat.one_pos]

end MPS.Trotter
