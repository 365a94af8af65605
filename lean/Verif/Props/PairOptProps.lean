import Verif.ApplyOpt
import Verif.PairProj
import Verif.Props.ApplyOptProps

/-!
# C127: `set_canonical_2_sites` finds the best approximation

`SchmidtRank` (`SchmidtSpec`): the wave function is a sum of `D` products.  `SortedSvd`: the singular values come in decreasing order.
-/

set_option linter.unusedSectionVars false
set_option linter.unusedSimpArgs false

namespace MPS.Props
open MPS Tensor Trotter Minim

variable {K : Type} [RCLike K]

/-- the wave function of the chain `P` with the tensors at `p` and `p + 1` replaced by the two-site tensor `Pij` -/
def pairState (P : List (Tensor K)) (p : Nat) (Pij : Tensor K) (s : List Nat) : K :=
  ∑ x ∈ Finset.range ((site P p).dim 0), ∑ y ∈ Finset.range ((site P (p + 1)).dim 2),
    path (P.take p) (s.take p) 0 x * Pij.get [x, s.getD p 0, s.getD (p + 1) 0, y] * path (P.drop (p + 2)) (s.drop (p + 2)) y 0

/-- the other tensors of the chain are isometries, on both sides of the pair -/
def CanonicalAround (ds : List Nat) (P : List (Tensor K)) (p : Nat) : Prop :=
  (∀ j < p, LeftIso (site P j)) ∧ ∀ j, p + 1 < j → j < ds.length → RightIso (site P j)

theorem setCanonical2_lost {svd : Tensor K → SvdRes K} {eps dflt : ℝ} {P Q : List (Tensor K)} {Pij : Tensor K} {k sense Dmax : Int} {tol lost x : ℝ}
    {c d d2 f : Nat} (hd : Pij.dims = [c, d, d2, f]) (h : setCanonical2 svd eps dflt P Pij k sense Dmax tol false = some (Q, lost, x)) :
    lost = discarded (svd (reshape Pij [c * d, d2 * f])).s (whereToTruncate eps dflt (svd (reshape Pij [c * d, d2 * f])).s tol Dmax) := by
  rw [← cumulated_eq]
  unfold setCanonical2 at h
  simp only [hd, List.getD_cons_zero, List.getD_cons_succ] at h
  split_ifs at h <;> simp only [Option.some.injEq, Prod.mk.injEq] at h <;> exact h.2.1.symm

theorem pairState_split {pre post : List (Tensor K)} {X Y : Tensor K} {c d e d2 f : Nat} (hX : X.dims = [c, d, e]) (hY : Y.dims = [e, d2, f]) (Pij : Tensor K)
    {l r : List Nat} (hl : l.length = pre.length) (i j : Nat) :
    pairState (pre ++ X :: Y :: post) pre.length Pij (l ++ i :: j :: r) =
      ∑ x ∈ Finset.range c, path pre l 0 x * ∑ y ∈ Finset.range f, Pij.get [x, i, j, y] * path post r y 0 := by
  have a1 : site (pre ++ X :: Y :: post) pre.length = X := by simp [site]
  have a2 : site (pre ++ X :: Y :: post) (pre.length + 1) = Y := by simp [site]
  have b1 : (l ++ i :: j :: r).getD pre.length 0 = i := by rw [← hl]; simp
  have b2 : (l ++ i :: j :: r).getD (pre.length + 1) 0 = j := by rw [← hl]; simp
  have c1 : (pre ++ X :: Y :: post).take pre.length = pre := by simp
  have c2 : (pre ++ X :: Y :: post).drop (pre.length + 2) = post := by rw [List.drop_append]; simp
  have c3 : (l ++ i :: j :: r).take pre.length = l := by rw [← hl]; simp
  have c4 : (l ++ i :: j :: r).drop (pre.length + 2) = r := by rw [← hl, List.drop_append]; simp
  unfold pairState
  rw [a1, a2, b1, b2, c1, c2, c3, c4]
  simp only [dim0_of hX, dim2_of hY, Finset.mul_sum, mul_assoc]

theorem pairState_ov {ds1 ds3 : List Nat} {pre post : List (Tensor K)} {X Y : Tensor K} {c d e d2 f : Nat} (hX : X.dims = [c, d, e]) (hY : Y.dims = [e, d2, f])
    (w1 : WF 1 pre ds1 c) (w4 : WF f post ds3 1) (hpre : ∀ A ∈ pre, LeftIso A) (hpost : ∀ A ∈ post, RightIso A) (Pij : Tensor K)
    (x i j y : Nat) (hx : x < c) (hy : y < f) :
    ovP ds1 ds3 pre post (pairState (pre ++ X :: Y :: post) pre.length Pij) x i j y = Pij.get [x, i, j, y] := by
  unfold ovP
  have e1 : ∀ r, IsCfg ds3 r → star (path post r y 0) * (sumCfg ds1 fun l => star (path pre l 0 x) *
      pairState (pre ++ X :: Y :: post) pre.length Pij (l ++ i :: j :: r)) =
      ∑ v ∈ Finset.range f, Pij.get [x, i, j, v] * (path post r v 0 * star (path post r y 0)) := by
    intro r hr
    have e2 : (sumCfg ds1 fun l => star (path pre l 0 x) * pairState (pre ++ X :: Y :: post) pre.length Pij (l ++ i :: j :: r)) =
        ∑ u ∈ Finset.range c, sumCfg ds1 fun l => star (path pre l 0 x) * path pre l 0 u * ∑ v ∈ Finset.range f, Pij.get [u, i, j, v] * path post r v 0 := by
      rw [← sumCfg_sum]
      refine sumCfg_congr fun l hl => ?_
      rw [pairState_split hX hY Pij (by rw [hl.length, w1.length]), Finset.mul_sum]
      exact Finset.sum_congr rfl fun _ _ => by ring
    rw [e2, Finset.sum_congr rfl (g := fun u => if x = u then ∑ v ∈ Finset.range f, Pij.get [u, i, j, v] * path post r v 0 else 0)]
    · rw [Finset.sum_ite_eq, if_pos (Finset.mem_range.2 hx), Finset.mul_sum]
      exact Finset.sum_congr rfl fun _ _ => by ring
    · intro u hu
      have := left_chain w1 hpre x u hx (Finset.mem_range.1 hu)
      rw [Finset.sum_range_one] at this
      rw [sumCfg_mul_right, this]
      split_ifs <;> simp
  rw [sumCfg_congr e1, sumCfg_sum]
  have e2 : ∀ y' ∈ Finset.range f, sumCfg ds3 (fun r => Pij.get [x, i, j, y'] * (path post r y' 0 * star (path post r y 0))) =
      if y' = y then Pij.get [x, i, j, y'] else 0 := by
    intro y' hy'
    have := right_chain w4 hpost y' y (Finset.mem_range.1 hy') hy
    rw [Finset.sum_range_one] at this
    rw [sumCfg_mul_left, this]
    split_ifs <;> simp
  rw [Finset.sum_congr rfl e2, Finset.sum_ite_eq', if_pos (Finset.mem_range.2 hy)]

theorem wtt_full (eps : ℝ) {dflt : ℝ} (s : List ℝ) (tol : ℝ) {D : Nat} (hD : 0 < D) (hd : 0 ≤ dflt) (h : 1 ≤ effTol dflt tol) :
    whereToTruncate eps dflt s tol D = D ∨ discarded s (whereToTruncate eps dflt s tol D) = 0 := by
  rcases Nat.lt_or_ge D s.length with hl | hl
  · left
    have key : ∀ t, 1 ≤ t → whereToTruncate eps dflt s t D = D := by
      intro t ht
      obtain ⟨c1, c2, c3, c4, c5, c6⟩ := C18_truncate eps dflt s t (by linarith) D
      rw [if_pos (by omega)] at c3
      simpa using c3 ht
    unfold effTol at h
    by_cases ht : tol < 0
    · rw [if_pos ht] at h
      rw [C18_default eps dflt s tol ht hd]
      exact key dflt h
    · rw [if_neg ht] at h
      exact key tol h
  · exact Or.inr (wtt_lossless eps dflt s tol D (by omega) hd (Or.inr h))

theorem wtt_nocap (eps : ℝ) {dflt : ℝ} (s : List ℝ) (tol : ℝ) (hd : 0 ≤ dflt) (h : 0 < effTol dflt tol) :
    discarded s (whereToTruncate eps dflt s tol 0) ≤ max (effTol dflt tol) eps * discarded s 0 := by
  have e : whereToTruncate eps dflt s tol 0 = whereToTruncate eps dflt s tol s.length := by
    unfold whereToTruncate
    have : effDim s.length 0 = effDim s.length (s.length : Int) := by simp [effDim]
    simp only [this]
  rw [e]
  exact wtt_lost eps dflt s tol _ le_rfl hd h

theorem wf_right {a b b' : Nat} {l : List (Tensor K)} {ds : List Nat} (h : WF a l ds b) (h' : WF a l ds b') : b = b' := by
  induction h with
  | nil => cases h'; rfl
  | cons e _ _ _ _ ih =>
    cases h' with
    | cons e' _ _ _ w' =>
      rw [e] at e'
      simp only [List.cons.injEq, and_true, true_and] at e'
      obtain rfl := e'
      exact ih w'

theorem wf_left {a a' b : Nat} {l : List (Tensor K)} {ds : List Nat} (h : WF a l ds b) (h' : WF a' l ds b) : a = a' := by
  cases h with
  | nil => cases h'; rfl
  | cons e _ _ _ _ =>
    cases h' with
    | cons e' _ _ _ w' =>
      rw [e] at e'
      simp only [List.cons.injEq, and_true, true_and] at e'
      exact e'.1

/-- distance between the wave function with the pair tensor and a chain which differs from the given one only at the pair -/
theorem pairState_dist {ds1 ds3 : List Nat} {pre post : List (Tensor K)} {X Y B1 B2 : Tensor K} {c d e d2 f g : Nat} (hX : X.dims = [c, d, e])
    (hY : Y.dims = [e, d2, f]) (hB1 : B1.dims = [c, d, g]) (hB2 : B2.dims = [g, d2, f]) (hpos : 0 < c ∧ 0 < d ∧ 0 < g ∧ 0 < d2 ∧ 0 < f)
    (w1 : WF 1 pre ds1 c) (w4 : WF f post ds3 1) (hpre : ∀ A ∈ pre, LeftIso A) (hpost : ∀ A ∈ post, RightIso A) (Pij : Tensor K) :
    (sumCfg (ds1 ++ d :: d2 :: ds3) fun s => ‖pairState (pre ++ X :: Y :: post) pre.length Pij s - amp (pre ++ B1 :: B2 :: post) s‖ ^ 2) =
      ∑ x ∈ Finset.range c, ∑ i ∈ Finset.range d, ∑ j ∈ Finset.range d2, ∑ y ∈ Finset.range f,
        ‖Pij.get [x, i, j, y] - ∑ m ∈ Finset.range g, B1.get [x, i, m] * B2.get [m, j, y]‖ ^ 2 := by
  obtain ⟨p1, p2, p3, p4, p5⟩ := hpos
  have wB : WF 1 (pre ++ B1 :: B2 :: post) (ds1 ++ d :: d2 :: ds3) 1 := w1.append (WF.cons hB1 p1 p2 p3 (WF.cons hB2 p3 p4 p5 w4))
  rw [← sandwich_norm w1 w4 hpre hpost]
  simp only [Finset.sum_range_one]
  rw [sumCfg_append]
  refine sumCfg_congr fun s1 hs1 => ?_
  simp only [sumCfg_cons]
  refine Finset.sum_congr rfl fun i hi => Finset.sum_congr rfl fun j hj => sumCfg_congr fun s3 hs3 => ?_
  have l1 : s1.length = pre.length := by rw [hs1.length, w1.length]
  rw [amp_of_WF wB (by simp), Finset.sum_range_one, path_pair_expand w1 hB1 hB2 ⟨p1, p2, p3, p4, p5⟩ w4 hs1 i j (by omega),
    pairState_split hX hY Pij l1 i j, ← Finset.sum_sub_distrib]
  congr 2
  refine Finset.sum_congr rfl fun u _ => ?_
  rw [← mul_sub, ← Finset.sum_sub_distrib]
  congr 1
  exact Finset.sum_congr rfl fun v _ => by rw [sub_mul]

theorem pairState_norm {ds1 ds3 : List Nat} {pre post : List (Tensor K)} {X Y : Tensor K} {c d e d2 f : Nat} (hX : X.dims = [c, d, e])
    (hY : Y.dims = [e, d2, f]) (w1 : WF 1 pre ds1 c) (w4 : WF f post ds3 1) (hpre : ∀ A ∈ pre, LeftIso A) (hpost : ∀ A ∈ post, RightIso A) (Pij : Tensor K) :
    (sumCfg (ds1 ++ d :: d2 :: ds3) fun s => ‖pairState (pre ++ X :: Y :: post) pre.length Pij s‖ ^ 2) =
      ∑ x ∈ Finset.range c, ∑ i ∈ Finset.range d, ∑ j ∈ Finset.range d2, ∑ y ∈ Finset.range f, ‖Pij.get [x, i, j, y]‖ ^ 2 := by
  rw [← sandwich_norm w1 w4 hpre hpost]
  simp only [Finset.sum_range_one]
  rw [sumCfg_append]
  refine sumCfg_congr fun s1 hs1 => ?_
  simp only [sumCfg_cons]
  refine Finset.sum_congr rfl fun i hi => Finset.sum_congr rfl fun j hj => sumCfg_congr fun s3 hs3 => ?_
  rw [pairState_split hX hY Pij (by rw [hs1.length, w1.length]) i j]

/-- what `set_canonical_2_sites` stores, and how it compares to other wave functions -/
theorem pair_core {svd : Tensor K → SvdRes K} (hg : GoodSvd svd) (eps : ℝ) {dflt : ℝ} (hd0 : 0 < dflt)
    {ds : List Nat} {P : List (Tensor K)} (hw : WF 1 P ds 1) (Pij : Tensor K) (k sense : Int) (p : Nat)
    (hp : (if sense > 0 then k else k - 1) = p) (hp2 : p + 1 < ds.length)
    (hdims : Pij.dims = [(site P p).dim 0, ds.getD p 0, ds.getD (p + 1) 0, (site P (p + 1)).dim 2])
    (hcan : CanonicalAround ds P p) (tol : ℝ) (htol : tol < 0 ∨ 0 < tol) (Dmax : Int) :
    let T := pairState P p Pij
    ∃ Q lost, setCanonical2 svd eps dflt P Pij k sense Dmax tol false = some (Q, lost, 0) ∧ WF 1 Q ds 1 ∧
      (0 < Dmax → ((site Q (p + 1)).dim 0 : Int) ≤ Dmax) ∧ (sumCfg ds fun s => ‖T s - amp Q s‖ ^ 2) = lost ∧
      (sumCfg ds fun s => ‖amp Q s‖ ^ 2) = (sumCfg ds fun s => ‖T s‖ ^ 2) - lost ∧
      ∃ s : List ℝ, lost = discarded s (whereToTruncate eps dflt s tol Dmax) ∧ discarded s 0 ≤ (sumCfg ds fun s => ‖T s‖ ^ 2) ∧
        (SortedSvd svd → ∀ (D : Nat) φ, SchmidtRank ds (p + 1) D φ → discarded s D ≤ sumCfg ds fun s => ‖T s - φ s‖ ^ 2) := by
  intro T
  have hlen := hw.length
  have hok : 0 < tol ∨ (tol < 0 ∧ 0 < dflt) ∨ ∃ idx, InB Pij.dims idx ∧ Pij.get idx ≠ 0 :=
    htol.elim (fun h => Or.inr (Or.inl ⟨h, hd0⟩)) Or.inl
  have ht : 0 < effTol dflt tol := by
    unfold effTol; rcases htol with h | h
    · rw [if_pos h]; exact hd0
    · rw [if_neg (by linarith)]; exact h
  obtain ⟨Q, lost, h1, h2, h3, h4, h5, h6, -, h8⟩ := pair_store hg eps hd0.le hw Pij k sense p hp hp2 hdims Dmax tol hok
  refine ⟨Q, lost, h1, h2, ?_⟩
  have hlQ := h2.length
  obtain ⟨pre, X, Y, post, rfl, hl⟩ := split_at2 P p (by omega)
  obtain ⟨pre', B1, B2, post', rfl, hl'⟩ := split_at2 Q p (by omega)
  have epre : pre' = pre := by
    have := Minim.take_ext (l := pre' ++ B1 :: B2 :: post') (l' := pre ++ X :: Y :: post) (k := p) (by omega) (by omega)
      (fun j hj => h3 j (by omega) (by omega))
    rwa [← hl', List.take_left, hl', ← hl, List.take_left] at this
  have epost : post' = post := by
    have := Minim.drop_ext (l := pre' ++ B1 :: B2 :: post') (l' := pre ++ X :: Y :: post) (k := p + 2) (by omega)
      (fun j hj _ => h3 j (by omega) (by omega))
    have dr : ∀ (q : List (Tensor K)) (A B : Tensor K) (r : List (Tensor K)), q.length = p → (q ++ A :: B :: r).drop (p + 2) = r := by
      intro q A B r hq
      rw [show q ++ A :: B :: r = (q ++ [A, B]) ++ r by simp, show p + 2 = (q ++ [A, B]).length by simp [hq], List.drop_left]
    rwa [dr _ _ _ _ hl', dr _ _ _ _ hl] at this
  subst epre epost
  have hX : site (pre' ++ X :: Y :: post') p = X := by simp [site, ← hl]
  have hY : site (pre' ++ X :: Y :: post') (p + 1) = Y := by simp [site, ← hl]
  have hB1 : site (pre' ++ B1 :: B2 :: post') p = B1 := by simp [site, ← hl]
  have hB2 : site (pre' ++ B1 :: B2 :: post') (p + 1) = B2 := by simp [site, ← hl]
  have hw0 := hw
  have hQ0 := h2
  obtain ⟨ds1, ds', c, rfl, w1, w2⟩ := hw.split
  obtain ⟨es1, es', c', he, w1', w2'⟩ := h2.split
  obtain ⟨rfl, rfl⟩ := List.append_inj he (by rw [← w1.length, ← w1'.length])
  obtain rfl := wf_right w1 w1'
  cases w2 with
  | @cons c d e b A As ds'' hXd hc hd he' w3 =>
  cases w3 with
  | @cons e d2 f b A As ds3 hYd _ hd2 hf w4 =>
  cases w2' with
  | @cons c' d e' b A As ds'' hXd' hc' hd' he'' w3' =>
  cases w3' with
  | @cons e' d2 f' b A As ds3 hYd' _ hd2' hf' w4' =>
  obtain rfl := wf_left w4 w4'
  have hg1 : (ds1 ++ d :: d2 :: ds3).getD p 0 = d := by rw [← hl, w1.length]; simp
  have hg2 : (ds1 ++ d :: d2 :: ds3).getD (p + 1) 0 = d2 := by rw [← hl, w1.length]; simp
  rw [hX, hY, hg1, hg2, dim0_of hXd, dim2_of hYd] at hdims
  simp only [pairProduct, hX, hY, hB1, hB2, hg1, hg2, dim0_of hXd, dim2_of hYd, dim2_of hXd'] at h4 h5 h6 h8
  have hpre : ∀ A ∈ pre', LeftIso A := by
    intro A hA
    obtain ⟨j, hj, rfl⟩ := List.getElem_of_mem hA
    have := hcan.1 j (by omega)
    rwa [show site (pre' ++ X :: Y :: post') j = pre'[j] by simp [site, List.getElem?_append_left hj, hj]] at this
  have hpost : ∀ A ∈ post', RightIso A := by
    intro A hA
    obtain ⟨j, hj, rfl⟩ := List.getElem_of_mem hA
    have := hcan.2 (p + 2 + j) (by omega) (by simp only [List.length_append, List.length_cons] at hlen ⊢; omega)
    rwa [show site (pre' ++ X :: Y :: post') (p + 2 + j) = post'[j] by
      rw [← hl, show pre'.length + 2 + j = pre'.length + (j + 2) by omega]
      simp [site, List.getElem?_append_right, List.getElem?_eq_getElem hj]] at this
  have hT : T = pairState (pre' ++ X :: Y :: post') pre'.length Pij := by rw [hl]
  have hdist : (sumCfg (ds1 ++ d :: d2 :: ds3) fun s => ‖T s - amp (pre' ++ B1 :: B2 :: post') s‖ ^ 2) = lost := by
    rw [hT, pairState_dist hXd hYd hXd' hYd' ⟨hc, hd, he'', hd2, hf⟩ w1 w4 hpre hpost Pij]
    exact h6
  refine ⟨?_, hdist, ?_, ?_⟩
  · rw [hB2, dim0_of hYd']
    exact h4
  · have n1 : (sumCfg (ds1 ++ d :: d2 :: ds3) fun s => ‖amp (pre' ++ B1 :: B2 :: post') s‖ ^ 2) =
        ∑ x ∈ Finset.range c, ∑ i ∈ Finset.range d, ∑ j ∈ Finset.range d2, ∑ y ∈ Finset.range f,
          ‖∑ m ∈ Finset.range e', B1.get [x, i, m] * B2.get [m, j, y]‖ ^ 2 := by
      have := pairState_dist hXd hYd hXd' hYd' ⟨hc, hd, he'', hd2, hf⟩ w1 w4 hpre hpost ⟨[], fun _ => 0⟩
      have z : ∀ s, pairState (pre' ++ X :: Y :: post') pre'.length (⟨[], fun _ => 0⟩ : Tensor K) s = 0 := by intro s; simp [pairState]
      simpa [z] using this
    rw [hT, pairState_norm hXd hYd w1 w4 hpre hpost Pij, n1, ← h6]
    by_cases hs : sense > 0
    · rw [if_pos hs] at h5 h8
      have iso : ∀ m m', m < e' → m' < e' → ∑ x ∈ Finset.range c, ∑ i ∈ Finset.range d, star (B1.get [x, i, m]) * B1.get [x, i, m'] = if m = m' then 1 else 0 := by
        intro m m' hm hm'
        have := h5 m m' (by rw [dim2_of hXd']; exact hm) (by rw [dim2_of hXd']; exact hm')
        rwa [dim0_of hXd', dim1_of hXd'] at this
      rw [left_proj (U := fun x i m => B1.get [x, i, m]) (C := fun m j y => B2.get [m, j, y]) (T := fun x i j y => Pij.get [x, i, j, y]) iso h8]
      ring
    · rw [if_neg hs] at h5 h8
      have iso : ∀ m m', m < e' → m' < e' → ∑ j ∈ Finset.range d2, ∑ y ∈ Finset.range f, B2.get [m, j, y] * star (B2.get [m', j, y]) = if m = m' then 1 else 0 := by
        intro m m' hm hm'
        have := h5 m m' (by rw [dim0_of hYd']; exact hm) (by rw [dim0_of hYd']; exact hm')
        rwa [dim1_of hYd', dim2_of hYd'] at this
      rw [right_proj (B := fun x i m => B1.get [x, i, m]) (V := fun m j y => B2.get [m, j, y]) (T := fun x i j y => Pij.get [x, i, j, y]) iso h8]
      ring
  have hget : ∀ x i j y, x < c → i < d → j < d2 → y < f →
      (reshape Pij [c * d, d2 * f]).get [x + c * i, j + d2 * y] = ovP ds1 ds3 pre' post' T x i j y := by
    intro x i j y hx hi hj hy
    rw [hT, pairState_ov hXd hYd w1 w4 hpre hpost Pij x i j y hx hy]
    apply reshape_get
    · rw [hdims]; simp [hx, hi, hj, hy]
    · rw [hdims]; simp only [flat]; ring
  have o1 := pair_total hg ⟨hc, hd, hd2, hf⟩ w1 w4 hpre hpost (A := reshape Pij [c * d, d2 * f]) rfl T hget
  have o2 := fun hsort => (pair_opt hg hsort ⟨hc, hd, hd2, hf⟩ w1 w4 hpre hpost (A := reshape Pij [c * d, d2 * f]) rfl T hget).2
  have hlost := setCanonical2_lost hdims h1
  rw [hl] at o2
  exact ⟨_, hlost, o1, o2⟩

/-- **C127.**  Let all the other tensors of `P` be isometries.  `set_canonical_2_sites(P, Pij, k, sense, Dmax, tol)` with `Dmax = D` stores a state
`Q` with a bond of dimension `D` at most between the two sites.  Its squared distance to the wave function `T` with the pair replaced by `Pij` is what the
routine reports as lost, and so is the squared norm that is missing; no wave function `φ` at all of Schmidt rank `D` is closer to `T`, unless the error is already below the
tolerance; and no `φ` is closer if the tolerance does not truncate (`MPS_DO_NOT_TRUNCATE`). -/
theorem C127_best {svd : Tensor K → SvdRes K} (hg : GoodSvd svd) (hsort : SortedSvd svd) (eps : ℝ) {dflt : ℝ} (hd0 : 0 < dflt)
    {ds : List Nat} {P : List (Tensor K)} (hw : WF 1 P ds 1) (Pij : Tensor K) (k sense : Int) (p : Nat)
    (hp : (if sense > 0 then k else k - 1) = p) (hp2 : p + 1 < ds.length)
    (hdims : Pij.dims = [(site P p).dim 0, ds.getD p 0, ds.getD (p + 1) 0, (site P (p + 1)).dim 2])
    (hcan : CanonicalAround ds P p) (tol : ℝ) (htol : tol < 0 ∨ 0 < tol) (D : Nat) (hD : 0 < D) :
    let T := pairState P p Pij
    let t := if tol < 0 then dflt else tol
    ∃ Q lost, setCanonical2 svd eps dflt P Pij k sense D tol false = some (Q, lost, 0) ∧ WF 1 Q ds 1 ∧ SchmidtRank ds (p + 1) D (amp Q) ∧
      (sumCfg ds fun s => ‖T s - amp Q s‖ ^ 2) = lost ∧
      (sumCfg ds fun s => ‖amp Q s‖ ^ 2) = (sumCfg ds fun s => ‖T s‖ ^ 2) - lost ∧
      ∀ φ, SchmidtRank ds (p + 1) D φ →
        lost ≤ max (sumCfg ds fun s => ‖T s - φ s‖ ^ 2) (max t eps * sumCfg ds fun s => ‖T s‖ ^ 2) ∧
        (1 ≤ t → lost ≤ sumCfg ds fun s => ‖T s - φ s‖ ^ 2) := by
  intro T t
  have ht : 0 < effTol dflt tol := by
    unfold effTol; rcases htol with h | h
    · rw [if_pos h]; exact hd0
    · rw [if_neg (by linarith)]; exact h
  obtain ⟨Q, lost, h1, h2, h3, h4, h5, s, hlost, o1, o2⟩ := pair_core hg eps hd0 hw Pij k sense p hp hp2 hdims hcan tol htol D
  refine ⟨Q, lost, h1, h2, C126_bond_schmidt h2 hp2 (by have := h3 (by omega); omega), h4, h5, fun φ hφ => ?_⟩
  have hopt := o2 hsort D φ hφ
  have hm : 0 < max t eps := lt_of_lt_of_le ht (le_max_left _ _)
  refine ⟨?_, fun h1t => ?_⟩
  · rcases wtt_cap eps dflt s tol hD hd0.le ht with hh | hh
    · rw [hlost, hh]; exact hopt.trans (le_max_left _ _)
    · rw [hlost]; exact (hh.trans (mul_le_mul_of_nonneg_left o1 hm.le)).trans (le_max_right _ _)
  · rcases wtt_full eps s tol hD hd0.le h1t with hh | hh
    · rw [hlost, hh]; exact hopt
    · rw [hlost, hh]; exact sumCfg_nonneg _ _ fun _ _ => by positivity

/-- **C127.**  Without a maximal dimension the squared distance is limited by the tolerance -/
theorem C127_tolerance {svd : Tensor K → SvdRes K} (hg : GoodSvd svd) (eps : ℝ) {dflt : ℝ} (hd0 : 0 < dflt)
    {ds : List Nat} {P : List (Tensor K)} (hw : WF 1 P ds 1) (Pij : Tensor K) (k sense : Int) (p : Nat)
    (hp : (if sense > 0 then k else k - 1) = p) (hp2 : p + 1 < ds.length)
    (hdims : Pij.dims = [(site P p).dim 0, ds.getD p 0, ds.getD (p + 1) 0, (site P (p + 1)).dim 2])
    (hcan : CanonicalAround ds P p) (tol : ℝ) (htol : tol < 0 ∨ 0 < tol) :
    let T := pairState P p Pij
    let t := if tol < 0 then dflt else tol
    ∃ Q lost, setCanonical2 svd eps dflt P Pij k sense 0 tol false = some (Q, lost, 0) ∧ WF 1 Q ds 1 ∧
      (sumCfg ds fun s => ‖T s - amp Q s‖ ^ 2) = lost ∧ lost ≤ max t eps * sumCfg ds fun s => ‖T s‖ ^ 2 := by
  intro T t
  have ht : 0 < effTol dflt tol := by
    unfold effTol; rcases htol with h | h
    · rw [if_pos h]; exact hd0
    · rw [if_neg (by linarith)]; exact h
  obtain ⟨Q, lost, h1, h2, -, h4, -, s, hlost, o1, -⟩ := pair_core hg eps hd0 hw Pij k sense p hp hp2 hdims hcan tol htol 0
  have hm : 0 < max t eps := lt_of_lt_of_le ht (le_max_left _ _)
  refine ⟨Q, lost, h1, h2, h4, ?_⟩
  rw [hlost]
  exact (wtt_nocap eps s tol hd0.le ht).trans (mul_le_mul_of_nonneg_left o1 hm.le)

/-- the hypotheses are met by a chain of three sites with a nontrivial bond and an entangled pair tensor -/
example : ∃ (P : List (Tensor ℂ)) (Pij : Tensor ℂ), WF 1 P [2, 2, 2] 1 ∧ CanonicalAround [2, 2, 2] P 0 ∧ Pij.dims = [1, 2, 2, 2] ∧
    Pij.dims = [(site P 0).dim 0, [2, 2, 2].getD 0 0, [2, 2, 2].getD 1 0, (site P 1).dim 2] ∧
    pairState P 0 Pij [0, 0, 0] = 1 ∧ pairState P 0 Pij [1, 1, 1] = 1 ∧ pairState P 0 Pij [0, 1, 1] = 0 := by
  let A : Tensor ℂ := ⟨[1, 2, 2], fun I => if I.getD 1 0 = I.getD 2 0 then 1 else 0⟩
  let B : Tensor ℂ := ⟨[2, 2, 2], fun I => if I.getD 0 0 = I.getD 1 0 ∧ I.getD 1 0 = I.getD 2 0 then 1 else 0⟩
  let C : Tensor ℂ := ⟨[2, 2, 1], fun I => if I.getD 0 0 = I.getD 1 0 then 1 else 0⟩
  refine ⟨[A, B, C], ⟨[1, 2, 2, 2], fun I => if I.getD 1 0 = I.getD 2 0 ∧ I.getD 2 0 = I.getD 3 0 then 1 else 0⟩, ?_, ⟨fun j hj => absurd hj (by omega), ?_⟩,
    rfl, rfl, ?_, ?_, ?_⟩
  · exact WF.cons rfl Nat.one_pos (by decide) (by decide) (WF.cons rfl (by decide) (by decide) (by decide)
      (WF.cons rfl (by decide) (by decide) Nat.one_pos (WF.nil 1)))
  · intro j h1 h2
    have : j = 2 := by simp at h2; omega
    subst this
    intro x x' hx hx'
    have h1 : x = 0 ∨ x = 1 := by simp [site, C, Tensor.dim] at hx; omega
    have h2 : x' = 0 ∨ x' = 1 := by simp [site, C, Tensor.dim] at hx'; omega
    rcases h1 with rfl | rfl <;> rcases h2 with rfl | rfl <;> simp [site, C, Tensor.dim, Finset.sum_range_succ]
  all_goals simp [pairState, site, A, B, C, Tensor.dim, nrm, Finset.sum_range_succ, path]

end MPS.Props
