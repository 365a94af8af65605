import Verif.ApplyProj

/-! # The overlaps in one step of a sweep -/

set_option linter.unusedSectionVars false
set_option linter.unusedSimpArgs false

namespace MPS.Trotter
open MPS Tensor Minim Order

theorem SeesL.congr {ds : List Nat} {P : List (Tensor ℂ)} {T T' : List Nat → ℂ} {c : Nat} (h : SeesL ds P T c) (he : ∀ s, IsCfg ds s → T' s = T s) :
    SeesL ds P T' c := by
  obtain ⟨ds1, ds2, pre, rest, a, rfl, rfl, hc, w1, w2, h⟩ := h
  refine ⟨ds1, ds2, pre, rest, a, rfl, rfl, hc, w1, w2, fun x r hx hr => ?_⟩
  rw [← h x r hx hr]
  exact sumCfg_congr fun l hl => by rw [he _ (isCfg_append hl hr)]

theorem SeesR.congr {ds : List Nat} {P : List (Tensor ℂ)} {T T' : List Nat → ℂ} {c : Nat} (h : SeesR ds P T c) (he : ∀ s, IsCfg ds s → T' s = T s) :
    SeesR ds P T' c := by
  obtain ⟨ds1, ds2, rest, post, b, rfl, rfl, hc, w1, w2, h⟩ := h
  refine ⟨ds1, ds2, rest, post, b, rfl, rfl, hc, w1, w2, fun y l hy hl => ?_⟩
  rw [← h y l hy hl]
  exact sumCfg_congr fun r hr => by rw [he _ (isCfg_append hl hr)]

theorem seesL_start {ds : List Nat} {P : List (Tensor ℂ)} (hw : WF 1 P ds 1) (hne : P ≠ []) : SeesL ds P (amp P) 0 := by
  refine ⟨[], ds, [], P, 1, rfl, rfl, rfl, WF.nil 1, hw, fun x r hx hr => ?_⟩
  obtain rfl : x = 0 := by omega
  unfold ovL
  rw [sumCfg_nil, path_nil, if_pos rfl, star_one, one_mul, List.nil_append, amp_of_WF hw hne, Finset.sum_range_one]

theorem seesR_start {ds : List Nat} {P : List (Tensor ℂ)} (hw : WF 1 P ds 1) (hne : P ≠ []) : SeesR ds P (amp P) (ds.length - 1) := by
  have := List.length_pos_iff.2 hne
  have hl := hw.length
  refine ⟨ds, [], P, [], 1, by simp, by simp, by omega, hw, WF.nil 1, fun y l hy hl => ?_⟩
  obtain rfl : y = 0 := by omega
  unfold ovR
  rw [sumCfg_nil, path_nil, if_pos rfl, star_one, one_mul, List.append_nil, amp_of_WF hw hne, Finset.sum_range_one]

/-- the split of a chain at the centre -/
theorem SeesL.at {ds : List Nat} {P : List (Tensor ℂ)} {T : List Nat → ℂ} {c : Nat} (h : SeesL ds P T c) {pre rest : List (Tensor ℂ)} (hP : P = pre ++ rest)
    (hc : pre.length = c) {ds1 ds2 : List Nat} {a : Nat} (hds : ds = ds1 ++ ds2) (w1 : WF 1 pre ds1 a) (w2 : WF a rest ds2 1) (ha : 0 < a) :
    ∀ x r, x < a → IsCfg ds2 r → ovL ds1 pre T x r = path rest r x 0 := by
  obtain ⟨ds1', ds2', pre', rest', a', e1, e2, hc', v1, v2, h⟩ := h
  obtain ⟨rfl, rfl⟩ := List.append_inj (hP.symm.trans e2) (by omega)
  obtain ⟨rfl, rfl⟩ := List.append_inj (hds.symm.trans e1) (by rw [← w1.length, ← v1.length])
  intro x r hx hr
  refine h x r ?_ hr
  cases pre using List.reverseRecOn with
  | nil => cases w1; cases v1; exact hx
  | append_singleton pre A =>
    obtain ⟨p1, p2, c1, q1, q2, q3⟩ := w1.split
    obtain ⟨p1', p2', c1', q1', q2', q3'⟩ := v1.split
    cases q3 with
    | cons hA _ _ _ q4 =>
    cases q4
    cases q3' with
    | cons hA' _ _ _ q4' =>
    cases q4'
    have := hA.symm.trans hA'
    simp only [List.cons.injEq] at this
    omega

theorem SeesR.at {ds : List Nat} {P : List (Tensor ℂ)} {T : List Nat → ℂ} {c : Nat} (h : SeesR ds P T c) {rest post : List (Tensor ℂ)} (hP : P = rest ++ post)
    (hc : rest.length = c + 1) {ds1 ds2 : List Nat} {b : Nat} (hds : ds = ds1 ++ ds2) (w1 : WF 1 rest ds1 b) (w2 : WF b post ds2 1) :
    ∀ y l, y < b → IsCfg ds1 l → ovR ds2 post T y l = path rest l 0 y := by
  obtain ⟨ds1', ds2', rest', post', b', e1, e2, hc', v1, v2, h⟩ := h
  obtain ⟨rfl, rfl⟩ := List.append_inj (hP.symm.trans e2) (by omega)
  obtain ⟨rfl, rfl⟩ := List.append_inj (hds.symm.trans e1) (by rw [← w1.length, ← v1.length])
  intro y l hy hl
  refine h y l ?_ hl
  cases w2 with
  | nil => cases v2; exact hy
  | cons hA _ _ _ _ =>
    cases v2 with
    | cons hA' _ _ _ _ =>
    have := hA.symm.trans hA'
    simp only [List.cons.injEq] at this
    omega

/-- `set_canonical` to the right -/
theorem SeesL.store {svd : Tensor ℂ → SvdRes ℂ} (hg : GoodSvd svd) (eps : ℝ) {dflt : ℝ} (hd0 : 0 < dflt) {ds : List Nat} {Q : List (Tensor ℂ)}
    {T : List Nat → ℂ} {k : Nat} (h : SeesL ds Q T k) (hw : WF 1 Q ds 1) (hk : k < ds.length) {dk : Int} (hdk : dk > 0) :
    SeesL ds (setCanonical svd eps dflt Q k (site Q k) dk true).1 T (nextCentre ds.length dk k) := by
  have hlen := hw.length
  unfold nextCentre
  rw [if_pos hdk]
  by_cases hl : k + 1 = ds.length
  · rw [if_pos hl]
    have e : (setCanonical svd eps dflt Q k (site Q k) dk true).1 = Q := by
      unfold setCanonical
      rw [if_pos hdk, if_pos (by omega)]
      exact Props.set_site_self Q k (by omega)
    rwa [e]
  rw [if_neg hl]
  obtain ⟨pre, Y, X, post, rfl, hlp⟩ := split_at2 Q k (by omega)
  have hY : site (pre ++ Y :: X :: post) k = Y := by simp [site, ← hlp]
  have hX : site (pre ++ Y :: X :: post) (k + 1) = X := by simp [site, ← hlp]
  obtain ⟨ds1, ds', c, rfl, w1, w2⟩ := hw.split
  have hw2 := w2
  cases w2 with
  | @cons c d e b A As ds'' hYd hc hd he' w3 =>
  cases w3 with
  | @cons e d2 f b A As ds3 hXd _ hd2 hf w4 =>
  have hs := h.at rfl hlp rfl w1 hw2 hc
  obtain ⟨l, hl0, hVd, hUd, hiso, hproj⟩ := splitRight_proj hg eps hd0 hYd hc hd he'
  set sp := splitRight svd eps dflt Y true with hsp
  obtain ⟨fd, fg⟩ := fold_VB hVd hXd
  have hr1 : (setCanonical svd eps dflt (pre ++ Y :: X :: post) k (site (pre ++ Y :: X :: post) k) dk true).1
      = pre ++ sp.U :: fold sp.V (-1) X 0 :: post := by
    simp only [setCanonical, hX, hY, splitT]
    rw [if_pos hdk, if_neg (by rw [hlen]; omega)]
    simp only []
    rw [if_pos (by omega), ← hsp]
    simp [List.set_append, ← hlp]
  rw [hr1]
  refine ⟨ds1 ++ [d], d2 :: ds3, pre ++ [sp.U], fold sp.V (-1) X 0 :: post, l, by simp, by simp, by simp [hlp], w1.append (WF.single hUd hc hd hl0),
    WF.cons fd hl0 hd2 hf w4, fun m r hm hr => ?_⟩
  rw [ovL_snoc w1 hUd T hm]
  cases hr with
  | cons hj hr' =>
  rename_i j r
  have e1 : ∀ x ∈ Finset.range c, ∀ i ∈ Finset.range d, star (sp.U.get [x, i, m]) * ovL ds1 pre T x (i :: j :: r) =
      ∑ y ∈ Finset.range e, star (sp.U.get [x, i, m]) * Y.get [x, i, y] * path (X :: post) (j :: r) y 0 := by
    intro x hx i hi
    rw [hs x (i :: j :: r) (Finset.mem_range.1 hx) (.cons (Finset.mem_range.1 hi) (.cons hj hr')), path_cons, dim2_of hYd, Finset.mul_sum]
    exact Finset.sum_congr rfl fun y _ => by ring
  rw [Finset.sum_congr rfl fun x hx => Finset.sum_congr rfl fun i hi => e1 x hx i hi]
  have e2 : ∑ x ∈ Finset.range c, ∑ i ∈ Finset.range d, ∑ y ∈ Finset.range e, star (sp.U.get [x, i, m]) * Y.get [x, i, y] * path (X :: post) (j :: r) y 0 =
      ∑ y ∈ Finset.range e, sp.V.get [m, y] * path (X :: post) (j :: r) y 0 := by
    rw [Finset.sum_congr rfl fun x _ => Finset.sum_comm, Finset.sum_comm]
    refine Finset.sum_congr rfl fun y hy => ?_
    rw [← hproj m y hm (Finset.mem_range.1 hy), Finset.sum_mul]
    exact Finset.sum_congr rfl fun x _ => by rw [Finset.sum_mul]
  rw [e2, path_cons, dim2_of fd]
  simp only [path_cons, dim2_of hXd, fg, Finset.sum_mul, Finset.mul_sum]
  rw [Finset.sum_comm]
  exact Finset.sum_congr rfl fun _ _ => Finset.sum_congr rfl fun _ _ => by ring

/-- `set_canonical` to the left -/
theorem SeesR.store {svd : Tensor ℂ → SvdRes ℂ} (hg : GoodSvd svd) (eps : ℝ) {dflt : ℝ} (hd0 : 0 < dflt) {ds : List Nat} {Q : List (Tensor ℂ)}
    {T : List Nat → ℂ} {k : Nat} (h : SeesR ds Q T k) (hw : WF 1 Q ds 1) (hk : k < ds.length) {dk : Int} (hdk : ¬ dk > 0) :
    SeesR ds (setCanonical svd eps dflt Q k (site Q k) dk true).1 T (nextCentre ds.length dk k) := by
  have hlen := hw.length
  unfold nextCentre
  rw [if_neg hdk]
  cases k with
  | zero =>
    have e : (setCanonical svd eps dflt Q 0 (site Q 0) dk true).1 = Q := by
      unfold setCanonical
      rw [if_neg hdk, if_pos rfl]
      exact Props.set_site_self Q 0 (by omega)
    rwa [e]
  | succ k =>
  rw [Nat.add_sub_cancel]
  obtain ⟨pre, X, Y, post, rfl, hlp⟩ := split_at2 Q k (by omega)
  have hX : site (pre ++ X :: Y :: post) k = X := by simp [site, ← hlp]
  have hY : site (pre ++ X :: Y :: post) (k + 1) = Y := by simp [site, ← hlp]
  obtain ⟨ds1, ds', c, rfl, w1, w2⟩ := hw.split
  cases w2 with
  | @cons c d e b A As ds'' hXd hc hd he' w3 =>
  cases w3 with
  | @cons e d2 f b A As ds3 hYd _ hd2 hf w4 =>
  have wXY : WF 1 ((pre ++ [X]) ++ [Y]) ((ds1 ++ [d]) ++ [d2]) f := (w1.append (WF.single hXd hc hd he')).append (WF.single hYd he' hd2 hf)
  have hs := h.at (rest := (pre ++ [X]) ++ [Y]) (post := post) (by simp) (by simp [hlp]) (ds1 := (ds1 ++ [d]) ++ [d2]) (ds2 := ds3) (by simp) wXY w4
  obtain ⟨l, hl0, hVd, hUd, hiso, hproj⟩ := splitLeft_proj hg eps hd0 hYd he' hd2 hf
  set sp := splitLeft svd eps dflt Y true with hsp
  obtain ⟨fd, fg⟩ := fold_BV hVd hXd
  have hr1 : (setCanonical svd eps dflt (pre ++ X :: Y :: post) (k + 1) (site (pre ++ X :: Y :: post) (k + 1)) dk true).1
      = pre ++ fold X (-1) sp.V 0 :: sp.U :: post := by
    simp only [setCanonical, hX, hY, splitT]
    rw [if_neg hdk, if_neg (by omega)]
    simp only []
    rw [if_neg (by omega), ← hsp, show k + 1 - 1 = k by omega, hX]
    simp [List.set_append, ← hlp]
  rw [hr1]
  refine ⟨ds1 ++ [d], d2 :: ds3, pre ++ [fold X (-1) sp.V 0], sp.U :: post, l, by simp, by simp, by simp [hlp], w1.append (WF.single fd hc hd hl0),
    WF.cons hUd hl0 hd2 hf w4, fun m s hm hr => ?_⟩
  rw [ovR_cons hUd T]
  obtain ⟨s1, i, hs1, hi, rfl, g3⟩ := path_last w1 fd hr hm
  rw [g3]
  have e1 : ∀ j ∈ Finset.range d2, ∀ y ∈ Finset.range f, star (sp.U.get [m, j, y]) * ovR ds3 post T y ((s1 ++ [i]) ++ [j]) =
      ∑ z ∈ Finset.range e, star (sp.U.get [m, j, y]) * Y.get [z, j, y] * path (pre ++ [X]) (s1 ++ [i]) 0 z := by
    intro j hj y hy
    rw [hs y _ (Finset.mem_range.1 hy) (isCfg_append (isCfg_append hs1 (.cons hi .nil)) (.cons (Finset.mem_range.1 hj) .nil)),
      path_append (w1.append (WF.single hXd hc hd he')) (by simp [hs1.length, w1.length]) Nat.one_pos, Finset.mul_sum]
    exact Finset.sum_congr rfl fun z _ => by rw [path_single hYd (Finset.mem_range.1 hy)]; ring
  rw [Finset.sum_congr rfl fun x hx => Finset.sum_congr rfl fun i hi => e1 x hx i hi]
  have e2 : ∑ j ∈ Finset.range d2, ∑ y ∈ Finset.range f, ∑ z ∈ Finset.range e, star (sp.U.get [m, j, y]) * Y.get [z, j, y] * path (pre ++ [X]) (s1 ++ [i]) 0 z =
      ∑ z ∈ Finset.range e, sp.V.get [z, m] * path (pre ++ [X]) (s1 ++ [i]) 0 z := by
    rw [Finset.sum_congr rfl fun x _ => Finset.sum_comm, Finset.sum_comm]
    refine Finset.sum_congr rfl fun z hz => ?_
    rw [← hproj z m (Finset.mem_range.1 hz) hm, Finset.sum_mul]
    exact Finset.sum_congr rfl fun x _ => by rw [Finset.sum_mul]; exact Finset.sum_congr rfl fun y _ => by ring
  rw [e2]
  have i3 : ∀ z ∈ Finset.range e, sp.V.get [z, m] * path (pre ++ [X]) (s1 ++ [i]) 0 z = ∑ x ∈ Finset.range c, sp.V.get [z, m] * (path pre s1 0 x * X.get [x, i, z]) := by
    intro z hz
    rw [path_append w1 (by rw [hs1.length, w1.length]) Nat.one_pos, Finset.mul_sum]
    exact Finset.sum_congr rfl fun x _ => by rw [path_single hXd (Finset.mem_range.1 hz)]
  rw [Finset.sum_congr rfl i3, Finset.sum_comm]
  simp only [fg, Finset.mul_sum]
  exact Finset.sum_congr rfl fun _ _ => Finset.sum_congr rfl fun _ _ => by ring

end MPS.Trotter
