import Verif.ApplyProj2

/-! # The overlaps when a gate is applied -/

set_option linter.unusedSectionVars false
set_option linter.unusedSimpArgs false

namespace MPS.Trotter
open MPS Tensor Minim Order

theorem SeesL.one {ds : List Nat} {P : List (Tensor ℂ)} {T : List Nat → ℂ} {k : Nat} (h : SeesL ds P T k) (hw : WF 1 P ds 1) (hk : k < ds.length)
    {U : Tensor ℂ} (hUd : U.dims = [ds.getD k 0, ds.getD k 0]) :
    SeesL ds (P.set k (foldin U (-1) (site P k) 1)) (actSite (ds.getD k 0) U k T) k := by
  have hlen := hw.length
  obtain ⟨pre, X, post, rfl, hlp⟩ := split_at P k (by omega)
  have hX : site (pre ++ X :: post) k = X := by simp [site, ← hlp]
  obtain ⟨ds1, ds', c, rfl, w1, w2⟩ := hw.split
  have hw2 := w2
  cases w2 with
  | @cons c d e b A As ds'' hXd hc hd he' w3 =>
  have hlk : ds1.length = k := by rw [← w1.length, hlp]
  have hg : (ds1 ++ d :: ds'').getD k 0 = d := by rw [← hlk]; simp
  rw [hg] at hUd ⊢
  have hs := h.at rfl hlp rfl w1 hw2 hc
  rw [hX]
  have e : (pre ++ X :: post).set k (foldin U (-1) X 1) = pre ++ (X :: post).set 0 (foldin U (-1) (site (X :: post) 0) 1) := by
    simp [List.set_append, ← hlp, site]
  rw [e]
  have hUd' : U.dims = [(d :: ds'').getD 0 0, (d :: ds'').getD 0 0] := by simpa using hUd
  refine ⟨ds1, d :: ds'', pre, _, c, rfl, rfl, hlp, w1, hw2.set_act hUd', fun x r hx hr => ?_⟩
  have hk0 : k = ds1.length + 0 := by omega
  rw [hk0, ovL_site, path_set_act hw2 (by simp) hUd' hr.length]
  unfold actSite
  refine Finset.sum_congr (by simp) fun i hi => ?_
  rw [hs x _ hx]
  cases hr with
  | cons hj hr => exact .cons (by simpa using Finset.mem_range.1 hi) hr

theorem SeesR.one {ds : List Nat} {P : List (Tensor ℂ)} {T : List Nat → ℂ} {k : Nat} (h : SeesR ds P T k) (hw : WF 1 P ds 1) (hk : k < ds.length)
    {U : Tensor ℂ} (hUd : U.dims = [ds.getD k 0, ds.getD k 0]) :
    SeesR ds (P.set k (foldin U (-1) (site P k) 1)) (actSite (ds.getD k 0) U k T) k := by
  have hlen := hw.length
  obtain ⟨pre, X, post, rfl, hlp⟩ := split_at P k (by omega)
  have hX : site (pre ++ X :: post) k = X := by simp [site, ← hlp]
  obtain ⟨ds1, ds', c, rfl, w1, w2⟩ := hw.split
  cases w2 with
  | @cons c d e b A As ds'' hXd hc hd he' w3 =>
  have hlk : ds1.length = k := by rw [← w1.length, hlp]
  have hg : (ds1 ++ d :: ds'').getD k 0 = d := by rw [← hlk]; simp
  have hg2 : (ds1 ++ [d]).getD k 0 = d := by rw [← hlk]; simp
  rw [hg] at hUd ⊢
  have wX := w1.append (WF.single hXd hc hd he')
  have hs := h.at (rest := pre ++ [X]) (post := post) (by simp) (by simp [hlp]) (ds1 := ds1 ++ [d]) (ds2 := ds'') (by simp) wX w3
  rw [hX]
  have hX2 : site (pre ++ [X]) k = X := by simp [site, ← hlp]
  have e' : (pre ++ X :: post).set k (foldin U (-1) X 1) = (pre ++ [X]).set k (foldin U (-1) (site (pre ++ [X]) k) 1) ++ post := by
    rw [hX2]; simp [List.set_append, ← hlp]
  rw [e']
  have hUd' : U.dims = [(ds1 ++ [d]).getD k 0, (ds1 ++ [d]).getD k 0] := by rw [hg2]; exact hUd
  refine ⟨ds1 ++ [d], ds'', _, post, e, by simp, rfl, by simp [hlp], wX.set_act hUd', w3, fun y l hy hl => ?_⟩
  have hl2 := hl.length
  simp only [List.length_append, List.length_singleton] at hl2
  rw [ovR_site _ _ _ _ _ _ _ (by omega), path_set_act wX (by simp [hlp]) hUd' hl.length, hg2]
  unfold actSite
  refine Finset.sum_congr rfl fun i hi => ?_
  rw [hs y _ hy]
  exact isCfg_set hl k (by rw [hg2]; exact Finset.mem_range.1 hi)

/-- the two sites of a gate, as the block states on the left see them -/
theorem SeesL.pair {ds1 ds3 : List Nat} {pre post : List (Tensor ℂ)} {X Y U : Tensor ℂ} {T : List Nat → ℂ} {c d e d2 f : Nat} (w1 : WF 1 pre ds1 c)
    (hX : X.dims = [c, d, e]) (hY : Y.dims = [e, d2, f]) (hpos : 0 < c ∧ 0 < d ∧ 0 < e ∧ 0 < d2 ∧ 0 < f) (w4 : WF f post ds3 1)
    (h : SeesL (ds1 ++ d :: d2 :: ds3) (pre ++ X :: Y :: post) T pre.length) {x i j : Nat} {r : List Nat} (hx : x < c) (hi : i < d) (hj : j < d2) (hr : IsCfg ds3 r) :
    ovL ds1 pre (actPair d d2 U pre.length T) x (i :: j :: r) = ∑ y ∈ Finset.range f,
      (∑ i' ∈ Finset.range d, ∑ j' ∈ Finset.range d2, U.get [i + d * j, i' + d * j'] * ∑ z ∈ Finset.range e, X.get [x, i', z] * Y.get [z, j', y]) *
        path post r y 0 := by
  obtain ⟨hc, hd, he, hd2, hf⟩ := hpos
  have hs := h.at rfl rfl rfl w1 (WF.cons hX hc hd he (WF.cons hY he hd2 hf w4)) hc
  have hl : pre.length = ds1.length + 0 := by rw [w1.length]; rfl
  rw [hl, ovL_pair]
  unfold actPair
  simp only [List.getD_cons_zero, List.getD_cons_succ, List.set_cons_zero, List.set_cons_succ, Nat.zero_add]
  have e1 : ∀ i' ∈ Finset.range d, ∀ j' ∈ Finset.range d2, U.get [i + d * j, i' + d * j'] * ovL ds1 pre T x (i' :: j' :: r) =
      ∑ y ∈ Finset.range f, U.get [i + d * j, i' + d * j'] * (∑ z ∈ Finset.range e, X.get [x, i', z] * Y.get [z, j', y]) * path post r y 0 := by
    intro i' hi' j' hj'
    rw [hs x (i' :: j' :: r) hx (.cons (Finset.mem_range.1 hi') (.cons (Finset.mem_range.1 hj') hr))]
    simp only [path_cons, dim2_of hX, dim2_of hY, Finset.mul_sum, Finset.sum_mul]
    rw [Finset.sum_comm]
    exact Finset.sum_congr rfl fun _ _ => Finset.sum_congr rfl fun _ _ => by ring
  rw [Finset.sum_congr rfl fun i' hi' => Finset.sum_congr rfl fun j' hj' => e1 i' hi' j' hj', Finset.sum_congr rfl fun i' _ => Finset.sum_comm, Finset.sum_comm]
  exact Finset.sum_congr rfl fun y _ => by rw [Finset.sum_mul]; exact Finset.sum_congr rfl fun i' _ => by rw [Finset.sum_mul]

/-- the two sites of a gate, as the block states on the right see them -/
theorem SeesR.pair {ds1 ds3 : List Nat} {pre post : List (Tensor ℂ)} {X Y U : Tensor ℂ} {T : List Nat → ℂ} {c d e d2 f : Nat} (w1 : WF 1 pre ds1 c)
    (hX : X.dims = [c, d, e]) (hY : Y.dims = [e, d2, f]) (hpos : 0 < c ∧ 0 < d ∧ 0 < e ∧ 0 < d2 ∧ 0 < f) (w4 : WF f post ds3 1)
    (h : SeesR (ds1 ++ d :: d2 :: ds3) (pre ++ X :: Y :: post) T (pre.length + 1)) {y i j : Nat} {l : List Nat} (hy : y < f) (hi : i < d) (hj : j < d2) (hl : IsCfg ds1 l) :
    ovR ds3 post (actPair d d2 U pre.length T) y (l ++ [i, j]) = ∑ x ∈ Finset.range c, path pre l 0 x *
      ∑ i' ∈ Finset.range d, ∑ j' ∈ Finset.range d2, U.get [i + d * j, i' + d * j'] * ∑ z ∈ Finset.range e, X.get [x, i', z] * Y.get [z, j', y] := by
  obtain ⟨hc, hd, he, hd2, hf⟩ := hpos
  have wXY : WF c [X, Y] [d, d2] f := WF.cons hX hc hd he (WF.single hY he hd2 hf)
  have hs := h.at (rest := pre ++ [X, Y]) (post := post) (by simp) (by simp) (ds1 := ds1 ++ [d, d2]) (ds2 := ds3) (by simp) (w1.append wXY) w4
  have hlen : l.length = pre.length := by rw [hl.length, w1.length]
  rw [ovR_pair _ _ _ _ _ _ _ _ (by simp [hlen])]
  unfold actPair
  have e0 : ∀ i' j' : Nat, ((l ++ [i, j]).set pre.length i').set (pre.length + 1) j' = l ++ [i', j'] := by
    intro i' j'; rw [← hlen]; simp [List.set_append]
  have g0 : (l ++ [i, j]).getD pre.length 0 = i := by rw [← hlen]; simp
  have g1 : (l ++ [i, j]).getD (pre.length + 1) 0 = j := by rw [← hlen]; simp [List.getD_eq_getElem?_getD]
  simp only [e0, g0, g1]
  have e1 : ∀ i' ∈ Finset.range d, ∀ j' ∈ Finset.range d2, U.get [i + d * j, i' + d * j'] * ovR ds3 post T y (l ++ [i', j']) =
      ∑ x ∈ Finset.range c, path pre l 0 x * (U.get [i + d * j, i' + d * j'] * ∑ z ∈ Finset.range e, X.get [x, i', z] * Y.get [z, j', y]) := by
    intro i' hi' j' hj'
    rw [hs y _ hy (isCfg_append hl (.cons (Finset.mem_range.1 hi') (.cons (Finset.mem_range.1 hj') .nil))), path_append w1 hlen Nat.one_pos, Finset.mul_sum]
    refine Finset.sum_congr rfl fun x _ => ?_
    rw [path_cons, dim2_of hX]
    rw [Finset.sum_congr rfl fun z _ => by rw [path_single hY hy]]
    ring
  rw [Finset.sum_congr rfl fun i' hi' => Finset.sum_congr rfl fun j' hj' => e1 i' hi' j' hj', Finset.sum_congr rfl fun i' _ => Finset.sum_comm, Finset.sum_comm]
  exact Finset.sum_congr rfl fun y _ => by rw [Finset.mul_sum]; exact Finset.sum_congr rfl fun i' _ => by rw [Finset.mul_sum]

end MPS.Trotter
