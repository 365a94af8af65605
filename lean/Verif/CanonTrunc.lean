import Verif.TrotterTrunc2

/-! # `split` projects; overlaps of a state with the states that share the tensors on one side -/

set_option linter.unusedSectionVars false
set_option linter.unusedSimpArgs false

namespace MPS
open Tensor MPS.Props
variable {K : Type} [RCLike K]

/-- the matrix returned by `split` to the left is the projection of the tensor on the isometry -/
theorem splitLeft_proj {svd : Tensor K → SvdRes K} (hg : GoodSvd svd) (eps : ℝ) {dflt : ℝ} (hd0 : 0 < dflt)
    {t : Tensor K} {a d b : Nat} (h : t.dims = [a, d, b]) (ha : 0 < a) (hd : 0 < d) (hb : 0 < b) :
    let r := splitLeft svd eps dflt t true
    ∃ l, 0 < l ∧ r.V.dims = [a, l] ∧ r.U.dims = [l, d, b] ∧ RightIso r.U ∧
      ∀ x k, x < a → k < l → ∑ i ∈ Finset.range d, ∑ y ∈ Finset.range b, t.get [x, i, y] * star (r.U.get [k, i, y]) = r.V.get [x, k] := by
  intro r
  obtain ⟨l', hl0, -, hUd0, hVd0, hiso0, -⟩ := splitLeft_spec hg eps hd0.le h ha hd hb true (Or.inl (by rw [effTol_default]; exact hd0))
  have hai : t.size / a = d * b := by rw [size3 h, mul_assoc, Nat.mul_div_cancel_left _ ha]
  have hbd : t.dims.getD 0 0 = a := by simp [h]
  set A := reshape t [a, d * b] with hA
  have hn : 0 < d * b := Nat.mul_pos hd hb
  have hsvd := hg A a (d * b) rfl ha hn
  set res := svd A with hres
  set l := whereToTruncate eps dflt res.s (splitTol true) (min a (d * b) : Nat) with hl
  have hAget : ∀ x i y, x < a → i < d → y < b → A.get [x, i + d * y] = t.get [x, i, y] := by
    intro x i y hx hi hy
    apply reshape_get
    · rw [h]; simp [hx, hi, hy]
    · rw [h]; simp only [flat]; ring
  have hlle : l ≤ min a (d * b) := by rw [← hsvd.lenS]; exact wtt_le _ _ _ _ _ hd0.le
  have hrU : r.U = reshape (if l ≠ res.s.length then changeDim res.V 0 l else res.V) [l, d, b] := by
    simp only [r, splitLeft, hbd, hai, ← hA, ← hres, ← hl]
    simp [h]
  have hrV : r.V = scale (if l ≠ res.s.length then changeDim res.U 1 l else res.U) (-1)
      (vecOf (if l ≠ res.s.length then res.s.take l else res.s)) := by
    simp only [r, splitLeft, hbd, hai, ← hA, ← hres, ← hl]
  have hU2 : (if l ≠ res.s.length then changeDim res.V 0 l else res.V).dims = [l, d * b] := by
    split
    · simp [changeDim, hsvd.dimsV]
    · next hh => rw [hsvd.dimsV, ← hsvd.lenS, not_not.mp hh]
  have hV2 : (if l ≠ res.s.length then changeDim res.U 1 l else res.U).dims = [a, l] := by
    split
    · simp [changeDim, hsvd.dimsU]
    · next hh => rw [hsvd.dimsU, ← hsvd.lenS, not_not.mp hh]
  have hU2g : ∀ p k, k < l → (if l ≠ res.s.length then changeDim res.V 0 l else res.V).get [k, p] = res.V.get [k, p] := by
    intro p k hk
    split
    · simp only [changeDim, hsvd.dimsV, nrm_zero]
      rw [if_pos]
      simp only [List.getD_cons_zero]; omega
    · rfl
  have hUget : ∀ k i y, k < l → i < d → y < b → r.U.get [k, i, y] = res.V.get [k, i + d * y] := by
    intro k i y hk hi hy
    rw [hrU, ← hU2g _ _ hk]
    apply reshape_get
    · rw [hU2]; simp [hk, add_mul_lt hi hy]
    · rw [hU2]; simp only [flat]; ring
  have hVget : ∀ x k, x < a → k < l → r.V.get [x, k] = res.U.get [x, k] * ((res.s.getD k 0 : ℝ) : K) := by
    intro x k hx hk
    rw [hrV]
    simp only [scale, hV2, vecOf]
    congr 1
    · split
      · simp only [changeDim, hsvd.dimsU, nrm_one, List.getD_cons_zero, List.getD_cons_succ]
        rw [if_pos (by omega)]
      · rfl
    · congr 1
      split
      · simp [List.getD_eq_getElem?_getD, List.getElem?_take, hk]
      · simp
  have hUd : r.U.dims = [l, d, b] := by rw [hrU]; rfl
  have hll : l' = l := by
    have : r.U.dims = [l', d, b] := hUd0
    rw [hUd] at this; simpa using this.symm
  refine ⟨l, by omega, by rw [hrV]; exact hV2, hUd, hiso0, fun x k hx hk => ?_⟩
  rw [hVget x k hx hk, ← IsSVD_right hsvd (by omega) hx, sum_range_mul, Finset.sum_comm]
  refine Finset.sum_congr rfl fun y hy => Finset.sum_congr rfl fun i hi => ?_
  rw [hUget _ _ _ hk (Finset.mem_range.1 hi) (Finset.mem_range.1 hy), hAget _ _ _ hx (Finset.mem_range.1 hi) (Finset.mem_range.1 hy)]

/-- the same to the right -/
theorem splitRight_proj {svd : Tensor K → SvdRes K} (hg : GoodSvd svd) (eps : ℝ) {dflt : ℝ} (hd0 : 0 < dflt)
    {t : Tensor K} {a d b : Nat} (h : t.dims = [a, d, b]) (ha : 0 < a) (hd : 0 < d) (hb : 0 < b) :
    let r := splitRight svd eps dflt t true
    ∃ l, 0 < l ∧ r.V.dims = [l, b] ∧ r.U.dims = [a, d, l] ∧ LeftIso r.U ∧
      ∀ k y, k < l → y < b → ∑ x ∈ Finset.range a, ∑ i ∈ Finset.range d, star (r.U.get [x, i, k]) * t.get [x, i, y] = r.V.get [k, y] := by
  intro r
  obtain ⟨l', hl0, -, hUd0, hVd0, hiso0, -⟩ := splitRight_spec hg eps hd0.le h ha hd hb true (Or.inl (by rw [effTol_default]; exact hd0))
  have hai : t.size / b = a * d := by rw [size3 h, Nat.mul_div_cancel _ hb]
  have hbd : t.dims.getD (t.rank - 1) 0 = b := by simp [rank, h]
  set A := reshape t [a * d, b] with hA
  have hm : 0 < a * d := Nat.mul_pos ha hd
  have hsvd := hg A (a * d) b rfl hm hb
  set res := svd A with hres
  set l := whereToTruncate eps dflt res.s (splitTol true) (min (a * d) b : Nat) with hl
  have hAget : ∀ x i y, x < a → i < d → y < b → A.get [x + a * i, y] = t.get [x, i, y] := by
    intro x i y hx hi hy
    apply reshape_get
    · rw [h]; simp [hx, hi, hy]
    · rw [h]; simp only [flat]; ring
  have hlle : l ≤ min (a * d) b := by rw [← hsvd.lenS]; exact wtt_le _ _ _ _ _ hd0.le
  have hrU : r.U = reshape (if l ≠ res.s.length then changeDim res.U 1 l else res.U) [a, d, l] := by
    simp only [r, splitRight, hbd, hai, ← hA, ← hres, ← hl]
    simp [rank, h]
  have hrV : r.V = scale (if l ≠ res.s.length then changeDim res.V 0 l else res.V) 0
      (vecOf (if l ≠ res.s.length then res.s.take l else res.s)) := by
    simp only [r, splitRight, hbd, hai, ← hA, ← hres, ← hl]
  have hU2 : (if l ≠ res.s.length then changeDim res.U 1 l else res.U).dims = [a * d, l] := by
    split
    · simp [changeDim, hsvd.dimsU]
    · next hh => rw [hsvd.dimsU, ← hsvd.lenS, not_not.mp hh]
  have hU2g : ∀ p k, k < l → (if l ≠ res.s.length then changeDim res.U 1 l else res.U).get [p, k] = res.U.get [p, k] := by
    intro p k hk
    split
    · simp only [changeDim, hsvd.dimsU, nrm_one]
      rw [if_pos]
      simp only [List.getD_cons_succ, List.getD_cons_zero]; omega
    · rfl
  have hUget : ∀ x i k, x < a → i < d → k < l → r.U.get [x, i, k] = res.U.get [x + a * i, k] := by
    intro x i k hx hi hk
    rw [hrU, ← hU2g _ _ hk]
    apply reshape_get
    · rw [hU2]; simp [hk, add_mul_lt hx hi]
    · rw [hU2]; simp only [flat]; ring
  have hVget : ∀ k y, k < l → y < b → r.V.get [k, y] = res.V.get [k, y] * ((res.s.getD k 0 : ℝ) : K) := by
    intro k y hk hy
    rw [hrV]
    simp only [scale, nrm_zero, List.getD_cons_zero, vecOf]
    congr 1
    · split
      · simp only [changeDim, hsvd.dimsV, nrm_zero, List.getD_cons_zero]
        rw [if_pos (by omega)]
      · rfl
    · congr 1
      split
      · simp [List.getD_eq_getElem?_getD, List.getElem?_take, hk]
      · rfl
  have hUd : r.U.dims = [a, d, l] := by rw [hrU]; rfl
  have hll : l' = l := by
    have : r.U.dims = [a, d, l'] := hUd0
    rw [hUd] at this; simpa using this.symm
  have hVd : r.V.dims = [l, b] := by rw [← hll]; exact hVd0
  refine ⟨l, by omega, hVd, hUd, hiso0, fun k y hk hy => ?_⟩
  rw [hVget k y hk hy, mul_comm, ← IsSVD_left hsvd (by omega) hy, sum_range_mul, Finset.sum_comm]
  refine Finset.sum_congr rfl fun i hi => Finset.sum_congr rfl fun x hx => ?_
  rw [hUget _ _ _ (Finset.mem_range.1 hx) (Finset.mem_range.1 hi) hk, hAget _ _ _ (Finset.mem_range.1 hx) (Finset.mem_range.1 hi) hy]

/-- overlap of two states which share right-isometric tensors -/
theorem inner_right {F F' post : List (Tensor K)} {G U : Tensor K} {ds1 ds3 : List Nat} {c c' d e : Nat} (hF : WF 1 F ds1 c)
    (hF' : WF 1 F' ds1 c') (hG : G.dims = [c, d, e]) (hU : U.dims = [c', d, e]) (hp : WF e post ds3 1) (hiso : ∀ A ∈ post, RightIso A)
    (p1 : 0 < c) (p2 : 0 < c') (p3 : 0 < d) (p4 : 0 < e) :
    inner (ds1 ++ d :: ds3) (amp (F' ++ U :: post)) (amp (F ++ G :: post)) = sumCfg ds1 fun s =>
      ∑ x' ∈ Finset.range c', ∑ x ∈ Finset.range c, star (path F' s 0 x') * path F s 0 x *
        ∑ i ∈ Finset.range d, ∑ y ∈ Finset.range e, star (U.get [x', i, y]) * G.get [x, i, y] := by
  have w1 : WF 1 (F ++ G :: post) (ds1 ++ d :: ds3) 1 := hF.append (WF.cons hG p1 p3 p4 hp)
  have w2 : WF 1 (F' ++ U :: post) (ds1 ++ d :: ds3) 1 := hF'.append (WF.cons hU p2 p3 p4 hp)
  have rc : ∀ y y', y < e → y' < e → sumCfg ds3 (fun s => star (path post s y 0) * path post s y' 0) = if y = y' then 1 else 0 := by
    intro y y' hy hy'
    have := right_chain hp hiso y' y hy' hy
    rw [Finset.sum_range_one] at this
    rw [show (if y = y' then (1 : K) else 0) = if y' = y then 1 else 0 by simp [eq_comm], ← this]
    exact sumCfg_congr fun s _ => mul_comm _ _
  unfold MPS.inner
  have e1 : ∀ s, IsCfg (ds1 ++ d :: ds3) s → star (amp (F' ++ U :: post) s) * amp (F ++ G :: post) s =
      star (path (F' ++ U :: post) s 0 0) * path (F ++ G :: post) s 0 0 := by
    intro s _
    rw [amp_of_WF w1 (by simp), amp_of_WF w2 (by simp), Finset.sum_range_one, Finset.sum_range_one]
  rw [sumCfg_congr e1, sumCfg_append]
  refine sumCfg_congr fun s hs => ?_
  have e2 : ∀ t, star (path (F' ++ U :: post) (s ++ t) 0 0) * path (F ++ G :: post) (s ++ t) 0 0 =
      ∑ x' ∈ Finset.range c', ∑ x ∈ Finset.range c, star (path F' s 0 x') * path F s 0 x *
        (star (path (U :: post) t x' 0) * path (G :: post) t x 0) := by
    intro t
    rw [path_append hF (by rw [hs.length, hF.length]) Nat.one_pos, path_append hF' (by rw [hs.length, hF'.length]) Nat.one_pos,
      star_sum, Finset.sum_mul_sum]
    refine Finset.sum_congr rfl fun x' _ => Finset.sum_congr rfl fun x _ => ?_
    rw [star_mul']; ring
  rw [sumCfg_congr fun t _ => e2 t, sumCfg_sum]
  refine Finset.sum_congr rfl fun x' _ => ?_
  rw [sumCfg_sum]
  refine Finset.sum_congr rfl fun x _ => ?_
  rw [sumCfg_mul_left]
  congr 1
  simp only [sumCfg_cons, path_cons, dim2_of hG, dim2_of hU, star_sum, star_mul', Finset.sum_mul_sum]
  refine Finset.sum_congr rfl fun i _ => ?_
  rw [sumCfg_sum]
  refine Finset.sum_congr rfl fun y hy => ?_
  rw [sumCfg_sum, Finset.sum_eq_single y]
  · have : ∀ t, star (U.get [x', i, y]) * star (path post t y 0) * (G.get [x, i, y] * path post t y 0) =
        star (U.get [x', i, y]) * G.get [x, i, y] * (star (path post t y 0) * path post t y 0) := fun t => by ring
    rw [sumCfg_congr fun t _ => this t, sumCfg_mul_left, rc y y (Finset.mem_range.1 hy) (Finset.mem_range.1 hy), if_pos rfl, mul_one]
  · intro y' hy' hne
    have : ∀ t, star (U.get [x', i, y]) * star (path post t y 0) * (G.get [x, i, y'] * path post t y' 0) =
        star (U.get [x', i, y]) * G.get [x, i, y'] * (star (path post t y 0) * path post t y' 0) := fun t => by ring
    rw [sumCfg_congr fun t _ => this t, sumCfg_mul_left, rc y y' (Finset.mem_range.1 hy) (Finset.mem_range.1 hy'), if_neg hne.symm, mul_zero]
  · intro hn; exact absurd hy hn

theorem sum4 (I J L M : Finset Nat) (f : Nat → Nat → Nat → Nat → K) :
    ∑ i ∈ I, ∑ y ∈ J, ∑ x' ∈ L, ∑ x ∈ M, f i y x' x = ∑ x' ∈ L, ∑ x ∈ M, ∑ y ∈ J, ∑ i ∈ I, f i y x' x := by
  calc _ = ∑ i ∈ I, ∑ x' ∈ L, ∑ y ∈ J, ∑ x ∈ M, f i y x' x := Finset.sum_congr rfl fun i _ => Finset.sum_comm
    _ = ∑ x' ∈ L, ∑ i ∈ I, ∑ y ∈ J, ∑ x ∈ M, f i y x' x := Finset.sum_comm
    _ = ∑ x' ∈ L, ∑ i ∈ I, ∑ x ∈ M, ∑ y ∈ J, f i y x' x :=
      Finset.sum_congr rfl fun x' _ => Finset.sum_congr rfl fun i _ => Finset.sum_comm
    _ = ∑ x' ∈ L, ∑ x ∈ M, ∑ i ∈ I, ∑ y ∈ J, f i y x' x := Finset.sum_congr rfl fun x' _ => Finset.sum_comm
    _ = _ := Finset.sum_congr rfl fun x' _ => Finset.sum_congr rfl fun x _ => Finset.sum_comm

/-- overlap of two states which share left-isometric tensors -/
theorem inner_left {F F' pre : List (Tensor K)} {G U : Tensor K} {ds1 ds3 : List Nat} {c c' d e : Nat} (hF : WF c F ds3 1)
    (hF' : WF c' F' ds3 1) (hG : G.dims = [e, d, c]) (hU : U.dims = [e, d, c']) (hp : WF 1 pre ds1 e) (hiso : ∀ A ∈ pre, LeftIso A)
    (p1 : 0 < c) (p2 : 0 < c') (p3 : 0 < d) (p4 : 0 < e) :
    inner (ds1 ++ d :: ds3) (amp (pre ++ U :: F')) (amp (pre ++ G :: F)) = sumCfg ds3 fun t =>
      ∑ x' ∈ Finset.range c', ∑ x ∈ Finset.range c, star (path F' t x' 0) * path F t x 0 *
        ∑ y ∈ Finset.range e, ∑ i ∈ Finset.range d, star (U.get [y, i, x']) * G.get [y, i, x] := by
  have w1 : WF 1 (pre ++ G :: F) (ds1 ++ d :: ds3) 1 := hp.append (WF.cons hG p4 p3 p1 hF)
  have w2 : WF 1 (pre ++ U :: F') (ds1 ++ d :: ds3) 1 := hp.append (WF.cons hU p4 p3 p2 hF')
  have rc : ∀ y y', y < e → y' < e → sumCfg ds1 (fun s => star (path pre s 0 y) * path pre s 0 y') = if y = y' then 1 else 0 := by
    intro y y' hy hy'
    have := left_chain hp hiso y y' hy hy'
    rwa [Finset.sum_range_one] at this
  unfold MPS.inner
  have e1 : ∀ s, IsCfg (ds1 ++ d :: ds3) s → star (amp (pre ++ U :: F') s) * amp (pre ++ G :: F) s =
      star (path (pre ++ U :: F') s 0 0) * path (pre ++ G :: F) s 0 0 := by
    intro s _
    rw [amp_of_WF w1 (by simp), amp_of_WF w2 (by simp), Finset.sum_range_one, Finset.sum_range_one]
  rw [sumCfg_congr e1, sumCfg_append, sumCfg_comm]
  have e2 : ∀ s, IsCfg ds1 s → ∀ t, star (path (pre ++ U :: F') (s ++ t) 0 0) * path (pre ++ G :: F) (s ++ t) 0 0 =
      ∑ y ∈ Finset.range e, ∑ y' ∈ Finset.range e, star (path pre s 0 y) * path pre s 0 y' *
        (star (path (U :: F') t y 0) * path (G :: F) t y' 0) := by
    intro s hs t
    rw [path_append hp (by rw [hs.length, hp.length]) Nat.one_pos, path_append hp (by rw [hs.length, hp.length]) Nat.one_pos,
      star_sum, Finset.sum_mul_sum]
    refine Finset.sum_congr rfl fun x' _ => Finset.sum_congr rfl fun x _ => ?_
    rw [star_mul']; ring
  have e3 : ∀ t, sumCfg ds1 (fun s => star (path (pre ++ U :: F') (s ++ t) 0 0) * path (pre ++ G :: F) (s ++ t) 0 0) =
      ∑ y ∈ Finset.range e, star (path (U :: F') t y 0) * path (G :: F) t y 0 := by
    intro t
    rw [sumCfg_congr fun s hs => e2 s hs t, sumCfg_sum]
    refine Finset.sum_congr rfl fun y hy => ?_
    rw [sumCfg_sum, Finset.sum_eq_single y]
    · rw [sumCfg_mul_right, rc y y (Finset.mem_range.1 hy) (Finset.mem_range.1 hy), if_pos rfl, one_mul]
    · intro y' hy' hne
      rw [sumCfg_mul_right, rc y y' (Finset.mem_range.1 hy) (Finset.mem_range.1 hy'), if_neg hne.symm, zero_mul]
    · intro hn; exact absurd hy hn
  rw [sumCfg_congr fun t _ => e3 t, sumCfg_cons, ← sumCfg_sum]
  refine sumCfg_congr fun t _ => ?_
  simp only [path_cons, dim2_of hG, dim2_of hU, star_sum, star_mul', Finset.sum_mul_sum]
  simp only [Finset.mul_sum]
  rw [sum4 (Finset.range d) (Finset.range e) (Finset.range c') (Finset.range c)]
  refine Finset.sum_congr rfl fun x' _ => Finset.sum_congr rfl fun x _ => Finset.sum_congr rfl fun y _ => Finset.sum_congr rfl fun i _ => ?_
  ring

end MPS
