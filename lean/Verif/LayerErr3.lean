import Verif.LayerErr2

/-! # `apply_onto_two_sites` without a maximal dimension, in the sense +1 -/

set_option linter.unusedSectionVars false
set_option linter.unusedSimpArgs false

namespace MPS.Trotter
open MPS Tensor Minim

theorem applyTwo_zero {svd : Tensor ℂ → SvdRes ℂ} (hg : GoodSvd svd) (eps : ℝ) {dflt : ℝ} (hd0 : 0 < dflt)
    (x : Evo) {pre post : List (Tensor ℂ)} {X Y : Tensor ℂ} (hP : x.P = pre ++ X :: Y :: post)
    {c d e d2 f : Nat} (hX : X.dims = [c, d, e]) (hY : Y.dims = [e, d2, f])
    (hpos : 0 < c ∧ 0 < d ∧ 0 < e ∧ 0 < d2 ∧ 0 < f)
    (U : Tensor ℂ) (hU : U.dims = [d * d2, d * d2]) (dk : Int) (hdk : dk > 0) (tol : ℝ) (htol : 0 < effTol dflt tol) :
    ∃ B1 B2 g, B1.dims = [c, d, g] ∧ B2.dims = [g, d2, f] ∧ 0 < g ∧ LeftIso B1 ∧
      (∑ x ∈ Finset.range c, ∑ i ∈ Finset.range d, ∑ j ∈ Finset.range d2, ∑ y ∈ Finset.range f,
        ‖(∑ i' ∈ Finset.range d, ∑ j' ∈ Finset.range d2, U.get [i + d * j, i' + d * j'] *
            ∑ z ∈ Finset.range e, X.get [x, i', z] * Y.get [z, j', y]) - ∑ m ∈ Finset.range g, B1.get [x, i, m] * B2.get [m, j, y]‖ ^ 2) ≤ max (effTol dflt tol) eps *
      (∑ x ∈ Finset.range c, ∑ i ∈ Finset.range d, ∑ j ∈ Finset.range d2, ∑ y ∈ Finset.range f, ‖∑ i' ∈ Finset.range d, ∑ j' ∈ Finset.range d2, U.get [i + d * j, i' + d * j'] *
            ∑ z ∈ Finset.range e, X.get [x, i', z] * Y.get [z, j', y]‖ ^ 2) ∧
      (∀ x < c, ∀ x' < c, ∀ i < d, ∑ j ∈ Finset.range d2, ∑ y ∈ Finset.range f, star (∑ m ∈ Finset.range g, B1.get [x', i, m] * B2.get [m, j, y]) *
        ((∑ i' ∈ Finset.range d, ∑ j' ∈ Finset.range d2, U.get [i + d * j, i' + d * j'] *
            ∑ z ∈ Finset.range e, X.get [x, i', z] * Y.get [z, j', y]) - ∑ m ∈ Finset.range g, B1.get [x, i, m] * B2.get [m, j, y]) = 0) ∧
      (∀ m j y, m < g → j < d2 → y < f → ∑ x ∈ Finset.range c, ∑ i ∈ Finset.range d, star (B1.get [x, i, m]) *
        (∑ i' ∈ Finset.range d, ∑ j' ∈ Finset.range d2, U.get [i + d * j, i' + d * j'] *
            ∑ z ∈ Finset.range e, X.get [x, i', z] * Y.get [z, j', y]) = B2.get [m, j, y]) ∧
      (applyTwo svd eps dflt x U pre.length dk tol 0).P = pre ++ B1 :: B2 :: post := by
  obtain ⟨hc, hd, he, hd2, hf⟩ := hpos
  have sX : site x.P pre.length = X := by simp [site, hP]
  have sY : site x.P (pre.length + 1) = Y := by simp [site, hP]
  have hUne : U.isEmpty = false := by
    have : 0 < d * d2 := Nat.mul_pos hd hd2
    simp [Tensor.isEmpty, Tensor.size, hU]; omega
  set A := reshape (foldin U (-1) (reshape (fold X (-1) Y 0) [c, d * d2, f]) 1) [c * d, d2 * f] with hA
  obtain ⟨g0, g1, g2, isoL, isoR, herr, -, hpl, hpr⟩ := Props.pair_svd_core hg eps hd0.le (A := A) rfl
    (fun x i j y hx hi hj hy => gate_matrix hX hY hU hx hi hj hy) hc hd hd2 hf tol
    (((svd A).s.length : Nat) : Int) (Or.inl htol)
  have hm : 0 < c * d := Nat.mul_pos hc hd
  have hn : 0 < d2 * f := Nat.mul_pos hd2 hf
  have hsvd : IsSVD A (c * d) (d2 * f) (svd A) := hg A _ _ rfl hm hn
  set res := svd A with hres
  set g := whereToTruncate eps dflt res.s tol ((res.s.length : Nat) : Int) with hgdef
  set Pi := reshape (if g ≠ res.s.length then changeDim res.U (-1) g else res.U) [c, d, g] with hPi
  set Pj := reshape (if g ≠ res.s.length then changeDim res.V 0 g else res.V) [g, d2, f] with hPj
  set s := vecOf (K := ℂ) (if g ≠ res.s.length then res.s.take g else res.s) with hs
  set P1 := (if dk > 0 then res.U else scale res.U (-1) (vecOf res.s)) with hP1
  set P2 := (if dk > 0 then scale res.V 0 (vecOf res.s) else res.V) with hP2
  set B1 := reshape (if g ≠ res.s.length then changeDim P1 (-1) g else P1) [c, d, g] with hB1
  set B2 := reshape (if g ≠ res.s.length then changeDim P2 0 g else P2) [g, d2, f] with hB2
  have hsm : ∀ m, m < g → s.get [m] = (vecOf (K := ℂ) res.s).get [m] := by
    intro m hm
    simp only [s, vecOf, List.getD_cons_zero]
    congr 1
    split
    · simp [List.getD_eq_getElem?_getD, List.getElem?_take, hm]
    · rfl
  have hgl : g ≤ res.s.length := by rw [hsvd.lenS]; exact g1
  have hVd : ∀ (V' : Tensor ℂ), V'.dims = res.V.dims → (if g ≠ res.s.length then changeDim V' 0 g else V').dims = [g, d2 * f] := by
    intro V' hV'
    split
    · simp [changeDim, hV', hsvd.dimsV]
    · next hh => rw [hV', hsvd.dimsV, ← hsvd.lenS, not_not.mp hh]
  have hUd : ∀ (U' : Tensor ℂ), U'.dims = res.U.dims → (if g ≠ res.s.length then changeDim U' (-1) g else U').dims = [c * d, g] := by
    intro V' hV'
    split
    · simp [changeDim, hV', hsvd.dimsU]
    · next hh => rw [hV', hsvd.dimsU, ← hsvd.lenS, not_not.mp hh]
  have hVg : ∀ (V' : Tensor ℂ), V'.dims = res.V.dims → ∀ m j y, m < g → j < d2 → y < f →
      (reshape (if g ≠ res.s.length then changeDim V' 0 g else V') [g, d2, f]).get [m, j, y] = V'.get [m, j + d2 * y] := by
    intro V' hV' m j y hm hj hy
    have e : (if g ≠ res.s.length then changeDim V' 0 g else V').get [m, j + d2 * y] = V'.get [m, j + d2 * y] := by
      split
      · simp only [changeDim, hV', hsvd.dimsV, nrm_zero]
        rw [if_pos]
        simp; omega
      · rfl
    rw [← e]
    apply reshape_get
    · rw [hVd V' hV']; simp [hm, add_mul_lt hj hy]
    · rw [hVd V' hV']; simp only [flat]; ring
  have hUg : ∀ (U' : Tensor ℂ), U'.dims = res.U.dims → ∀ x i m, x < c → i < d → m < g →
      (reshape (if g ≠ res.s.length then changeDim U' (-1) g else U') [c, d, g]).get [x, i, m] = U'.get [x + c * i, m] := by
    intro U' hU' x i m hx hi hm
    have e : (if g ≠ res.s.length then changeDim U' (-1) g else U').get [x + c * i, m] = U'.get [x + c * i, m] := by
      split
      · simp only [changeDim, hU', hsvd.dimsU, nrm_neg1]
        rw [if_pos]
        simp; omega
      · rfl
    rw [← e]
    apply reshape_get
    · rw [hUd U' hU']; simp [hm, add_mul_lt hx hi]
    · rw [hUd U' hU']; simp only [flat]; ring
  have hprod : ∀ x i j y, x < c → i < d → j < d2 → y < f → ∑ m ∈ Finset.range g, B1.get [x, i, m] * B2.get [m, j, y]
      = ∑ m ∈ Finset.range g, Pi.get [x, i, m] * s.get [m] * Pj.get [m, j, y] := by
    intro x i j y hx hi hj hy
    refine Finset.sum_congr rfl fun m hm => ?_
    have hm := Finset.mem_range.1 hm
    have dP1 : P1.dims = res.U.dims := by rw [hP1]; split <;> rfl
    have dP2 : P2.dims = res.V.dims := by rw [hP2]; split <;> rfl
    rw [hB1, hUg P1 dP1 _ _ _ hx hi hm, hB2, hVg P2 dP2 _ _ _ hm hj hy, hPi, hUg _ rfl _ _ _ hx hi hm, hPj,
      hVg _ rfl _ _ _ hm hj hy, hsm m hm, hP1, hP2]
    simp only [if_pos hdk]
    simp [scale]; ring
  refine ⟨B1, B2, g, rfl, rfl, g0, by rw [hB1, hP1, if_pos hdk]; exact isoL, ?_, ?_, ?_, ?_⟩
  · have hl := wtt_lost eps dflt res.s tol (res.s.length : Nat) (by simp) hd0.le htol
    rw [← Props.cumulated_eq, ← hgdef, ← herr, ← hsvd.total, sum_range_mul] at hl
    rw [Finset.sum_congr rfl fun x hx => Finset.sum_congr rfl fun i hi => Finset.sum_congr rfl fun j hj => Finset.sum_congr rfl fun y hy => by
      rw [hprod x i j y (Finset.mem_range.1 hx) (Finset.mem_range.1 hi) (Finset.mem_range.1 hj) (Finset.mem_range.1 hy)]]
    refine hl.trans (le_of_eq ?_)
    congr 1
    rw [Finset.sum_comm]
    refine Finset.sum_congr rfl fun x hx => Finset.sum_congr rfl fun i hi => ?_
    rw [sum_range_mul, Finset.sum_comm]
    refine Finset.sum_congr rfl fun j hj => Finset.sum_congr rfl fun y hy => ?_
    rw [hA, gate_matrix hX hY hU (Finset.mem_range.1 hx) (Finset.mem_range.1 hi) (Finset.mem_range.1 hj) (Finset.mem_range.1 hy)]
  · intro x hx x' hx' i hi
    have e : ∀ j ∈ Finset.range d2, ∀ y ∈ Finset.range f, star (∑ m ∈ Finset.range g, B1.get [x', i, m] * B2.get [m, j, y]) *
        ((∑ i' ∈ Finset.range d, ∑ j' ∈ Finset.range d2, U.get [i + d * j, i' + d * j'] *
            ∑ z ∈ Finset.range e, X.get [x, i', z] * Y.get [z, j', y]) - ∑ m ∈ Finset.range g, B1.get [x, i, m] * B2.get [m, j, y]) =
        ∑ m ∈ Finset.range g, star (Pi.get [x', i, m] * s.get [m]) * (((∑ i' ∈ Finset.range d, ∑ j' ∈ Finset.range d2, U.get [i + d * j, i' + d * j'] *
            ∑ z ∈ Finset.range e, X.get [x, i', z] * Y.get [z, j', y]) * star (Pj.get [m, j, y])) -
          ∑ m' ∈ Finset.range g, (Pi.get [x, i, m'] * s.get [m']) * (Pj.get [m', j, y] * star (Pj.get [m, j, y]))) := by
      intro j hj y hy
      rw [hprod x' i j y hx' hi (Finset.mem_range.1 hj) (Finset.mem_range.1 hy), hprod x i j y hx hi (Finset.mem_range.1 hj) (Finset.mem_range.1 hy),
        star_sum, Finset.sum_mul]
      refine Finset.sum_congr rfl fun m _ => ?_
      have : ∑ m' ∈ Finset.range g, (Pi.get [x, i, m'] * s.get [m']) * (Pj.get [m', j, y] * star (Pj.get [m, j, y])) =
          (∑ m' ∈ Finset.range g, Pi.get [x, i, m'] * s.get [m'] * Pj.get [m', j, y]) * star (Pj.get [m, j, y]) := by
        rw [Finset.sum_mul]; exact Finset.sum_congr rfl fun m' _ => by ring
      rw [this, star_mul' _ (Pj.get [m, j, y])]
      ring
    rw [Finset.sum_congr rfl fun j hj => Finset.sum_congr rfl fun y hy => e j hj y hy]
    rw [Finset.sum_congr rfl fun j _ => Finset.sum_comm, Finset.sum_comm]
    refine Finset.sum_eq_zero fun m hm => ?_
    simp only [← Finset.mul_sum, Finset.sum_sub_distrib]
    rw [hpr x i m hx hi (Finset.mem_range.1 hm)]
    have h2 : ∑ j ∈ Finset.range d2, ∑ y ∈ Finset.range f, ∑ m' ∈ Finset.range g, (Pi.get [x, i, m'] * s.get [m']) * (Pj.get [m', j, y] * star (Pj.get [m, j, y]))
        = Pi.get [x, i, m] * s.get [m] := by
      rw [Finset.sum_congr rfl fun j _ => Finset.sum_comm, Finset.sum_comm]
      simp only [← Finset.mul_sum]
      have hPd : Pj.dims = [g, d2, f] := rfl
      have h3 : ∀ m' ∈ Finset.range g, ∑ j ∈ Finset.range d2, ∑ y ∈ Finset.range f, Pj.get [m', j, y] * star (Pj.get [m, j, y]) = if m' = m then 1 else 0 := by
        intro m' hm'
        have := isoR m' m (by rw [dim0_of hPd]; exact Finset.mem_range.1 hm') (by rw [dim0_of hPd]; exact Finset.mem_range.1 hm)
        rwa [dim1_of hPd, dim2_of hPd] at this
      rw [Finset.sum_congr rfl fun m' hm' => by rw [h3 m' hm']]
      simp only [mul_ite, mul_one, mul_zero]
      rw [Finset.sum_ite_eq' (Finset.range g) m, if_pos hm]
    rw [h2, sub_self, mul_zero]
  · intro m j y hm hj hy
    have dP2 : P2.dims = res.V.dims := by rw [hP2]; split <;> rfl
    have e1 : B1 = Pi := by rw [hB1, hP1, if_pos hdk, hPi]
    rw [e1, hpl m j y hm hj hy, hB2, hVg P2 dP2 _ _ _ hm hj hy, hPj, hVg _ rfl _ _ _ hm hj hy, hsm m hm, hP2]
    simp only [if_pos hdk]
    simp [scale]; ring
  · have key : (applyTwo svd eps dflt x U pre.length dk tol 0).P = (x.P.set pre.length B1).set (pre.length + 1) B2 := by
      unfold applyTwo
      rw [sX, sY]
      simp only [hUne, dim0_of hX, dim1_of hX, dim1_of hY, dim2_of hY, Bool.false_eq_true, if_false, ne_eq, not_true_eq_false]
      rfl
    rw [key, hP]; simp [List.set_append]

end MPS.Trotter
