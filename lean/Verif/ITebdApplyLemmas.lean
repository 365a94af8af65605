import Verif.ITebdApplySpec
import Verif.Props.ITebdCanonProps
import Verif.Props.HamProps5
import Verif.SvdSorted

/-!
# Lemmas on two-site operators acting on infinite states
-/

set_option linter.unusedSectionVars false
set_option linter.unusedSimpArgs false

namespace MPS.ITebd
open MPS Tensor MPS.Props
open scoped Matrix
variable {K : Type} [RCLike K]

/-- the limited singular value decomposition, with the dimension limited -/
theorem limitedDim_core {L : Lib K} (hg : GoodSvd L.svd) (hn : SortedSvd L.svd) (hd : 0 ≤ L.dflt)
    (tol : ℝ) (M : Int) {A : Tensor K} {m n : Nat} (hA : A.dims = [m, n]) (hm : 0 < m)
    (hn' : 0 < n) (hne : ∃ i j, i < m ∧ j < n ∧ A.get [i, j] ≠ 0) :
    let r := limitedSvdDim L A tol M
    let w := fun i j => ∑ k ∈ Finset.range r.s.length, r.U.get [i, k] * ((r.s.getD k 0 : ℝ) : K) * r.V.get [k, j]
    0 < r.s.length ∧ r.s.length ≤ min m n ∧ (0 < M → (r.s.length : Int) ≤ M) ∧ r.U.dims = [m, r.s.length] ∧ r.V.dims = [r.s.length, n] ∧
    (∀ x ∈ r.s, 0 ≤ x) ∧
    (∃ ρ : ℝ, 0 < ρ ∧ ∑ i ∈ Finset.range m, ∑ j ∈ Finset.range n, ‖A.get [i, j] - (ρ : K) * w i j‖ ^ 2 = discarded (L.svd A).s r.s.length) ∧
    ∑ i ∈ Finset.range m, ∑ j ∈ Finset.range n, ‖w i j‖ ^ 2 = 1 ∧
    r.s.length = whereToTruncate L.eps L.dflt (L.svd A).s tol M ∧
    ∑ i ∈ Finset.range m, ∑ j ∈ Finset.range n, ‖A.get [i, j]‖ ^ 2 = discarded (L.svd A).s 0 := by
  intro l w
  have hS := hg A m n hA hm hn'
  set r := L.svd A with hr
  set c := whereToTruncate L.eps L.dflt r.s tol M with hc
  have hcl : c ≤ r.s.length := wtt_le L.eps L.dflt r.s tol M hd
  have hcm : c ≤ min m n := by rw [← hS.lenS]; exact hcl
  have hnorm : ∑ i ∈ Finset.range m, ∑ j ∈ Finset.range n, ‖A.get [i, j]‖ ^ 2 = discarded r.s 0 := by
    have := hS.error (Nat.zero_le _)
    simpa using this
  have hpos : 0 < discarded r.s 0 := by
    rw [← hnorm]
    obtain ⟨i, j, hi, hj, h⟩ := hne
    refine Finset.sum_pos' (fun _ _ => Finset.sum_nonneg fun _ _ => by positivity) ⟨i, Finset.mem_range.2 hi, ?_⟩
    refine Finset.sum_pos' (fun _ _ => by positivity) ⟨j, Finset.mem_range.2 hj, ?_⟩
    have : 0 < ‖A.get [i, j]‖ := norm_pos_iff.2 h
    positivity
  have hs0 : 0 < r.s.getD 0 0 := by
    by_contra h
    have hz : ∀ k, r.s.getD k 0 = 0 := by
      intro k
      refine le_antisymm (le_trans ((hn A).2 0 k (Nat.zero_le _)) (not_lt.1 h)) ?_
      rcases Nat.lt_or_ge k r.s.length with h' | h'
      · rw [List.getD_eq_getElem _ _ h']; exact (hn A).1 _ (List.getElem_mem h')
      · rw [List.getD_eq_default _ _ h']
    have : discarded r.s 0 = 0 := by
      unfold discarded
      exact Finset.sum_eq_zero fun k _ => by rw [hz]; simp
    linarith
  have hc0 : 0 < c := by
    refine wtt_pos L.eps L.dflt r.s tol M hd (fun h => by rw [h] at hs0; simp at hs0) (Or.inr ⟨r.s.getD 0 0, ?_, hs0.ne'⟩)
    have : 0 < r.s.length := by
      by_contra h
      have : r.s = [] := List.length_eq_zero_iff.1 (by omega)
      rw [this] at hs0; simp at hs0
    rw [List.getD_eq_getElem _ _ this]; exact List.getElem_mem _
  set ρ := vecNorm (r.s.take c) with hρ
  have hρ2 : ρ ^ 2 = ∑ k ∈ Finset.range c, r.s.getD k 0 ^ 2 := vecNorm_take r.s hcl
  have hρpos : 0 < ρ := by
    have h2 : 0 < ρ ^ 2 := by
      rw [hρ2]
      exact Finset.sum_pos' (fun _ _ => by positivity) ⟨0, Finset.mem_range.2 hc0, by positivity⟩
    have h3 : 0 ≤ ρ := Real.sqrt_nonneg _
    exact lt_of_le_of_ne h3 (fun h => by rw [← h] at h2; simp at h2)
  have hLs : l.s = (r.s.take c).map fun x => x / ρ := rfl
  have hlen : l.s.length = c := by rw [hLs]; simp [hcl]
  have hLU : l.U = changeDim r.U 1 c := rfl
  have hLV : l.V = changeDim r.V 0 c := rfl
  have gU : ∀ i k, k < c → l.U.get [i, k] = r.U.get [i, k] := by
    intro i k hk
    rw [hLU]
    have : k < m ∧ k < n := by omega
    simp [changeDim, hS.dimsU, this]
  have gV : ∀ k j, k < c → l.V.get [k, j] = r.V.get [k, j] := by
    intro k j hk
    rw [hLV]
    have : k < m ∧ k < n := by omega
    simp [changeDim, hS.dimsV, this]
  have gs : ∀ k, k < c → l.s.getD k 0 = r.s.getD k 0 / ρ := by
    intro k hk
    have : k < r.s.length := by omega
    rw [hLs]
    rw [List.getD_eq_getElem _ _ (by simp; omega), List.getD_eq_getElem _ _ this]
    simp
  have hsum : ∀ i j, w i j = ((ρ⁻¹ : ℝ) : K) * ∑ k ∈ Finset.range c, r.U.get [i, k] * ((r.s.getD k 0 : ℝ) : K) * r.V.get [k, j] := by
    intro i j
    show ∑ k ∈ Finset.range l.s.length, _ = _
    rw [hlen, Finset.mul_sum]
    refine Finset.sum_congr rfl fun k hk => ?_
    have hk := Finset.mem_range.1 hk
    rw [gU i k hk, gV k j hk, gs k hk, div_eq_inv_mul]
    push_cast
    ring
  have hρK : (ρ : K) * ((ρ⁻¹ : ℝ) : K) = 1 := by
    rw [← RCLike.ofReal_mul, mul_inv_cancel₀ hρpos.ne']; simp
  refine ⟨by omega, by omega, ?_, ?_, ?_, ?_, ⟨ρ, hρpos, ?_⟩, ?_, hlen, hnorm⟩
  · intro hM
    rw [hlen]
    by_cases ht : tol < 0
    · rw [hc, C18_default L.eps L.dflt r.s tol ht hd]
      exact (C18_truncate L.eps L.dflt r.s L.dflt hd M).2.1 hM
    · exact (C18_truncate L.eps L.dflt r.s tol (not_lt.1 ht) M).2.1 hM
  · rw [hLU, hlen]; simp [changeDim, hS.dimsU]
  · rw [hLV, hlen]; simp [changeDim, hS.dimsV]
  · intro x hx
    rw [hLs] at hx
    obtain ⟨y, hy, rfl⟩ := List.mem_map.1 hx
    exact div_nonneg ((hn A).1 y (List.mem_of_mem_take hy)) hρpos.le
  · rw [hlen, ← hS.error hcm]
    refine Finset.sum_congr rfl fun i _ => Finset.sum_congr rfl fun j _ => ?_
    rw [hsum, ← mul_assoc, hρK, one_mul]
  · simp only [hsum, norm_mul, mul_pow]
    simp only [← Finset.mul_sum]
    rw [IsSVD_norm hS hcm, ← hρ2, RCLike.norm_ofReal, abs_of_pos (inv_pos.2 hρpos)]
    field_simp

/-- entries of a window of one cell -/
theorem cell_path2 {psi : State K} {D d E e : Nat} (h : Dims psi D d E e) {a i j b : Nat} (hb : b < D) :
    path (window psi 0 2) [i, j] a b =
      ∑ c ∈ Finset.range E, psi.A.get [a, i, c] * psi.lA.get [c] * (psi.B.get [c, j, b] * psi.lB.get [b]) := by
  have hw : window psi 0 2 = [scale psi.A (-1) psi.lA, scale psi.B (-1) psi.lB] := by
    have := window_cell psi 0
    simpa [window, siteT_zero, siteT_one] using this
  have d1 : (scale psi.A (-1) psi.lA).dim 2 = E := dim2_of (show _ = [D, d, E] from h.A)
  have d2 : (scale psi.B (-1) psi.lB).dim 2 = D := dim2_of (show _ = [E, e, D] from h.B)
  rw [hw, path_cons, d1]
  refine Finset.sum_congr rfl fun c _ => ?_
  rw [path_cons, d2, Finset.sum_eq_single_of_mem b (Finset.mem_range.2 hb)]
  · rw [path_nil, if_pos rfl, mul_one]
    congr 1
    · simp [scale, h.A, nrm]
    · simp [scale, h.B, nrm]
  · intro x _ hx
    rw [path_nil, if_neg hx, mul_zero]

/-- the tensor `GAB` of `apply_operator`, /repo/src/iTEBD/itebd_canonical.hpp:311-316 -/
def gab (psi : State K) (U : Tensor K) : Tensor K :=
  let G := fold psi.AlA (-1) psi.B 0
  reshape (foldin U (-1) (reshape G [G.dim 0, G.dim 1 * G.dim 2, G.dim 3]) 1) [G.dim 0, G.dim 1, G.dim 2, G.dim 3]

theorem applyCanon_eq (L : Lib K) (psi : State K) (U : Tensor K) (tol : ℝ) (M : Int) :
    applyCanon L psi U tol M = splitTensor L (gab psi U) psi.lB tol M := rfl

theorem gab_spec {psi : State K} (hok : Ok psi) {D d E e : Nat} (h : Dims psi D d E e) {U : Tensor K} (hU : U.dims = [d * e, d * e]) :
    (gab psi U).dims = [D, d, e, D] ∧ ∀ a < D, ∀ i < d, ∀ j < e, ∀ b < D, (gab psi U).get [a, i, j, b] =
      ∑ k ∈ Finset.range d, ∑ l ∈ Finset.range e, U.get [i + d * j, k + d * l] *
        ∑ c ∈ Finset.range E, psi.A.get [a, k, c] * psi.lA.get [c] * psi.B.get [c, l, b] := by
  have hG : (fold psi.AlA (-1) psi.B 0).dims = [D, d, e, D] := by
    rw [hok.AlA]; simp [fold, scale, h.A, h.B, nrm]
  set G := fold psi.AlA (-1) psi.B 0 with hGd
  have g0 : G.dim 0 = D := by simp [dim, hG, nrm]
  have g1 : G.dim 1 = d := by simp [dim, hG, nrm]
  have g2 : G.dim 2 = e := by simp [dim, hG, nrm]
  have g3 : G.dim 3 = D := by simp [dim, hG, nrm]
  have hgab : gab psi U = reshape (foldin U (-1) (reshape G [D, d * e, D]) 1) [D, d, e, D] := by
    unfold gab; simp only [← hGd, g0, g1, g2, g3]
  have hF : (foldin U (-1) (reshape G [D, d * e, D]) 1).dims = [D, d * e, D] := by
    simp [foldin, reshape_dims, hU, nrm]
  rw [hgab]
  refine ⟨rfl, fun a ha i hi j hj b hb => ?_⟩
  have e1 : (reshape (foldin U (-1) (reshape G [D, d * e, D]) 1) [D, d, e, D]).get [a, i, j, b] =
      (foldin U (-1) (reshape G [D, d * e, D]) 1).get [a, i + d * j, b] := by
    apply reshape_get
    · rw [hF]; exact .cons ha (.cons (add_mul_lt hi hj) (.cons hb .nil))
    · rw [hF]; simp only [flat]; ring
  rw [e1]
  have e2 : (foldin U (-1) (reshape G [D, d * e, D]) 1).get [a, i + d * j, b] =
      ∑ x ∈ Finset.range (d * e), U.get [i + d * j, x] * (reshape G [D, d * e, D]).get [a, x, b] := by
    simp [foldin, reshape_dims, hU, nrm]
  rw [e2, sum_range_mul, Finset.sum_comm]
  refine Finset.sum_congr rfl fun k hk => Finset.sum_congr rfl fun l hl => ?_
  have hk := Finset.mem_range.1 hk
  have hl := Finset.mem_range.1 hl
  congr 1
  have e3 : (reshape G [D, d * e, D]).get [a, k + d * l, b] = G.get [a, k, l, b] := by
    apply reshape_get
    · rw [hG]; exact .cons ha (.cons hk (.cons hl (.cons hb .nil)))
    · rw [hG]; simp only [flat]; ring
  rw [e3, hGd, hok.AlA]
  simp [fold, scale, h.A, h.B, nrm]

/-- the matrix that `apply_operator` decomposes -/
def thetaMat (psi : State K) (U : Tensor K) (D d e : Nat) : Tensor K :=
  reshape (scale (scale (gab psi U) 0 psi.lB) (-1) psi.lB) [D * d, e * D]

theorem theta_spec {psi : State K} (hok : Ok psi) {D d E e : Nat} (h : Dims psi D d E e) {U : Tensor K} (hU : U.dims = [d * e, d * e])
    {a i j b : Nat} (ha : a < D) (hi : i < d) (hj : j < e) (hb : b < D) :
    (thetaMat psi U D d e).get [a + D * i, j + e * b] = actOp [d, e] (pairElt d U) (winAmp psi 0 2 a b) [i, j] := by
  obtain ⟨hg, hget⟩ := gab_spec hok h hU
  have hd : (scale (scale (gab psi U) 0 psi.lB) (-1) psi.lB).dims = [D, d, e, D] := hg
  have e1 : (thetaMat psi U D d e).get [a + D * i, j + e * b] = (scale (scale (gab psi U) 0 psi.lB) (-1) psi.lB).get [a, i, j, b] := by
    unfold thetaMat
    apply reshape_get
    · rw [hd]; exact .cons ha (.cons hi (.cons hj (.cons hb .nil)))
    · rw [hd]; simp only [flat]; ring
  have e2 : (scale (scale (gab psi U) 0 psi.lB) (-1) psi.lB).get [a, i, j, b] =
      (gab psi U).get [a, i, j, b] * psi.lB.get [a] * psi.lB.get [b] := by
    simp [scale, hg, nrm]
  rw [e1, e2, hget a ha i hi j hj b hb]
  unfold actOp
  rw [sumCfg_cons]
  simp only [sumCfg_cons, sumCfg, Finset.sum_mul]
  refine Finset.sum_congr rfl fun k _ => Finset.sum_congr rfl fun l _ => ?_
  have hlv : psi.leftVector 0 = psi.lB := rfl
  rw [winAmp, hlv, cell_path2 h hb]
  simp only [pairElt, List.getD_cons_zero, List.getD_cons_succ, Finset.mul_sum, Finset.sum_mul]
  exact Finset.sum_congr rfl fun c _ => by ring

end MPS.ITebd
