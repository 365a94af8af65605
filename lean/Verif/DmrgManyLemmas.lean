import Verif.DmrgLemmas7
import Verif.DmrgManySpec
import Verif.Props.HamProps4

/-! Several eigenvalues of the eigenvalue problem of one site. -/

set_option linter.unusedSectionVars false
set_option linter.unusedSimpArgs false

namespace MPS.Dmrg
open MPS Tensor Form Minim
variable {K : Type} [RCLike K]

/-- inner product of two states which differ in the centre of the canonical form only -/
theorem inner_at {ds : List Nat} {P : List (Tensor K)} (h : WF 1 P ds 1) (hd : ∀ d ∈ ds, 0 < d) {k a b : Nat} (hk : k < ds.length)
    (hP : (site P k).dims = [a, ds.getD k 0, b]) (hl : ∀ j < k, LeftIso (site P j)) (hr : ∀ j, k < j → j < ds.length → RightIso (site P j))
    {Y X : Tensor K} (hY : Y.dims = [a, ds.getD k 0, b]) (hX : X.dims = [a, ds.getD k 0, b]) :
    MPS.inner ds (amp (P.set k Y)) (amp (P.set k X)) = sumCfg [a, ds.getD k 0, b] fun I => star (Y.get I) * X.get I := by
  obtain ⟨a', b', h1, h2, h3, -⟩ := WF.around h hk
  have hP' := hP
  rw [h2] at hP'
  simp only [List.cons.injEq, and_true, true_and] at hP'
  obtain ⟨rfl, rfl⟩ := hP'
  set f : Nat → Tensor K := onSite ds k (eye (ds.getD k 0)) with hf
  have hid : ∀ l, IsIdentity (ds.getD l 0) (f l) := by
    intro l
    rw [hf]; unfold onSite
    split_ifs with hlk
    · subst hlk; intro i j _ _; rw [eye_get]
    · intro i j _ _; rw [eye_get]
  have e0 : MPS.inner ds (amp (P.set k Y)) (amp (P.set k X)) =
      MPS.inner ds (amp (P.set k Y)) (actOp ds (tensorOp ds.length f) (amp (P.set k X))) := by
    unfold MPS.inner
    refine sumCfg_congr fun s hs => ?_
    rw [hf, Props.actOp_onSite hs hk]
    congr 1
    unfold actSite
    have hsk : s.getD k 0 < ds.getD k 0 := by
      have h1 : k < s.length := by rw [List.Forall₂.length_eq hs]; exact hk
      have := List.Forall₂.get hs (i := k) h1 hk
      simpa [List.getElem?_eq_getElem hk, List.getElem?_eq_getElem h1] using this
    rw [Finset.sum_eq_single_of_mem (s.getD k 0) (Finset.mem_range.2 hsk)]
    · rw [eye_get, if_pos rfl, one_mul]
      congr 1
      have h1 : k < s.length := by rw [List.Forall₂.length_eq hs]; exact hk
      rw [List.getD_eq_getElem _ _ h1, List.set_getElem_self]
    · intro j _ hj
      rw [eye_get, if_neg (Ne.symm hj), zero_mul]
  rw [e0, expect_at h hd hk hP f hY hX]
  have e1 : ∀ u ∈ Finset.range a', ∀ v ∈ Finset.range a', ∑ x ∈ Finset.range b', ∑ y ∈ Finset.range b',
      EL ds P k f u v * oneSite (ds.getD k 0) Y (f k) X u v x y * ER ds P (k + 1) f x y =
      (if u = v then (1 : K) else 0) * ∑ x ∈ Finset.range b', ∑ i ∈ Finset.range (ds.getD k 0), star (Y.get [u, i, x]) * X.get [v, i, x] := by
    intro u hu v hv
    rw [EL_id h hd hk.le hl f (fun j _ => hid j) a' h1 u v (Finset.mem_range.1 hu) (Finset.mem_range.1 hv), ← sum_delta (n := b')
      (fun x y => ∑ i ∈ Finset.range (ds.getD k 0), star (Y.get [u, i, x]) * X.get [v, i, y]), Finset.mul_sum]
    refine Finset.sum_congr rfl fun x hx => ?_
    rw [Finset.mul_sum]
    refine Finset.sum_congr rfl fun y hy => ?_
    rw [ER_id h hd hk (fun j hj hj2 => hr j (by omega) hj2) f (fun j _ _ => hid j) b' h3 x y (Finset.mem_range.1 hx) (Finset.mem_range.1 hy),
      oneSite_id (hid k)]
    ring
  rw [Finset.sum_congr rfl fun u hu => Finset.sum_congr rfl fun v hv => e1 u hu v hv, sum_delta
    (fun u v => ∑ x ∈ Finset.range b', ∑ i ∈ Finset.range (ds.getD k 0), star (Y.get [u, i, x]) * X.get [v, i, x])]
  simp only [sumCfg_cons, sumCfg_nil]
  exact Finset.sum_congr rfl fun u _ => Finset.sum_comm

/-- the columns of the matrix of eigenvectors, as tensors of the site -/
def columnTensor (P : Tensor K) (d : List Nat) (p : Nat) : Tensor K := ⟨d, fun I => P.get [flat d I, p]⟩

theorem solve_many {eigs : ManyEigs K} (he : GoodManyEigs eigs) {ds : List Nat} {P A : List (Tensor K)} (h : WF 1 P ds 1) {H : Ham K} (hH : HamOk ds H)
    {k a b : Nat} (hk : k < ds.length) (hX : (site P k).dims = [a, ds.getD k 0, b]) (hl : ∀ j < k, LeftIso (site P j))
    (hr : ∀ j, k < j → j < ds.length → RightIso (site P j)) (hAl : 0 < k → LGood ds H P A (k - 1))
    (hAr : k + 1 < ds.length → RGood ds H P A (k + 1)) (dk : Int) (P0 : Tensor K) {mul : Tensor K → Tensor K}
    (hmul : mul = denseMul (opLeft H P A k dk) (opRight H P A k dk) a b ∨ mul = arpackMul (opLeft H P A k dk) (opRight H P A k dk) a (ds.getD k 0) b)
    {m : Nat} (hm : 0 < m) (hok : (eigs mul [a, ds.getD k 0, b].prod m P0).ok = true) :
    let r := eigs mul [a, ds.getD k 0, b].prod m P0
    let φ : Nat → List (Tensor K) := fun p => P.set k (columnTensor r.P [a, ds.getD k 0, b] p)
    r.aux.length = m ∧ r.P.dims = [[a, ds.getD k 0, b].prod, m] ∧ (∀ p, WF 1 (φ p) ds 1) ∧
    (∀ p q, p < m → q < m → MPS.inner ds (amp (φ p)) (amp (φ q)) = if p = q then 1 else 0) ∧
    (∀ p q, p < m → q < m → hamExp ds H (φ p) (φ q) = if p = q then ((RCLike.re (r.aux.getD p 0) : ℝ) : K) else 0) ∧
    ∀ p, p + 1 < m → RCLike.re (r.aux.getD p 0) ≤ RCLike.re (r.aux.getD (p + 1) 0) := by
  intro r φ
  have hlen := h.length
  obtain ⟨a', b', h1, hd, h2, ha, hd0, hb⟩ := WF.around h hk
  rw [hd] at hX
  simp only [List.cons.injEq, and_true, true_and] at hX
  obtain ⟨rfl, rfl⟩ := hX
  obtain ⟨F, G, o1, o2, o3, o4, o5⟩ := ops_spec h hH hk hd hl hr hAl hAr dk
  set M := heff (opLeft H P A k dk) (opRight H P A k dk) a' b' with hM
  have hpos : ∀ n ∈ [a', ds.getD k 0, b'], 0 < n := by intro n hn; simp at hn; rcases hn with rfl | rfl | rfl <;> assumption
  have hget : ∀ {u i x v j y}, u < a' → i < ds.getD k 0 → x < b' → v < a' → j < ds.getD k 0 → y < b' →
      M.get [flat [a', ds.getD k 0, b'] [u, i, x], flat [a', ds.getD k 0, b'] [v, j, y]] = effM ds H P k u i x v j y :=
    fun hu hi hx hv hj hy => by rw [hM, heff_get o1 o2 hu hi hx hv hj hy, o5]
  have hherm : ∀ I J, IsCfg [a', ds.getD k 0, b'] I → IsCfg [a', ds.getD k 0, b'] J →
      star (M.get [flat [a', ds.getD k 0, b'] I, flat [a', ds.getD k 0, b'] J]) = M.get [flat [a', ds.getD k 0, b'] J, flat [a', ds.getD k 0, b'] I] := by
    intro I J hI hJ
    obtain ⟨u, i, x, rfl, hu, hi, hx⟩ := cfg3 hI
    obtain ⟨v, j, y, rfl, hv, hj, hy⟩ := cfg3 hJ
    rw [hM, heff_get o1 o2 hu hi hx hv hj hy, heff_get o1 o2 hv hj hy hu hi hx, star_add, star_mul', star_mul', star_delta, star_delta,
      o3 u i v j hu hi hv hj, o4 i x j y hi hx hj hy]
  have hA : ∀ X : Tensor K, X.dims = [[a', ds.getD k 0, b'].prod] → (mul X).dims = [[a', ds.getD k 0, b'].prod] ∧
      ∀ I, IsCfg [a', ds.getD k 0, b'] I → (mul X).get [flat [a', ds.getD k 0, b'] I] =
      sumCfg [a', ds.getD k 0, b'] fun J => M.get [flat [a', ds.getD k 0, b'] I, flat [a', ds.getD k 0, b'] J] * X.get [flat [a', ds.getD k 0, b'] J] := by
    intro X hX
    rcases hmul with rfl | rfl
    · exact dense_spec o1 o2 hpos hX
    · exact arpack_spec o1 o2 hX
  set dd := [a', ds.getD k 0, b'] with hdd
  have hn : 0 < dd.prod := List.prod_pos hpos
  obtain ⟨g1, g2, g3, g4, g5⟩ := he mul dd.prod m P0 (fun i j => M.get [i, j]) hn hm (by
      intro i j hi hj
      obtain ⟨I, hI, rfl⟩ := flat_surj hi
      obtain ⟨J, hJ, rfl⟩ := flat_surj hj
      exact hherm I J hI hJ) (fun X hX => by
      obtain ⟨e1, e2⟩ := hA X hX
      refine ⟨e1, fun i hi => ?_⟩
      obtain ⟨I, hI, rfl⟩ := flat_surj hi
      rw [e2 I hI, sumCfg_flat hpos (fun j => M.get [flat dd I, j] * X.get [j])]) hok
  change r.aux.length = m at g1
  change ∀ p q, p < m → q < m → ∑ i ∈ Finset.range dd.prod, star (r.P.get [i, p]) * r.P.get [i, q] = if p = q then 1 else 0 at g3
  change ∀ p, p < m → ∀ i < dd.prod, ∑ j ∈ Finset.range dd.prod, M.get [i, j] * r.P.get [j, p] = ((RCLike.re (r.aux.getD p 0) : ℝ) : K) * r.P.get [i, p] at g4
  change ∀ p, p < m → ∀ X : Nat → K, (∀ q < p, ∑ i ∈ Finset.range dd.prod, star (r.P.get [i, q]) * X i = 0) →
      RCLike.re (r.aux.getD p 0) * ∑ i ∈ Finset.range dd.prod, ‖X i‖ ^ 2 ≤
        RCLike.re (∑ i ∈ Finset.range dd.prod, ∑ j ∈ Finset.range dd.prod, star (X i) * M.get [i, j] * X j) at g5
  have hin : ∀ p q, p < m → q < m → (∑ i ∈ Finset.range dd.prod, ∑ j ∈ Finset.range dd.prod, star (r.P.get [i, p]) * M.get [i, j] * r.P.get [j, q]) =
      if p = q then ((RCLike.re (r.aux.getD p 0) : ℝ) : K) else 0 := by
    intro p q hp hq
    have : ∀ i ∈ Finset.range dd.prod, ∑ j ∈ Finset.range dd.prod, star (r.P.get [i, p]) * M.get [i, j] * r.P.get [j, q] =
        ((RCLike.re (r.aux.getD q 0) : ℝ) : K) * (star (r.P.get [i, p]) * r.P.get [i, q]) := by
      intro i hi
      simp only [mul_assoc]
      rw [← Finset.mul_sum, g4 q hq i (Finset.mem_range.1 hi)]
      ring
    rw [Finset.sum_congr rfl this, ← Finset.mul_sum, g3 p q hp hq]
    split_ifs with hpq
    · rw [hpq, mul_one]
    · rw [mul_zero]
  refine ⟨g1, g2, fun p => WF.replace hk hlen h1 h2 rfl ha hd0 hb, fun p q hp hq => ?_, fun p q hp hq => ?_, fun p hp => ?_⟩
  · rw [inner_at h hH.pos hk hd hl hr (Y := columnTensor r.P dd p) (X := columnTensor r.P dd q) rfl rfl, ← g3 p q hp hq]
    exact sumCfg_flat hpos (fun i => star (r.P.get [i, p]) * r.P.get [i, q])
  · unfold hamExp
    rw [ham_at h hH.pos H hk hd hl hr (Y := columnTensor r.P dd p) (X := columnTensor r.P dd q) rfl rfl, ← hin p q hp hq]
    rw [← sumCfg_flat hpos (fun i => ∑ j ∈ Finset.range dd.prod, star (r.P.get [i, p]) * M.get [i, j] * r.P.get [j, q])]
    have : ∀ I, ∑ j ∈ Finset.range dd.prod, star (r.P.get [flat dd I, p]) * M.get [flat dd I, j] * r.P.get [j, q] =
        sumCfg dd fun J => star (r.P.get [flat dd I, p]) * M.get [flat dd I, flat dd J] * r.P.get [flat dd J, q] := fun I =>
      (sumCfg_flat hpos (fun j => star (r.P.get [flat dd I, p]) * M.get [flat dd I, j] * r.P.get [j, q])).symm
    simp only [this]
    simp only [hdd, sumCfg_cons, sumCfg_nil]
    refine Finset.sum_congr rfl fun u hu => Finset.sum_congr rfl fun i hi => Finset.sum_congr rfl fun x hx => Finset.sum_congr rfl fun v hv =>
      Finset.sum_congr rfl fun j hj => Finset.sum_congr rfl fun y hy => ?_
    rw [hget (Finset.mem_range.1 hu) (Finset.mem_range.1 hi) (Finset.mem_range.1 hx) (Finset.mem_range.1 hv) (Finset.mem_range.1 hj) (Finset.mem_range.1 hy)]
    rfl
  · have h5 := g5 p (by omega) (fun i => r.P.get [i, p + 1]) (fun q hq => by rw [g3 q (p + 1) (by omega) hp, if_neg (by omega)])
    rw [hin (p + 1) (p + 1) hp hp, if_pos rfl, RCLike.ofReal_re] at h5
    have e : ∑ i ∈ Finset.range dd.prod, ‖r.P.get [i, p + 1]‖ ^ 2 = 1 := by
      apply RCLike.ofReal_injective (K := K)
      rw [RCLike.ofReal_sum]
      simp only [ofReal_normSq]
      rw [g3 (p + 1) (p + 1) hp hp, if_pos rfl, RCLike.ofReal_one]
    rwa [e, mul_one] at h5

end MPS.Dmrg
