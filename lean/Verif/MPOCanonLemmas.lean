import Verif.MPOCanonModel
import Verif.CanonLemmas3
import Verif.MPOLemmas

/-! # Helper lemmas: apply_canonical, simplify(MPO), fidelity -/

set_option linter.unusedSectionVars false
set_option linter.unusedSimpArgs false

namespace MPS
open Tensor
variable {K : Type} [RCLike K]

theorem sum4_comm {M ι κ μ ν : Type} [AddCommMonoid M] (s : Finset ι) (t : Finset κ) (p : Finset μ) (q : Finset ν)
    (f : ι → κ → μ → ν → M) :
    ∑ x ∈ s, ∑ y ∈ t, ∑ z ∈ p, ∑ w ∈ q, f x y z w = ∑ z ∈ p, ∑ w ∈ q, ∑ x ∈ s, ∑ y ∈ t, f x y z w := by
  have e1 : ∀ x ∈ s, ∑ y ∈ t, ∑ z ∈ p, ∑ w ∈ q, f x y z w = ∑ z ∈ p, ∑ w ∈ q, ∑ y ∈ t, f x y z w := by
    intro x _
    rw [Finset.sum_comm]
    exact Finset.sum_congr rfl fun z _ => Finset.sum_comm
  rw [Finset.sum_congr rfl e1, Finset.sum_comm]
  exact Finset.sum_congr rfl fun z _ => Finset.sum_comm

theorem rightSite_dims {L O A : Tensor K} {b c d c' a a' : Nat} (hL : L.dims = [b, c, a]) (hO : O.dims = [c, d, d, c'])
    (hA : A.dims = [a, d, a']) : (rightSite L O A).dims = [b, d, c' * a'] := by
  obtain ⟨q0, q1, q2, q3⟩ := dim_of4 hO
  simp only [rightSite, reshape_dims, q0, q1, q2, q3, dim0_of hL, dim2_of hA]

theorem rightSite_get {L O A : Tensor K} {b c d c' a a' : Nat} (hL : L.dims = [b, c, a]) (hO : O.dims = [c, d, d, c'])
    (hA : A.dims = [a, d, a']) {x i z w : Nat} (hx : x < b) (hi : i < d) (hz : z < c') (hw : w < a') :
    (rightSite L O A).get [x, i, z + c' * w]
      = ∑ u ∈ Finset.range c, ∑ j ∈ Finset.range d, O.get [u, i, j, z] * ∑ v ∈ Finset.range a, L.get [x, u, v] * A.get [v, j, w] := by
  obtain ⟨q0, q1, q2, q3⟩ := dim_of4 hO
  have hC : (fold L (-1) A 0).dims = [b, c, d, a'] := by simp [fold, hL, hA]
  have hP : (permute O 1 2).dims = [c, d, d, c'] := by simp [permute, swapIdx, hO]
  have hF : (foldin (reshape (permute O 1 2) [c * d, d, c']) 0 (reshape (fold L (-1) A 0) [b, c * d, a']) 1).dims
      = [b, d, c', a'] := by simp [foldin]
  have e : (rightSite L O A) = reshape (foldin (reshape (permute O 1 2) [c * d, d, c']) 0
      (reshape (fold L (-1) A 0) [b, c * d, a']) 1) [b, d, c' * a'] := by
    simp only [rightSite, q0, q1, q2, q3, dim0_of hL, dim2_of hA]
  rw [e, reshape_get (idx := [x, i, z, w])]
  · have : (foldin (reshape (permute O 1 2) [c * d, d, c']) 0 (reshape (fold L (-1) A 0) [b, c * d, a']) 1).get [x, i, z, w]
        = ∑ k ∈ Finset.range (c * d), (reshape (permute O 1 2) [c * d, d, c']).get [k, i, z]
          * (reshape (fold L (-1) A 0) [b, c * d, a']).get [x, k, w] := by
      simp [foldin]
    rw [this, sum_range_mul, Finset.sum_comm]
    refine Finset.sum_congr rfl fun u hu => Finset.sum_congr rfl fun j hj => ?_
    rw [Finset.mem_range] at hu hj
    have r1 : (reshape (permute O 1 2) [c * d, d, c']).get [u + c * j, i, z] = (permute O 1 2).get [u, j, i, z] := by
      apply reshape_get
      · rw [hP]; simp [hu, hj, hi, hz]
      · rw [hP]; simp only [flat]; ring
    have r2 : (reshape (fold L (-1) A 0) [b, c * d, a']).get [x, u + c * j, w] = (fold L (-1) A 0).get [x, u, j, w] := by
      apply reshape_get
      · rw [hC]; simp [hx, hu, hj, hw]
      · rw [hC]; simp only [flat]; ring
    rw [r1, r2]
    congr 1
    simp [fold, hL, hA]
  · rw [hF]; simp [hx, hi, hz, hw]
  · rw [hF]; simp only [flat]; ring

theorem leftSite_dims {L O A : Tensor K} {b c d c' a a' : Nat} (hL : L.dims = [a', c', b]) (hO : O.dims = [c, d, d, c'])
    (hA : A.dims = [a, d, a']) : (leftSite O A L).dims = [a * c, d, b] := by
  obtain ⟨q0, q1, q2, q3⟩ := dim_of4 hO
  simp only [leftSite, reshape_dims, q0, q1, q2, q3, dim2_of hL, dim0_of hA]

theorem leftSite_get {L O A : Tensor K} {b c d c' a a' : Nat} (hL : L.dims = [a', c', b]) (hO : O.dims = [c, d, d, c'])
    (hA : A.dims = [a, d, a']) {x i z w : Nat} (hx : x < b) (hi : i < d) (hz : z < c) (hw : w < a) :
    (leftSite O A L).get [w + a * z, i, x]
      = ∑ j ∈ Finset.range d, ∑ u ∈ Finset.range c', O.get [z, i, j, u] * ∑ v ∈ Finset.range a', A.get [w, j, v] * L.get [v, u, x] := by
  obtain ⟨q0, q1, q2, q3⟩ := dim_of4 hO
  have hC : (fold A 2 L 0).dims = [a, d, c', b] := by simp [fold, hL, hA]
  have hF : (foldin (reshape O [c, d, d * c']) 2 (reshape (fold A 2 L 0) [a, d * c', b]) 1).dims
      = [a, c, d, b] := by simp [foldin]
  have e : (leftSite O A L) = reshape (foldin (reshape O [c, d, d * c']) 2
      (reshape (fold A 2 L 0) [a, d * c', b]) 1) [a * c, d, b] := by
    simp only [leftSite, q0, q1, q2, q3, dim2_of hL, dim0_of hA]
  rw [e, reshape_get (idx := [w, z, i, x])]
  · have : (foldin (reshape O [c, d, d * c']) 2 (reshape (fold A 2 L 0) [a, d * c', b]) 1).get [w, z, i, x]
        = ∑ k ∈ Finset.range (d * c'), (reshape O [c, d, d * c']).get [z, i, k]
          * (reshape (fold A 2 L 0) [a, d * c', b]).get [w, k, x] := by
      simp [foldin]
    rw [this, sum_range_mul, Finset.sum_comm]
    refine Finset.sum_congr rfl fun j hj => Finset.sum_congr rfl fun u hu => ?_
    rw [Finset.mem_range] at hu hj
    have r1 : (reshape O [c, d, d * c']).get [z, i, j + d * u] = O.get [z, i, j, u] := by
      apply reshape_get
      · rw [hO]; simp [hu, hj, hi, hz]
      · rw [hO]; simp only [flat]; ring
    have r2 : (reshape (fold A 2 L 0) [a, d * c', b]).get [w, j + d * u, x] = (fold A 2 L 0).get [w, j, u, x] := by
      apply reshape_get
      · rw [hC]; simp [hx, hu, hj, hw]
      · rw [hC]; simp only [flat]; ring
    rw [r1, r2]
    congr 1
    simp [fold, hL, hA]
  · rw [hF]; simp [hx, hi, hz, hw]
  · rw [hF]; simp only [flat]; ring

/-- amplitude `⟨s| O ψ⟩` of open pieces of an operator and a state, with left bonds `(c, a)` and right bonds 0 -/
def piece (ds : List Nat) (O ψ : List (Tensor K)) (s : List Nat) (c a : Nat) : K :=
  sumCfg ds fun t => opPath O s t c 0 * path ψ t a 0

theorem piece_cons {O A : Tensor K} {Os As : List (Tensor K)} {ds : List Nat} {c d c' a a' : Nat}
    (hO : O.dims = [c, d, d, c']) (hA : A.dims = [a, d, a']) (s : List Nat) (i u v : Nat) :
    piece (d :: ds) (O :: Os) (A :: As) (i :: s) u v
      = ∑ z ∈ Finset.range c', ∑ w ∈ Finset.range a',
        (∑ j ∈ Finset.range d, O.get [u, i, j, z] * A.get [v, j, w]) * piece ds Os As s z w := by
  obtain ⟨q0, q1, q2, q3⟩ := dim_of4 hO
  unfold piece
  rw [sumCfg_cons]
  have e2 : ∀ r ∈ Finset.range d, sumCfg ds (fun t => opPath (O :: Os) (i :: s) (r :: t) u 0 * path (A :: As) (r :: t) v 0)
      = ∑ z ∈ Finset.range c', ∑ w ∈ Finset.range a', (O.get [u, i, r, z] * A.get [v, r, w]) *
        sumCfg ds fun t => opPath Os s t z 0 * path As t w 0 := by
    intro r _
    simp only [opPath_cons, path_cons, q3, dim2_of hA, Finset.sum_mul_sum]
    rw [sumCfg_sum]
    refine Finset.sum_congr rfl fun j _ => ?_
    rw [sumCfg_sum]
    refine Finset.sum_congr rfl fun k _ => ?_
    rw [← sumCfg_mul_left]
    refine sumCfg_congr fun t _ => by ring
  rw [Finset.sum_congr rfl e2, Finset.sum_comm]
  refine Finset.sum_congr rfl fun z _ => ?_
  rw [Finset.sum_comm]
  refine Finset.sum_congr rfl fun w _ => ?_
  rw [Finset.sum_mul]

/-- the effective tolerance is positive, or it is zero and the vector `F` is not zero -/
def PieceOk (dflt : ℝ) (trunc : Bool) (P : Prop) : Prop :=
  0 < effTol dflt (splitTol trunc) ∨ (effTol dflt (splitTol trunc) = 0 ∧ P)

/-- the invariant of `do_apply_rightwards` -/
theorem applyRight_spec {svd : Tensor K → SvdRes K} (hg : GoodSvd svd) (eps : ℝ) {dflt : ℝ} (hd0 : 0 ≤ dflt) (trunc : Bool)
    {O ψ : List (Tensor K)} {ds : List Nat} {c a : Nat} (hO : WFO c O ds 1) (hψ : WF a ψ ds 1) (hne : O ≠ []) :
    ∀ (L : Tensor K) (b : Nat), L.dims = [b, c, a] → 0 < b →
    PieceOk dflt trunc (∃ s, IsCfg ds s ∧ ∃ x < b, ∑ u ∈ Finset.range c, ∑ v ∈ Finset.range a, L.get [x, u, v] * piece ds O ψ s u v ≠ 0) →
    let r := applyRightLoop svd eps dflt trunc L (O.zip ψ)
    WF b r.1 ds 1 ∧ 0 ≤ r.2 ∧ (effTol dflt (splitTol trunc) = 0 ∨ 1 ≤ effTol dflt (splitTol trunc) → r.2 = 0) ∧
    (∀ j, j + 1 < ds.length → LeftIso (site r.1 j)) ∧
    (r.2 = 0 → ∀ s, IsCfg ds s → ∀ x < b,
      path r.1 s x 0 = ∑ u ∈ Finset.range c, ∑ v ∈ Finset.range a, L.get [x, u, v] * piece ds O ψ s u v) := by
  generalize he : (1 : Nat) = e at hO
  induction hO generalizing ψ a with
  | nil => exact absurd rfl hne
  | @cons c d c' _ Ot Os ds hOd hc hd hc' wO ih =>
  subst he
  cases hψ with
  | @cons _ _ a' _ At As _ hAd ha _ ha' wA =>
  intro L b hL hb hok r
  -- one step of the contraction
  have hstep : ∀ s i x, i < d → x < b →
      ∑ u ∈ Finset.range c, ∑ v ∈ Finset.range a, L.get [x, u, v] * piece (d :: ds) (Ot :: Os) (At :: As) (i :: s) u v
      = ∑ z ∈ Finset.range c', ∑ w ∈ Finset.range a', (rightSite L Ot At).get [x, i, z + c' * w] * piece ds Os As s z w := by
    intro s i x hi hx
    have e1 : ∀ z ∈ Finset.range c', ∀ w ∈ Finset.range a',
        (rightSite L Ot At).get [x, i, z + c' * w] * piece ds Os As s z w
        = ∑ u ∈ Finset.range c, ∑ v ∈ Finset.range a, L.get [x, u, v] *
          ((∑ j ∈ Finset.range d, Ot.get [u, i, j, z] * At.get [v, j, w]) * piece ds Os As s z w) := by
      intro z hz w hw
      rw [rightSite_get hL hOd hAd hx hi (Finset.mem_range.1 hz) (Finset.mem_range.1 hw), Finset.sum_mul]
      refine Finset.sum_congr rfl fun u _ => ?_
      simp only [Finset.sum_mul, Finset.mul_sum]
      rw [Finset.sum_comm]
      refine Finset.sum_congr rfl fun v _ => Finset.sum_congr rfl fun j _ => by ring
    rw [Finset.sum_congr rfl fun z hz => Finset.sum_congr rfl (e1 z hz)]
    have e2 : ∀ u ∈ Finset.range c, ∀ v ∈ Finset.range a,
        L.get [x, u, v] * piece (d :: ds) (Ot :: Os) (At :: As) (i :: s) u v
        = ∑ z ∈ Finset.range c', ∑ w ∈ Finset.range a', L.get [x, u, v] *
          ((∑ j ∈ Finset.range d, Ot.get [u, i, j, z] * At.get [v, j, w]) * piece ds Os As s z w) := by
      intro u _ v _
      rw [piece_cons hOd hAd]
      simp only [Finset.mul_sum]
    rw [Finset.sum_congr rfl fun u hu => Finset.sum_congr rfl (e2 u hu)]
    rw [sum4_comm]
  have hCd := rightSite_dims hL hOd hAd
  have hca : 0 < c' * a' := Nat.mul_pos hc' ha'
  cases wO with
  | nil =>
    cases wA with
    | nil =>
    have hr : r = ([rightSite L Ot At], 0) := rfl
    rw [hr]
    refine ⟨WF.single hCd hb hd (by omega), le_refl _, fun _ => rfl, fun j hj => by simp at hj, fun _ s hs x hx => ?_⟩
    cases hs with
    | @cons i _ s _ hi hs =>
    cases hs
    rw [path_single hCd (by omega), hstep _ _ _ hi hx]
    simp [piece, sumCfg, opPath_nil, path_nil]
  | @cons _ d2 c2 _ O2 Os ds hO2 hc2 hd2 hc2' wO =>
    cases wA with
    | @cons _ _ a2 _ A2 As _ hA2 ha2 hd2 ha2' wA =>
    have hCne : 0 < effTol dflt (splitTol trunc) ∨ ∃ x i y, x < b ∧ i < d ∧ y < c' * a' ∧ (rightSite L Ot At).get [x, i, y] ≠ 0 := by
      rcases hok with h | ⟨_, s, hs, x, hx, hne0⟩
      · exact Or.inl h
      · right
        cases hs with
        | @cons i _ s _ hi hs =>
        rw [hstep _ _ _ hi hx] at hne0
        obtain ⟨z, hz, h1⟩ := Finset.exists_ne_zero_of_sum_ne_zero hne0
        obtain ⟨w, hw, h2⟩ := Finset.exists_ne_zero_of_sum_ne_zero h1
        exact ⟨x, i, _, hx, hi, add_mul_lt (Finset.mem_range.1 hz) (Finset.mem_range.1 hw), left_ne_zero_of_mul h2⟩
    obtain ⟨l, hl, -, hUd, hVd, hiso, hl0, -, hex, hll⟩ := splitRight_spec hg eps hd0 hCd hb hd hca trunc hCne
    set sp := splitRight svd eps dflt (rightSite L Ot At) trunc with hsp
    set L' := reshape sp.V [sp.V.dim 0, Ot.dim 3, At.dim 2] with hL'
    have hV0 : sp.V.dim 0 = l := by simp [dim, hVd]
    obtain ⟨-, -, -, q3⟩ := dim_of4 hOd
    have hL'd : L'.dims = [l, c', a'] := by simp only [hL', reshape_dims, hV0, q3, dim2_of hAd]
    have hL'g : ∀ k z w, k < l → z < c' → w < a' → L'.get [k, z, w] = sp.V.get [k, z + c' * w] := by
      intro k z w hk hz hw
      rw [hL', hV0, q3, dim2_of hAd]
      apply reshape_get
      · rw [hVd]; simp [hk, add_mul_lt hz hw]
      · rw [hVd]; simp [flat]
    have hrr : r = (sp.U :: (applyRightLoop svd eps dflt trunc L' ((O2 :: Os).zip (A2 :: As))).1,
        sp.lost + (applyRightLoop svd eps dflt trunc L' ((O2 :: Os).zip (A2 :: As))).2) := rfl
    -- contraction of the remainder after the splitting
    have hnext : sp.lost = 0 → ∀ s i x, i < d → x < b →
        ∑ u ∈ Finset.range c, ∑ v ∈ Finset.range a, L.get [x, u, v] * piece (d :: d2 :: ds) (Ot :: O2 :: Os) (At :: A2 :: As) (i :: s) u v
        = ∑ k ∈ Finset.range l, sp.U.get [x, i, k] * ∑ z ∈ Finset.range c', ∑ w ∈ Finset.range a',
            L'.get [k, z, w] * piece (d2 :: ds) (O2 :: Os) (A2 :: As) s z w := by
      intro h0 s i x hi hx
      rw [hstep s i x hi hx]
      simp only [Finset.mul_sum]
      symm
      rw [Finset.sum_comm]
      refine Finset.sum_congr rfl fun z hz => ?_
      rw [Finset.sum_comm]
      refine Finset.sum_congr rfl fun w hw => ?_
      symm
      rw [← hex h0 x i _ hx hi (add_mul_lt (Finset.mem_range.1 hz) (Finset.mem_range.1 hw)), Finset.sum_mul]
      refine Finset.sum_congr rfl fun k hk => ?_
      rw [hL'g _ _ _ (Finset.mem_range.1 hk) (Finset.mem_range.1 hz) (Finset.mem_range.1 hw)]; ring
    have hok' : PieceOk dflt trunc (∃ s, IsCfg (d2 :: ds) s ∧ ∃ x < l, ∑ u ∈ Finset.range c', ∑ v ∈ Finset.range a',
        L'.get [x, u, v] * piece (d2 :: ds) (O2 :: Os) (A2 :: As) s u v ≠ 0) := by
      rcases hok with h | ⟨h, s, hs, x, hx, hne0⟩
      · exact Or.inl h
      · right
        refine ⟨h, ?_⟩
        cases hs with
        | @cons i _ s _ hi hs =>
        rw [hnext (hll (Or.inl h)) _ _ _ hi hx] at hne0
        obtain ⟨k, hk, h1⟩ := Finset.exists_ne_zero_of_sum_ne_zero hne0
        exact ⟨s, hs, k, Finset.mem_range.1 hk, right_ne_zero_of_mul h1⟩
    obtain ⟨i1, i2, i3, i4, i5⟩ := ih (WF.cons hA2 ha2 hd2 ha2' wA) (by simp) rfl L' l hL'd hl hok'
    set r' := applyRightLoop svd eps dflt trunc L' ((O2 :: Os).zip (A2 :: As)) with hr'
    rw [hrr]
    refine ⟨WF.cons hUd hb hd hl i1, by simp only; linarith, fun h => by simp only; rw [hll h, i3 h, add_zero], ?_, ?_⟩
    · intro j hj
      cases j with
      | zero => exact hiso
      | succ j => exact i4 j (by simpa using hj)
    · intro h0 s hs x hx
      simp only at h0
      have h00 : sp.lost = 0 ∧ r'.2 = 0 := ⟨by linarith, by linarith⟩
      cases hs with
      | @cons i _ s _ hi hs =>
      rw [hnext h00.1 _ _ _ hi hx, path_cons, dim2_of hUd]
      refine Finset.sum_congr rfl fun k hk => ?_
      rw [i5 h00.2 s hs k (Finset.mem_range.1 hk)]


/-- the invariant of `do_apply_leftwards` -/
theorem applyLeft_spec {svd : Tensor K → SvdRes K} (hg : GoodSvd svd) (eps : ℝ) {dflt : ℝ} (hd0 : 0 ≤ dflt) (trunc : Bool)
    {O ψ : List (Tensor K)} {ds : List Nat} {c a : Nat} (hO : WFO c O ds 1) (hψ : WF a ψ ds 1)
    (hok : PieceOk dflt trunc (∃ s, IsCfg ds s ∧ ∃ u < c, ∃ v < a, piece ds O ψ s u v ≠ 0)) :
    let r := applyLeftLoop svd eps dflt trunc (O.zip ψ)
    ∃ b, 0 < b ∧ r.1.dims = [a, c, b] ∧ WF b r.2.1 ds 1 ∧ 0 ≤ r.2.2 ∧ (effTol dflt (splitTol trunc) = 0 ∨ 1 ≤ effTol dflt (splitTol trunc) → r.2.2 = 0) ∧
    (∀ j, j < ds.length → RightIso (site r.2.1 j)) ∧
    (r.2.2 = 0 → ∀ s, IsCfg ds s → ∀ v < a, ∀ u < c,
      ∑ k ∈ Finset.range b, r.1.get [v, u, k] * path r.2.1 s k 0 = piece ds O ψ s u v) := by
  generalize he : (1 : Nat) = e at hO
  induction hO generalizing ψ a with
  | nil =>
    subst he
    cases hψ
    refine ⟨1, by omega, rfl, WF.nil _, le_refl _, fun _ => rfl, fun j hj => by simp at hj, fun _ s hs v hv u hu => ?_⟩
    cases hs
    obtain rfl : u = 0 := by omega
    obtain rfl : v = 0 := by omega
    simp [applyLeftLoop, path_nil, piece, sumCfg, opPath_nil]
  | @cons c d c' _ Ot Os ds hOd hc hd hc' wO ih =>
  subst he
  cases hψ with
  | @cons _ _ a' _ At As _ hAd ha _ ha' wA =>
  intro r
  have hok1 : PieceOk dflt trunc (∃ s, IsCfg ds s ∧ ∃ u < c', ∃ v < a', piece ds Os As s u v ≠ 0) := by
    rcases hok with h | ⟨h, s, hs, u, hu, v, hv, hne⟩
    · exact Or.inl h
    · right
      refine ⟨h, ?_⟩
      cases hs with
      | @cons i _ s _ hi hs =>
      rw [piece_cons hOd hAd] at hne
      obtain ⟨z, hz, h1⟩ := Finset.exists_ne_zero_of_sum_ne_zero hne
      obtain ⟨w, hw, h2⟩ := Finset.exists_ne_zero_of_sum_ne_zero h1
      exact ⟨s, hs, z, Finset.mem_range.1 hz, w, Finset.mem_range.1 hw, right_ne_zero_of_mul h2⟩
  obtain ⟨b, hb, hLd, i1, i2, i3, i4, i5⟩ := ih wA hok1 rfl
  set y := applyLeftLoop svd eps dflt trunc (Os.zip As) with hy
  have hstep : y.2.2 = 0 → ∀ s i, IsCfg ds s → i < d → ∀ v < a, ∀ u < c,
      ∑ k ∈ Finset.range b, (leftSite Ot At y.1).get [v + a * u, i, k] * path y.2.1 s k 0
        = piece (d :: ds) (Ot :: Os) (At :: As) (i :: s) u v := by
    intro h0 s i hs hi v hv u hu
    rw [piece_cons hOd hAd]
    have e1 : ∀ k ∈ Finset.range b, (leftSite Ot At y.1).get [v + a * u, i, k] * path y.2.1 s k 0
        = ∑ z ∈ Finset.range c', ∑ w ∈ Finset.range a', (∑ j ∈ Finset.range d, Ot.get [u, i, j, z] * At.get [v, j, w]) *
            (y.1.get [w, z, k] * path y.2.1 s k 0) := by
      intro k hk
      rw [leftSite_get hLd hOd hAd (Finset.mem_range.1 hk) hi hu hv, Finset.sum_comm, Finset.sum_mul]
      refine Finset.sum_congr rfl fun z _ => ?_
      simp only [Finset.sum_mul, Finset.mul_sum]
      rw [Finset.sum_comm]
      refine Finset.sum_congr rfl fun w _ => Finset.sum_congr rfl fun j _ => by ring
    rw [Finset.sum_congr rfl e1, Finset.sum_comm]
    refine Finset.sum_congr rfl fun z hz => ?_
    rw [Finset.sum_comm]
    refine Finset.sum_congr rfl fun w hw => ?_
    rw [← i5 h0 s hs w (Finset.mem_range.1 hw) z (Finset.mem_range.1 hz), Finset.mul_sum]
  have hCd := leftSite_dims hLd hOd hAd
  have hac : 0 < a * c := Nat.mul_pos ha hc
  have hCne : 0 < effTol dflt (splitTol trunc) ∨ ∃ x i y', x < a * c ∧ i < d ∧ y' < b ∧ (leftSite Ot At y.1).get [x, i, y'] ≠ 0 := by
    rcases hok with h | ⟨h, s, hs, u, hu, v, hv, hne⟩
    · exact Or.inl h
    · right
      cases hs with
      | @cons i _ s _ hi hs =>
      rw [← hstep (i3 (Or.inl h)) s i hs hi v hv u hu] at hne
      obtain ⟨k, hk, h1⟩ := Finset.exists_ne_zero_of_sum_ne_zero hne
      exact ⟨_, i, k, add_mul_lt hv hu, hi, Finset.mem_range.1 hk, left_ne_zero_of_mul h1⟩
  obtain ⟨l, hl, -, hUd, hVd, hiso, hl0, -, hex, hll⟩ := splitLeft_spec hg eps hd0 hCd hac hd hb trunc hCne
  set sp := splitLeft svd eps dflt (leftSite Ot At y.1) trunc with hsp
  obtain ⟨q0, -, -, -⟩ := dim_of4 hOd
  have hV1 : sp.V.dim 1 = l := by simp [dim, hVd]
  have hr : r = (reshape sp.V [a, c, l], sp.U :: y.2.1, y.2.2 + sp.lost) := by
    simp only [r, List.zip_cons_cons, applyLeftLoop, splitT]
    rw [if_neg (show ¬ (-1 : Int) > 0 by omega), dim0_of hAd, q0, ← hy, ← hsp, hV1]
  rw [hr]
  refine ⟨l, hl, rfl, WF.cons hUd hl hd hb i1, by simp only; linarith, fun h => by simp only; rw [i3 h, hll h, add_zero], ?_, ?_⟩
  · intro j hj
    cases j with
    | zero => exact hiso
    | succ j => exact i4 j (by simpa using hj)
  · intro h0 s hs v hv u hu
    simp only at h0
    have h00 : sp.lost = 0 ∧ y.2.2 = 0 := ⟨by linarith, by linarith⟩
    cases hs with
    | @cons i _ s _ hi hs =>
    rw [← hstep h00.2 s i hs hi v hv u hu]
    simp only [path_cons, dim2_of hUd, Finset.mul_sum]
    rw [Finset.sum_comm]
    refine Finset.sum_congr rfl fun k hk => ?_
    rw [← hex h00.1 _ i k (add_mul_lt hv hu) hi (Finset.mem_range.1 hk), Finset.sum_mul]
    refine Finset.sum_congr rfl fun m hm => ?_
    have : (reshape sp.V [a, c, l]).get [v, u, m] = sp.V.get [v + a * u, m] := by
      apply reshape_get
      · rw [hVd]; simp [Finset.mem_range.1 hm, add_mul_lt hv hu]
      · rw [hVd]; simp only [flat]; ring
    rw [this]; ring

/-- the invariant at the first site -/
theorem applyLeftAll_spec {svd : Tensor K → SvdRes K} (hg : GoodSvd svd) (eps : ℝ) {dflt : ℝ} (hd0 : 0 ≤ dflt) (trunc : Bool)
    {O ψ : List (Tensor K)} {ds : List Nat} (hO : WFO 1 O ds 1) (hψ : WF 1 ψ ds 1) (hne : O ≠ [])
    (hok : PieceOk dflt trunc (∃ s, IsCfg ds s ∧ piece ds O ψ s 0 0 ≠ 0)) :
    let r := applyLeftAll svd eps dflt trunc (O.zip ψ)
    WF 1 r.1 ds 1 ∧ 0 ≤ r.2 ∧ (effTol dflt (splitTol trunc) = 0 ∨ 1 ≤ effTol dflt (splitTol trunc) → r.2 = 0) ∧
    (∀ j, 0 < j → j < ds.length → RightIso (site r.1 j)) ∧
    (r.2 = 0 → ∀ s, IsCfg ds s → path r.1 s 0 0 = piece ds O ψ s 0 0) := by
  cases hO with
  | nil => exact absurd rfl hne
  | @cons _ d c' _ Ot Os ds hOd hc hd hc' wO =>
  cases hψ with
  | @cons _ _ a' _ At As _ hAd ha _ ha' wA =>
  intro r
  have hok1 : PieceOk dflt trunc (∃ s, IsCfg ds s ∧ ∃ u < c', ∃ v < a', piece ds Os As s u v ≠ 0) := by
    rcases hok with h | ⟨h, s, hs, hne⟩
    · exact Or.inl h
    · right
      refine ⟨h, ?_⟩
      cases hs with
      | @cons i _ s _ hi hs =>
      rw [piece_cons hOd hAd] at hne
      obtain ⟨z, hz, h1⟩ := Finset.exists_ne_zero_of_sum_ne_zero hne
      obtain ⟨w, hw, h2⟩ := Finset.exists_ne_zero_of_sum_ne_zero h1
      exact ⟨s, hs, z, Finset.mem_range.1 hz, w, Finset.mem_range.1 hw, right_ne_zero_of_mul h2⟩
  obtain ⟨b, hb, hLd, i1, i2, i3, i4, i5⟩ := applyLeft_spec hg eps hd0 trunc wO wA hok1
  have hr : r = (leftSite Ot At (applyLeftLoop svd eps dflt trunc (Os.zip As)).1 :: (applyLeftLoop svd eps dflt trunc (Os.zip As)).2.1,
    (applyLeftLoop svd eps dflt trunc (Os.zip As)).2.2) := rfl
  set y := applyLeftLoop svd eps dflt trunc (Os.zip As) with hy
  rw [hr]
  have hCd := leftSite_dims hLd hOd hAd
  refine ⟨WF.cons (by simpa using hCd) (by omega) hd hb i1, i2, i3, ?_, ?_⟩
  · intro j h1 hj
    cases j with
    | zero => omega
    | succ j => exact i4 j (by simpa using hj)
  · intro h0 s hs
    cases hs with
    | @cons i _ s _ hi hs =>
    rw [piece_cons hOd hAd, path_cons, dim2_of hCd]
    have e1 : ∀ k ∈ Finset.range b, (leftSite Ot At y.1).get [0, i, k] * path y.2.1 s k 0
        = ∑ z ∈ Finset.range c', ∑ w ∈ Finset.range a', (∑ j ∈ Finset.range d, Ot.get [0, i, j, z] * At.get [0, j, w]) *
            (y.1.get [w, z, k] * path y.2.1 s k 0) := by
      intro k hk
      have := leftSite_get hLd hOd hAd (Finset.mem_range.1 hk) hi (z := 0) (w := 0) (by omega) (by omega)
      simp only [Nat.mul_zero, Nat.add_zero] at this
      rw [this, Finset.sum_comm, Finset.sum_mul]
      refine Finset.sum_congr rfl fun z _ => ?_
      simp only [Finset.sum_mul, Finset.mul_sum]
      rw [Finset.sum_comm]
      refine Finset.sum_congr rfl fun w _ => Finset.sum_congr rfl fun j _ => by ring
    rw [Finset.sum_congr rfl e1, Finset.sum_comm]
    refine Finset.sum_congr rfl fun z hz => ?_
    rw [Finset.sum_comm]
    refine Finset.sum_congr rfl fun w hw => ?_
    rw [← i5 h0 s hs w (Finset.mem_range.1 hw) z (Finset.mem_range.1 hz), Finset.mul_sum]

end MPS
