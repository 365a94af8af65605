import Verif.TrotterModel
import Verif.TrotterSpec
import Verif.Props.CanonProps2
import Verif.MPOCanonLemmas

/-! # Helper lemmas: application of gates -/

set_option linter.unusedSectionVars false
set_option linter.unusedSimpArgs false

namespace MPS
open Tensor
variable {K : Type} [RCLike K]

/-- `set_canonical` on any site, in any direction -/
theorem setCanonical_any {svd : Tensor K → SvdRes K} (hg : GoodSvd svd) (eps : ℝ) {dflt : ℝ} (hd0 : 0 < dflt)
    {a b : Nat} {ψ : List (Tensor K)} {ds : List Nat} (h : WF a ψ ds b) (k : Nat) (hk : k < ψ.length) (sense : Int) :
    let r := setCanonical svd eps dflt ψ k (site ψ k) sense true
    WF a r.1 ds b ∧ 0 ≤ r.2 ∧ (r.2 = 0 → ∀ s, IsCfg ds s → ∀ x < a, ∀ y, path r.1 s x y = path ψ s x y) := by
  intro r
  have hok : 0 < effTol dflt (splitTol true) ∨ ∃ s, IsCfg ds s ∧ ∃ u < a, ∃ v, path ψ s u v ≠ 0 := by
    rw [effTol_default]; exact Or.inl hd0
  by_cases hs : sense > 0
  · by_cases hl : k + 1 = ψ.length
    · have hr : r = (ψ, 0) := by
        simp only [r]; unfold setCanonical
        rw [if_pos hs, if_pos hl, Props.set_site_self _ _ hk]
      rw [hr]; exact ⟨h, le_refl _, fun _ _ _ _ _ _ => rfl⟩
    · have hr : r = setCanonical svd eps dflt ψ k (site ψ k) 1 true := by
        simp only [r]; unfold setCanonical
        rw [if_pos hs, if_pos (show (1 : Int) > 0 by omega)]
      rw [hr]
      obtain ⟨h1, -, -, h4, h5, -⟩ := setCanonical_right hg eps hd0.le h k (by omega) true hok
      exact ⟨h1, h4, h5⟩
  · by_cases h0 : k = 0
    · have hr : r = (ψ, 0) := by
        simp only [r]; unfold setCanonical
        rw [if_neg hs, if_pos h0, Props.set_site_self _ _ hk]
      rw [hr]; exact ⟨h, le_refl _, fun _ _ _ _ _ _ => rfl⟩
    · obtain ⟨q, rfl⟩ : ∃ q, k = q + 1 := ⟨k - 1, by omega⟩
      obtain ⟨h1, -, -, h4, h5, -⟩ := setCanonical_left hg eps hd0.le h q (by omega) true sense (by omega) hok
      exact ⟨h1, h4, h5⟩

/-- sizes of two neighbouring tensors -/
theorem pair_dims {R : Type} [CommRing R] {a b : Nat} {ψ : List (Tensor R)} {ds : List Nat} (h : WF a ψ ds b) (k : Nat) (hk : k + 1 < ψ.length) :
    ∃ c d e d2 f, (site ψ k).dims = [c, d, e] ∧ (site ψ (k + 1)).dims = [e, d2, f] ∧ 0 < c ∧ 0 < d ∧ 0 < e ∧ 0 < d2 ∧ 0 < f := by
  obtain ⟨pre, X, Y, post, rfl, hl⟩ := split_at2 ψ k hk
  have hX : site (pre ++ X :: Y :: post) k = X := by simp [site, ← hl]
  have hY : site (pre ++ X :: Y :: post) (k + 1) = Y := by simp [site, ← hl]
  obtain ⟨ds1, ds', c, rfl, w1, w2⟩ := h.split
  cases w2 with
  | @cons c d e b A As ds'' hXd hc hd he w3 =>
  cases w3 with
  | @cons e d2 f b A As ds3 hYd _ hd2 hf w4 =>
  rw [hX, hY]
  exact ⟨c, d, e, d2, f, hXd, hYd, hc, hd, he, hd2, hf⟩

/-- `set_canonical` does not increase any bond -/
theorem setCanonical_bonds {svd : Tensor K → SvdRes K} (hg : GoodSvd svd) (eps : ℝ) {dflt : ℝ} (hd0 : 0 < dflt)
    {a b : Nat} {ψ : List (Tensor K)} {ds : List Nat} (h : WF a ψ ds b) (k : Nat) (hk : k < ψ.length) (sense : Int) (j : Nat) :
    (site (setCanonical svd eps dflt ψ k (site ψ k) sense true).1 j).dim 2 ≤ (site ψ j).dim 2 := by
  have hok : 0 < effTol dflt (splitTol true) := by rw [effTol_default]; exact hd0
  unfold setCanonical
  by_cases hs : sense > 0
  · rw [if_pos hs]
    by_cases hl : k + 1 = ψ.length
    · rw [if_pos hl, Props.set_site_self _ _ hk]
    · rw [if_neg hl]
      obtain ⟨c, d, e, d2, f, hX, hY, hc, hd, he, hd2, hf⟩ := pair_dims h k (by omega)
      obtain ⟨l, hlp, hle, hUd, hVd, -⟩ := splitRight_spec hg eps hd0.le hX hc hd he true (Or.inl hok)
      simp only [splitT]
      rw [if_pos (by omega), site_set _ _ _ _ (by simp; omega)]
      split_ifs with h1
      · rw [dim2_of (fold_VB hVd hY).1, h1, dim2_of hY]
      · rw [site_set _ _ _ _ hk]
        split_ifs with h2
        · rw [dim2_of hUd, h2, dim2_of hX]; omega
        · exact le_refl _
  · rw [if_neg hs]
    by_cases h0 : k = 0
    · rw [if_pos h0, Props.set_site_self _ _ hk]
    · rw [if_neg h0]
      obtain ⟨q, rfl⟩ : ∃ q, k = q + 1 := ⟨k - 1, by omega⟩
      obtain ⟨c, d, e, d2, f, hX, hY, hc, hd, he, hd2, hf⟩ := pair_dims h q (by omega)
      obtain ⟨l, hlp, hle, hUd, hVd, -⟩ := splitLeft_spec hg eps hd0.le hY he hd2 hf true (Or.inl hok)
      simp only [splitT, Nat.add_sub_cancel]
      rw [if_neg (by omega), site_set _ _ _ _ (by simp; omega)]
      split_ifs with h1
      · rw [dim2_of (fold_BV hVd hX).1, h1, dim2_of hX]; omega
      · rw [site_set _ _ _ _ hk]
        split_ifs with h2
        · rw [dim2_of hUd, h2, dim2_of hY]
        · exact le_refl _

/-- replacing the product of two neighbouring tensors by a two-site operator acting on it -/
theorem path_pair_act {R : Type} [CommRing R] {a c e f b d d2 g : Nat} {pre post : List (Tensor R)} {X Y B1 B2 : Tensor R}
    {ds1 ds3 : List Nat} (op : Tensor R)
    (w1 : WF a pre ds1 c) (hX : X.dims = [c, d, e]) (hY : Y.dims = [e, d2, f]) (hB1 : B1.dims = [c, d, g])
    (hB2 : B2.dims = [g, d2, f]) (hpos : 0 < c ∧ 0 < d ∧ 0 < e ∧ 0 < d2 ∧ 0 < f ∧ 0 < g) (w4 : WF f post ds3 b)
    (h : ∀ x i j y, x < c → i < d → j < d2 → y < f → ∑ m ∈ Finset.range g, B1.get [x, i, m] * B2.get [m, j, y] =
      ∑ i' ∈ Finset.range d, ∑ j' ∈ Finset.range d2, op.get [i + d * j, i' + d * j'] *
        ∑ z ∈ Finset.range e, X.get [x, i', z] * Y.get [z, j', y]) :
    ∀ s, IsCfg (ds1 ++ d :: d2 :: ds3) s → ∀ x < a, ∀ y, path (pre ++ B1 :: B2 :: post) s x y =
      actPair d d2 op pre.length (fun s => path (pre ++ X :: Y :: post) s x y) s := by
  intro s hs x hx y
  obtain ⟨s1, s', rfl, hs1, hs'⟩ := isCfg_split hs
  cases hs' with
  | @cons i _ s' _ hi hs' =>
  cases hs' with
  | @cons j _ s3 _ hj hs3 =>
  obtain ⟨p1, p2, p3, p4, p5, p6⟩ := hpos
  have l1 : s1.length = pre.length := by rw [hs1.length, w1.length]
  have wB : WF c [B1, B2] [d, d2] f := WF.cons hB1 p1 p2 p6 (WF.single hB2 p6 p4 p5)
  have wX : WF c [X, Y] [d, d2] f := WF.cons hX p1 p2 p3 (WF.single hY p3 p4 p5)
  have e1 : path (pre ++ B1 :: B2 :: post) (s1 ++ i :: j :: s3) x y = ∑ u ∈ Finset.range c, path pre s1 x u *
      ∑ v ∈ Finset.range f, (∑ m ∈ Finset.range g, B1.get [u, i, m] * B2.get [m, j, v]) * path post s3 v y := by
    rw [path_append w1 l1 hx]
    refine Finset.sum_congr rfl fun u hu => ?_
    rw [show B1 :: B2 :: post = [B1, B2] ++ post from rfl, show i :: j :: s3 = [i, j] ++ s3 from rfl,
      path_append wB (by simp) (Finset.mem_range.1 hu)]
    congr 1
    refine Finset.sum_congr rfl fun v hv => ?_
    rw [path_pair hB1 hB2 _ _ _ _ (Finset.mem_range.1 hv)]
  have e2 : ∀ i' j', path (pre ++ X :: Y :: post) (s1 ++ i' :: j' :: s3) x y = ∑ u ∈ Finset.range c, path pre s1 x u *
      ∑ v ∈ Finset.range f, (∑ m ∈ Finset.range e, X.get [u, i', m] * Y.get [m, j', v]) * path post s3 v y := by
    intro i' j'
    rw [path_append w1 l1 hx]
    refine Finset.sum_congr rfl fun u hu => ?_
    rw [show X :: Y :: post = [X, Y] ++ post from rfl, show i' :: j' :: s3 = [i', j'] ++ s3 from rfl,
      path_append wX (by simp) (Finset.mem_range.1 hu)]
    congr 1
    refine Finset.sum_congr rfl fun v hv => ?_
    rw [path_pair hX hY _ _ _ _ (Finset.mem_range.1 hv)]
  unfold actPair
  have g1 : (s1 ++ i :: j :: s3).getD pre.length 0 = i := by rw [← l1]; simp
  have g2 : (s1 ++ i :: j :: s3).getD (pre.length + 1) 0 = j := by rw [← l1]; simp
  have g3 : ∀ i' j', ((s1 ++ i :: j :: s3).set pre.length i').set (pre.length + 1) j' = s1 ++ i' :: j' :: s3 := by
    intro i' j'; rw [← l1]; simp [List.set_append]
  rw [e1, g1, g2]
  simp only [g3, e2]
  have e3 : ∀ u ∈ Finset.range c, ∀ v ∈ Finset.range f,
      ∑ m ∈ Finset.range g, B1.get [u, i, m] * B2.get [m, j, v] = ∑ i' ∈ Finset.range d, ∑ j' ∈ Finset.range d2,
        op.get [i + d * j, i' + d * j'] * ∑ z ∈ Finset.range e, X.get [u, i', z] * Y.get [z, j', v] :=
    fun u hu v hv => h u i j v (Finset.mem_range.1 hu) hi hj (Finset.mem_range.1 hv)
  rw [Finset.sum_congr rfl fun u hu => by rw [Finset.sum_congr rfl fun v hv => by rw [e3 u hu v hv]]]
  simp only [Finset.mul_sum, Finset.sum_mul]
  rw [sum4_comm]
  refine Finset.sum_congr rfl fun i' _ => Finset.sum_congr rfl fun j' _ => Finset.sum_congr rfl fun u _ =>
    Finset.sum_congr rfl fun v _ => Finset.sum_congr rfl fun z _ => ?_
  ring

end MPS

namespace MPS.Trotter
open MPS Tensor

/-- the two-site tensor made by `apply_onto_two_sites`, as a matrix -/
theorem gate_matrix {X Y U : Tensor ℂ} {c d e d2 f : Nat} (hX : X.dims = [c, d, e]) (hY : Y.dims = [e, d2, f])
    (hU : U.dims = [d * d2, d * d2]) {x i j y : Nat} (hx : x < c) (hi : i < d) (hj : j < d2) (hy : y < f) :
    (reshape (foldin U (-1) (reshape (fold X (-1) Y 0) [c, d * d2, f]) 1) [c * d, d2 * f]).get [x + c * i, j + d2 * y]
      = ∑ i' ∈ Finset.range d, ∑ j' ∈ Finset.range d2, U.get [i + d * j, i' + d * j'] *
        ∑ z ∈ Finset.range e, X.get [x, i', z] * Y.get [z, j', y] := by
  have hf : (fold X (-1) Y 0).dims = [c, d, d2, f] := by simp [fold, hX, hY]
  have hfg : ∀ x i j y, (fold X (-1) Y 0).get [x, i, j, y] = ∑ z ∈ Finset.range e, X.get [x, i, z] * Y.get [z, j, y] := by
    intro x i j y; simp [fold, hX, hY]
  have hT : ∀ x i j y, x < c → i < d → j < d2 → y < f → (reshape (fold X (-1) Y 0) [c, d * d2, f]).get [x, i + d * j, y]
      = ∑ z ∈ Finset.range e, X.get [x, i, z] * Y.get [z, j, y] := by
    intro x i j y hx hi hj hy
    rw [← hfg]
    apply reshape_get
    · rw [hf]; simp [hx, hi, hj, hy]
    · rw [hf]; simp only [flat]; ring
  set T := reshape (fold X (-1) Y 0) [c, d * d2, f] with hTdef
  have hTd : T.dims = [c, d * d2, f] := rfl
  have hFd : (foldin U (-1) T 1).dims = [c, d * d2, f] := by simp [foldin, hU, hTd]
  have hF : ∀ x n y, (foldin U (-1) T 1).get [x, n, y] = ∑ m ∈ Finset.range (d * d2), U.get [n, m] * T.get [x, m, y] := by
    intro x n y; simp [foldin, hU, hTd]
  have r1 : (reshape (foldin U (-1) T 1) [c * d, d2 * f]).get [x + c * i, j + d2 * y] = (foldin U (-1) T 1).get [x, i + d * j, y] := by
    apply reshape_get
    · rw [hFd]; simp [hx, add_mul_lt hi hj, hy]
    · rw [hFd]; simp only [flat]; ring
  rw [r1, hF, sum_range_mul, Finset.sum_comm]
  refine Finset.sum_congr rfl fun i' hi' => Finset.sum_congr rfl fun j' hj' => ?_
  rw [hT _ _ _ _ hx (Finset.mem_range.1 hi') (Finset.mem_range.1 hj') hy]

theorem applyTwo_full {svd : Tensor ℂ → SvdRes ℂ} (hg : GoodSvd svd) (eps : ℝ) {dflt : ℝ} (hd0 : 0 < dflt) {a b : Nat}
    (x : Evo) {pre post : List (Tensor ℂ)} {X Y : Tensor ℂ} (hP : x.P = pre ++ X :: Y :: post)
    {c d e d2 f : Nat} {ds1 ds3 : List Nat} (w1 : WF a pre ds1 c) (hX : X.dims = [c, d, e]) (hY : Y.dims = [e, d2, f])
    (hpos : 0 < c ∧ 0 < d ∧ 0 < e ∧ 0 < d2 ∧ 0 < f) (w4 : WF f post ds3 b)
    (U : Tensor ℂ) (hU : U.dims = [d * d2, d * d2]) (dk : Int) (tol : ℝ) (htol : 0 < effTol dflt tol) (maxA2 : Nat) :
    ∃ B1 B2 g err, B1.dims = [c, d, g] ∧ B2.dims = [g, d2, f] ∧ 0 < g ∧ (0 < maxA2 → g ≤ maxA2) ∧
      (if dk > 0 then LeftIso B1 else RightIso B2) ∧
      (∑ x ∈ Finset.range c, ∑ i ∈ Finset.range d, ∑ j ∈ Finset.range d2, ∑ y ∈ Finset.range f,
        ‖(∑ i' ∈ Finset.range d, ∑ j' ∈ Finset.range d2, U.get [i + d * j, i' + d * j'] *
            ∑ z ∈ Finset.range e, X.get [x, i', z] * Y.get [z, j', y])
          - ∑ m ∈ Finset.range g, B1.get [x, i, m] * B2.get [m, j, y]‖ ^ 2 = err) ∧
      (∑ x ∈ Finset.range c, ∑ i ∈ Finset.range d, ∑ j ∈ Finset.range d2, ∑ y ∈ Finset.range f,
          ‖∑ m ∈ Finset.range g, B1.get [x, i, m] * B2.get [m, j, y]‖ ^ 2
        = (∑ x ∈ Finset.range c, ∑ i ∈ Finset.range d, ∑ j ∈ Finset.range d2, ∑ y ∈ Finset.range f,
          ‖∑ i' ∈ Finset.range d, ∑ j' ∈ Finset.range d2, U.get [i + d * j, i' + d * j'] *
            ∑ z ∈ Finset.range e, X.get [x, i', z] * Y.get [z, j', y]‖ ^ 2) - err) ∧
      (err = 0 → ∀ x i j y, x < c → i < d → j < d2 → y < f → ∑ m ∈ Finset.range g, B1.get [x, i, m] * B2.get [m, j, y] =
        ∑ i' ∈ Finset.range d, ∑ j' ∈ Finset.range d2, U.get [i + d * j, i' + d * j'] *
          ∑ z ∈ Finset.range e, X.get [x, i', z] * Y.get [z, j', y]) ∧
      (if dk > 0 then ∀ m j y, m < g → j < d2 → y < f →
          ∑ x ∈ Finset.range c, ∑ i ∈ Finset.range d, star (B1.get [x, i, m]) *
            (∑ i' ∈ Finset.range d, ∑ j' ∈ Finset.range d2, U.get [i + d * j, i' + d * j'] * ∑ z ∈ Finset.range e, X.get [x, i', z] * Y.get [z, j', y]) = B2.get [m, j, y]
        else ∀ x i m, x < c → i < d → m < g →
          ∑ j ∈ Finset.range d2, ∑ y ∈ Finset.range f,
            (∑ i' ∈ Finset.range d, ∑ j' ∈ Finset.range d2, U.get [i + d * j, i' + d * j'] * ∑ z ∈ Finset.range e, X.get [x, i', z] * Y.get [z, j', y]) * star (B2.get [m, j, y]) = B1.get [x, i, m]) ∧
      (∃ A : Tensor ℂ, A.dims = [c * d, d2 * f] ∧ (∀ x i j y, x < c → i < d → j < d2 → y < f → A.get [x + c * i, j + d2 * y] =
            (∑ i' ∈ Finset.range d, ∑ j' ∈ Finset.range d2, U.get [i + d * j, i' + d * j'] * ∑ z ∈ Finset.range e, X.get [x, i', z] * Y.get [z, j', y])) ∧
        g = whereToTruncate eps dflt (svd A).s tol ((if maxA2 ≠ 0 then maxA2 else (svd A).s.length : Nat) : Int) ∧ err = cumulated (svd A).s g) ∧
      applyTwo svd eps dflt x U pre.length dk tol maxA2 =
        let Q := pre ++ B1 :: B2 :: post
        if maxA2 ≠ 0 then
          let k' := if dk > 0 then pre.length + 1 else pre.length
          let r := setCanonical svd eps dflt Q k' (site Q k') dk true
          ⟨r.1, x.err + err, x.hidden + r.2⟩
        else ⟨Q, x.err + err, x.hidden⟩ := by
  obtain ⟨hc, hd, he, hd2, hf⟩ := hpos
  have sX : site x.P pre.length = X := by simp [site, hP]
  have sY : site x.P (pre.length + 1) = Y := by simp [site, hP]
  have hUne : U.isEmpty = false := by
    have : 0 < d * d2 := Nat.mul_pos hd hd2
    simp [Tensor.isEmpty, Tensor.size, hU]; omega
  set A := reshape (foldin U (-1) (reshape (fold X (-1) Y 0) [c, d * d2, f]) 1) [c * d, d2 * f] with hA
  obtain ⟨g0, g1, g2, isoL, isoR, herr, hexact, prL, prR⟩ := Props.pair_svd_core hg eps hd0.le (A := A) rfl
    (fun x i j y hx hi hj hy => gate_matrix hX hY hU hx hi hj hy) hc hd hd2 hf tol
    ((if maxA2 ≠ 0 then maxA2 else (svd A).s.length : Nat) : Int) (Or.inl htol)
  have hm : 0 < c * d := Nat.mul_pos hc hd
  have hn : 0 < d2 * f := Nat.mul_pos hd2 hf
  have hsvd : IsSVD A (c * d) (d2 * f) (svd A) := hg A _ _ rfl hm hn
  set res := svd A with hres
  set g := whereToTruncate eps dflt res.s tol ((if maxA2 ≠ 0 then maxA2 else res.s.length : Nat) : Int) with hgdef
  set Pi := reshape (if g ≠ res.s.length then changeDim res.U (-1) g else res.U) [c, d, g] with hPi
  set Pj := reshape (if g ≠ res.s.length then changeDim res.V 0 g else res.V) [g, d2, f] with hPj
  set s := vecOf (K := ℂ) (if g ≠ res.s.length then res.s.take g else res.s) with hs
  set P1 := (if dk > 0 then res.U else scale res.U (-1) (vecOf res.s)) with hP1
  set P2 := (if dk > 0 then scale res.V 0 (vecOf res.s) else res.V) with hP2
  set B1 := reshape (if g ≠ res.s.length then changeDim P1 (-1) g else P1) [c, d, g] with hB1
  set B2 := reshape (if g ≠ res.s.length then changeDim P2 0 g else P2) [g, d2, f] with hB2
  have hsm : ∀ m, m < g → s.get [m] = (vecOf (K := ℂ) res.s).get [m] := by
    intro m hm
    simp only [s, vecOf, List.getD_cons_zero]
    congr 1
    split
    · simp [List.getD_eq_getElem?_getD, List.getElem?_take, hm]
    · rfl
  have hgl : g ≤ res.s.length := by rw [hsvd.lenS]; exact g1
  have hVd : ∀ (V' : Tensor ℂ), V'.dims = res.V.dims → (if g ≠ res.s.length then changeDim V' 0 g else V').dims = [g, d2 * f] := by
    intro V' hV'
    split
    · simp [changeDim, hV', hsvd.dimsV]
    · next hh => rw [hV', hsvd.dimsV, ← hsvd.lenS, not_not.mp hh]
  have hUd : ∀ (U' : Tensor ℂ), U'.dims = res.U.dims → (if g ≠ res.s.length then changeDim U' (-1) g else U').dims = [c * d, g] := by
    intro V' hV'
    split
    · simp [changeDim, hV', hsvd.dimsU]
    · next hh => rw [hV', hsvd.dimsU, ← hsvd.lenS, not_not.mp hh]
  have hVg : ∀ (V' : Tensor ℂ), V'.dims = res.V.dims → ∀ m j y, m < g → j < d2 → y < f →
      (reshape (if g ≠ res.s.length then changeDim V' 0 g else V') [g, d2, f]).get [m, j, y] = V'.get [m, j + d2 * y] := by
    intro V' hV' m j y hm hj hy
    have e : (if g ≠ res.s.length then changeDim V' 0 g else V').get [m, j + d2 * y] = V'.get [m, j + d2 * y] := by
      split
      · simp only [changeDim, hV', hsvd.dimsV, nrm_zero]
        rw [if_pos]
        simp; omega
      · rfl
    rw [← e]
    apply reshape_get
    · rw [hVd V' hV']; simp [hm, add_mul_lt hj hy]
    · rw [hVd V' hV']; simp only [flat]; ring
  have hUg : ∀ (U' : Tensor ℂ), U'.dims = res.U.dims → ∀ x i m, x < c → i < d → m < g →
      (reshape (if g ≠ res.s.length then changeDim U' (-1) g else U') [c, d, g]).get [x, i, m] = U'.get [x + c * i, m] := by
    intro U' hU' x i m hx hi hm
    have e : (if g ≠ res.s.length then changeDim U' (-1) g else U').get [x + c * i, m] = U'.get [x + c * i, m] := by
      split
      · simp only [changeDim, hU', hsvd.dimsU, nrm_neg1]
        rw [if_pos]
        simp; omega
      · rfl
    rw [← e]
    apply reshape_get
    · rw [hUd U' hU']; simp [hm, add_mul_lt hx hi]
    · rw [hUd U' hU']; simp only [flat]; ring
  have hprod : ∀ x i j y, x < c → i < d → j < d2 → y < f → ∑ m ∈ Finset.range g, B1.get [x, i, m] * B2.get [m, j, y]
      = ∑ m ∈ Finset.range g, Pi.get [x, i, m] * s.get [m] * Pj.get [m, j, y] := by
    intro x i j y hx hi hj hy
    refine Finset.sum_congr rfl fun m hm => ?_
    have hm := Finset.mem_range.1 hm
    have dP1 : P1.dims = res.U.dims := by rw [hP1]; split <;> rfl
    have dP2 : P2.dims = res.V.dims := by rw [hP2]; split <;> rfl
    rw [hB1, hUg P1 dP1 _ _ _ hx hi hm, hB2, hVg P2 dP2 _ _ _ hm hj hy, hPi, hUg _ rfl _ _ _ hx hi hm, hPj,
      hVg _ rfl _ _ _ hm hj hy, hsm m hm, hP1, hP2]
    split
    · simp [scale]; ring
    · simp [scale, hsvd.dimsU]
  have herr0 : (if g ≠ res.s.length then cumulated res.s g else 0) = cumulated res.s g := by
    split
    · rfl
    · next hh =>
      rw [not_not.mp hh]; simp [cumulated]
  refine ⟨B1, B2, g, cumulated res.s g, rfl, rfl, g0, ?_, ?_, ?_, ?_, ?_, ?_, ⟨A, rfl, fun x i j y hx hi hj hy => gate_matrix hX hY hU hx hi hj hy, rfl, rfl⟩, ?_⟩
  · intro h
    rw [if_pos (by omega)] at g2
    have := g2 (by omega)
    exact_mod_cast this
  · by_cases hdk : dk > 0
    · rw [if_pos hdk]
      rw [hB1, hP1, if_pos hdk]; exact isoL
    · rw [if_neg hdk]
      rw [hB2, hP2, if_neg hdk]; exact isoR
  · rw [← herr]
    refine Finset.sum_congr rfl fun x hx => Finset.sum_congr rfl fun i hi => Finset.sum_congr rfl fun j hj =>
      Finset.sum_congr rfl fun y hy => ?_
    rw [hprod _ _ _ _ (Finset.mem_range.1 hx) (Finset.mem_range.1 hi) (Finset.mem_range.1 hj) (Finset.mem_range.1 hy)]
  · rw [Props.cumulated_eq]
    have k1 := hsvd.kept (p := g) (by rw [← hsvd.lenS]; exact hgl)
    have k2 := hsvd.total
    rw [← k2, sum_range_mul, sum_range_mul, Finset.sum_comm, Finset.sum_comm (s := Finset.range d)] at k1
    have reorder : ∀ F : Nat → Nat → Nat → Nat → ℝ, ∑ x ∈ Finset.range c, ∑ i ∈ Finset.range d, ∑ j ∈ Finset.range d2, ∑ y ∈ Finset.range f, F x i j y
        = ∑ x ∈ Finset.range c, ∑ i ∈ Finset.range d, ∑ y ∈ Finset.range f, ∑ j ∈ Finset.range d2, F x i j y :=
      fun F => Finset.sum_congr rfl fun x _ => Finset.sum_congr rfl fun i _ => Finset.sum_comm
    rw [reorder, reorder]
    have l1 : ∀ x ∈ Finset.range c, ∀ i ∈ Finset.range d, ∑ q ∈ Finset.range (d2 * f),
        ‖∑ k ∈ Finset.range g, res.U.get [x + c * i, k] * (RCLike.ofReal (res.s.getD k 0) : ℂ) * res.V.get [k, q]‖ ^ 2
        = ∑ y ∈ Finset.range f, ∑ j ∈ Finset.range d2, ‖∑ m ∈ Finset.range g, B1.get [x, i, m] * B2.get [m, j, y]‖ ^ 2 := by
      intro x hx i hi
      rw [sum_range_mul]
      refine Finset.sum_congr rfl fun y hy => Finset.sum_congr rfl fun j hj => ?_
      rw [hprod _ _ _ _ (Finset.mem_range.1 hx) (Finset.mem_range.1 hi) (Finset.mem_range.1 hj) (Finset.mem_range.1 hy)]
      congr 2
      refine Finset.sum_congr rfl fun m hm => ?_
      have hm := Finset.mem_range.1 hm
      rw [hPi, hUg _ rfl _ _ _ (Finset.mem_range.1 hx) (Finset.mem_range.1 hi) hm, hPj,
        hVg _ rfl _ _ _ hm (Finset.mem_range.1 hj) (Finset.mem_range.1 hy), hsm m hm]
      simp [vecOf]
    have l2 : ∀ x ∈ Finset.range c, ∀ i ∈ Finset.range d, ∑ q ∈ Finset.range (d2 * f), ‖A.get [x + c * i, q]‖ ^ 2
        = ∑ y ∈ Finset.range f, ∑ j ∈ Finset.range d2, ‖∑ i' ∈ Finset.range d, ∑ j' ∈ Finset.range d2, U.get [i + d * j, i' + d * j'] *
            ∑ z ∈ Finset.range e, X.get [x, i', z] * Y.get [z, j', y]‖ ^ 2 := by
      intro x hx i hi
      rw [sum_range_mul]
      refine Finset.sum_congr rfl fun y hy => Finset.sum_congr rfl fun j hj => ?_
      rw [hA, gate_matrix hX hY hU (Finset.mem_range.1 hx) (Finset.mem_range.1 hi) (Finset.mem_range.1 hj) (Finset.mem_range.1 hy)]
    rw [Finset.sum_congr rfl fun x hx => Finset.sum_congr rfl fun i hi => l1 x hx i hi,
      Finset.sum_congr rfl fun x hx => Finset.sum_congr rfl fun i hi => l2 x hx i hi] at k1
    exact k1
  · intro h0 x i j y hx hi hj hy
    rw [hprod x i j y hx hi hj hy, hexact h0 x i j y hx hi hj hy]
  · have dP1 : P1.dims = res.U.dims := by rw [hP1]; split <;> rfl
    have dP2 : P2.dims = res.V.dims := by rw [hP2]; split <;> rfl
    by_cases hdk : dk > 0
    · rw [if_pos hdk]
      intro m j y hm hj hy
      have e1 : B1 = Pi := by rw [hB1, hPi, hP1, if_pos hdk]
      have e2 : B2.get [m, j, y] = s.get [m] * Pj.get [m, j, y] := by
        rw [hB2, hVg P2 dP2 _ _ _ hm hj hy, hPj, hVg _ rfl _ _ _ hm hj hy, hsm m hm, hP2, if_pos hdk]
        simp [scale]; ring
      rw [e1, e2, ← prL m j y hm hj hy]
    · rw [if_neg hdk]
      intro x i m hx hi hm
      have e1 : B2 = Pj := by rw [hB2, hPj, hP2, if_neg hdk]
      have e2 : B1.get [x, i, m] = Pi.get [x, i, m] * s.get [m] := by
        rw [hB1, hUg P1 dP1 _ _ _ hx hi hm, hPi, hUg _ rfl _ _ _ hx hi hm, hsm m hm, hP1, if_neg hdk]
        simp [scale, hsvd.dimsU]
      rw [e1, e2, ← prR x i m hx hi hm]
  · have hlen : x.P.length = pre.length + (post.length + 1 + 1) := by rw [hP]; simp
    have key : applyTwo svd eps dflt x U pre.length dk tol maxA2 = (if maxA2 ≠ 0 then
        if dk > 0 then
          let r := setCanonical svd eps dflt (x.P.set pre.length B1) (pre.length + 1) B2 dk true
          ⟨r.1, x.err + cumulated res.s g, x.hidden + r.2⟩
        else
          let r := setCanonical svd eps dflt (x.P.set (pre.length + 1) B2) pre.length B1 dk true
          ⟨r.1, x.err + cumulated res.s g, x.hidden + r.2⟩
        else ⟨(x.P.set pre.length B1).set (pre.length + 1) B2, x.err + cumulated res.s g, x.hidden⟩) := by
      rw [← herr0]
      unfold applyTwo
      rw [sX, sY]
      simp only [hUne, dim0_of hX, dim1_of hX, dim1_of hY, dim2_of hY, Bool.false_eq_true, if_false]
      rfl
    rw [key]
    have hQ1 : (x.P.set pre.length B1).set (pre.length + 1) B2 = pre ++ B1 :: B2 :: post := by
      rw [hP]; simp [List.set_append]
    have hQ2 : (x.P.set (pre.length + 1) B2).set pre.length B1 = pre ++ B1 :: B2 :: post := by
      rw [hP]; simp [List.set_append]
    by_cases hmx : maxA2 ≠ 0
    · simp only [if_pos hmx]
      by_cases hdk : dk > 0
      · simp only [if_pos hdk]
        rw [← hQ1, setCanonical_set _ _ _ _ _ (by simp [hlen])]
      · simp only [if_neg hdk]
        rw [← hQ2, setCanonical_set _ _ _ _ _ (by simp [hlen])]
    · simp only [if_neg hmx]
      rw [hQ1]

theorem applyTwo_core {svd : Tensor ℂ → SvdRes ℂ} (hg : GoodSvd svd) (eps : ℝ) {dflt : ℝ} (hd0 : 0 < dflt) {a b : Nat}
    (x : Evo) {pre post : List (Tensor ℂ)} {X Y : Tensor ℂ} (hP : x.P = pre ++ X :: Y :: post)
    {c d e d2 f : Nat} {ds1 ds3 : List Nat} (w1 : WF a pre ds1 c) (hX : X.dims = [c, d, e]) (hY : Y.dims = [e, d2, f])
    (hpos : 0 < c ∧ 0 < d ∧ 0 < e ∧ 0 < d2 ∧ 0 < f) (w4 : WF f post ds3 b)
    (U : Tensor ℂ) (hU : U.dims = [d * d2, d * d2]) (dk : Int) (tol : ℝ) (htol : 0 < effTol dflt tol) (maxA2 : Nat) :
    ∃ B1 B2 g err, B1.dims = [c, d, g] ∧ B2.dims = [g, d2, f] ∧ 0 < g ∧ (0 < maxA2 → g ≤ maxA2) ∧
      (if dk > 0 then LeftIso B1 else RightIso B2) ∧
      (∑ x ∈ Finset.range c, ∑ i ∈ Finset.range d, ∑ j ∈ Finset.range d2, ∑ y ∈ Finset.range f,
        ‖(∑ i' ∈ Finset.range d, ∑ j' ∈ Finset.range d2, U.get [i + d * j, i' + d * j'] *
            ∑ z ∈ Finset.range e, X.get [x, i', z] * Y.get [z, j', y])
          - ∑ m ∈ Finset.range g, B1.get [x, i, m] * B2.get [m, j, y]‖ ^ 2 = err) ∧
      (∑ x ∈ Finset.range c, ∑ i ∈ Finset.range d, ∑ j ∈ Finset.range d2, ∑ y ∈ Finset.range f,
          ‖∑ m ∈ Finset.range g, B1.get [x, i, m] * B2.get [m, j, y]‖ ^ 2
        = (∑ x ∈ Finset.range c, ∑ i ∈ Finset.range d, ∑ j ∈ Finset.range d2, ∑ y ∈ Finset.range f,
          ‖∑ i' ∈ Finset.range d, ∑ j' ∈ Finset.range d2, U.get [i + d * j, i' + d * j'] *
            ∑ z ∈ Finset.range e, X.get [x, i', z] * Y.get [z, j', y]‖ ^ 2) - err) ∧
      (err = 0 → ∀ x i j y, x < c → i < d → j < d2 → y < f → ∑ m ∈ Finset.range g, B1.get [x, i, m] * B2.get [m, j, y] =
        ∑ i' ∈ Finset.range d, ∑ j' ∈ Finset.range d2, U.get [i + d * j, i' + d * j'] *
          ∑ z ∈ Finset.range e, X.get [x, i', z] * Y.get [z, j', y]) ∧
      applyTwo svd eps dflt x U pre.length dk tol maxA2 =
        let Q := pre ++ B1 :: B2 :: post
        if maxA2 ≠ 0 then
          let k' := if dk > 0 then pre.length + 1 else pre.length
          let r := setCanonical svd eps dflt Q k' (site Q k') dk true
          ⟨r.1, x.err + err, x.hidden + r.2⟩
        else ⟨Q, x.err + err, x.hidden⟩ := by
  obtain ⟨B1, B2, g, err, h1, h2, h3, h4, h5, h6, h7, h8, -, -, h9⟩ := applyTwo_full hg eps hd0 x hP w1 hX hY hpos w4 U hU dk tol htol maxA2
  exact ⟨B1, B2, g, err, h1, h2, h3, h4, h5, h6, h7, h8, h9⟩

/-- a gate on the pair `k`, `k+1` -/
theorem applyTwo_spec {svd : Tensor ℂ → SvdRes ℂ} (hg : GoodSvd svd) (eps : ℝ) {dflt : ℝ} (hd0 : 0 < dflt) {a b : Nat}
    (x : Evo) {ds : List Nat} (h : WF a x.P ds b) (k : Nat) (hk : k + 1 < ds.length)
    (U : Tensor ℂ) (hU : U.dims = [ds.getD k 0 * ds.getD (k + 1) 0, ds.getD k 0 * ds.getD (k + 1) 0]) (dk : Int) (tol : ℝ)
    (htol : 0 < effTol dflt tol) (maxA2 : Nat) :
    let y := applyTwo svd eps dflt x U k dk tol maxA2
    WF a y.P ds b ∧ x.err ≤ y.err ∧ x.hidden ≤ y.hidden ∧
    (y.err = x.err → y.hidden = x.hidden → ∀ s, IsCfg ds s → ∀ u < a, ∀ v,
      path y.P s u v = actPair (ds.getD k 0) (ds.getD (k + 1) 0) U k (fun s => path x.P s u v) s) := by
  intro y
  have hlen := h.length
  obtain ⟨pre, X, Y, post, hP, hl⟩ := split_at2 x.P k (by omega)
  rw [hP] at h
  obtain ⟨ds1, ds', c, rfl, w1, w2⟩ := h.split
  cases w2 with
  | @cons c d e b A As ds'' hXd hc hd he w3 =>
  cases w3 with
  | @cons e d2 f b A As ds3 hYd _ hd2 hf w4 =>
  have hg1 : (ds1 ++ d :: d2 :: ds3).getD k 0 = d := by rw [← hl, w1.length]; simp
  have hg2 : (ds1 ++ d :: d2 :: ds3).getD (k + 1) 0 = d2 := by rw [← hl, w1.length]; simp
  rw [hg1, hg2] at hU
  rw [hg1, hg2]
  obtain ⟨B1, B2, g, err, hB1, hB2, hg0, -, -, herr, -, hex, happ⟩ := applyTwo_core hg eps hd0 x hP w1 hXd hYd ⟨hc, hd, he, hd2, hf⟩ w4 U hU dk tol
    htol maxA2
  rw [hl] at happ
  have herr0 : 0 ≤ err := by rw [← herr]; positivity
  have hQ : WF a (pre ++ B1 :: B2 :: post) (ds1 ++ d :: d2 :: ds3) b :=
    w1.append (WF.cons hB1 hc hd hg0 (WF.cons hB2 hg0 hd2 hf w4))
  have hact : err = 0 → ∀ s, IsCfg (ds1 ++ d :: d2 :: ds3) s → ∀ u < a, ∀ v, path (pre ++ B1 :: B2 :: post) s u v =
      actPair d d2 U k (fun s => path x.P s u v) s := by
    intro h0
    rw [hP, ← hl]
    exact path_pair_act U w1 hXd hYd hB1 hB2 ⟨hc, hd, he, hd2, hf, hg0⟩ w4 (hex h0)
  simp only [y, happ]
  by_cases hm : maxA2 ≠ 0
  · simp only [if_pos hm]
    obtain ⟨s1, s2, s3⟩ := setCanonical_any hg eps hd0 hQ (if dk > 0 then k + 1 else k)
      (by simp only [List.length_append, List.length_cons, hl]; split <;> omega) dk
    refine ⟨s1, by linarith, by linarith, fun e1 e2 s hs u hu v => ?_⟩
    rw [s3 (by linarith) s hs u hu v, hact (by linarith) s hs u hu v]
  · simp only [if_neg hm]
    exact ⟨hQ, by linarith, le_refl _, fun e1 _ => hact (by linarith)⟩

/-- a gate on the site `k` -/
theorem applyOne_spec {svd : Tensor ℂ → SvdRes ℂ} (hg : GoodSvd svd) (eps : ℝ) {dflt : ℝ} (hd0 : 0 < dflt) {a b : Nat}
    (x : Evo) {ds : List Nat} (h : WF a x.P ds b) (k : Nat) (hk : k < ds.length)
    (U : Tensor ℂ) (hU : U.dims = [ds.getD k 0, ds.getD k 0]) (dk : Int) (maxA2 : Nat) :
    let y := applyOne svd eps dflt x U k dk maxA2
    WF a y.P ds b ∧ y.err = x.err ∧ x.hidden ≤ y.hidden ∧
    (y.hidden = x.hidden → ∀ s, IsCfg ds s → ∀ u < a, ∀ v,
      path y.P s u v = actSite (ds.getD k 0) U k (fun s => path x.P s u v) s) := by
  intro y
  have hlen := h.length
  have hdk : 0 < ds.getD k 0 := by
    obtain ⟨a', d, b', -, -, h2, -, h4, -⟩ := path_zero h k (by omega)
    rw [h4]; exact h2
  have hUne : U.isEmpty = false := by
    simp [Tensor.isEmpty, Tensor.size, hU]; simpa using hdk.ne'
  have hw : WF a (x.P.set k (foldin U (-1) (site x.P k) 1)) ds b := h.set_act hU
  have hact : ∀ s, IsCfg ds s → ∀ u < a, ∀ v, path (x.P.set k (foldin U (-1) (site x.P k) 1)) s u v
      = actSite (ds.getD k 0) U k (fun s => path x.P s u v) s :=
    fun s hs u _ v => path_set_act h (by omega) hU hs.length u v
  simp only [y, applyOne, hUne, Bool.false_eq_true, if_false]
  by_cases hm : maxA2 ≠ 0
  · simp only [if_pos hm]
    rw [← setCanonical_set _ _ _ _ _ (by omega)]
    obtain ⟨s1, s2, s3⟩ := setCanonical_any hg eps hd0 hw k (by simp; omega) dk
    refine ⟨s1, trivial, by linarith, fun e2 s hs u hu v => ?_⟩
    rw [s3 (by linarith) s hs u hu v, hact s hs u hu v]
  · simp only [if_neg hm]
    exact ⟨hw, trivial, le_refl _, fun _ => hact⟩

/-- the bonds after a gate on the pair `k`, `k+1` -/
theorem applyTwo_bonds {svd : Tensor ℂ → SvdRes ℂ} (hg : GoodSvd svd) (eps : ℝ) {dflt : ℝ} (hd0 : 0 < dflt) {a b : Nat}
    (x : Evo) {ds : List Nat} (h : WF a x.P ds b) (k : Nat) (hk : k + 1 < ds.length)
    (U : Tensor ℂ) (hU : U.dims = [ds.getD k 0 * ds.getD (k + 1) 0, ds.getD k 0 * ds.getD (k + 1) 0]) (dk : Int) (tol : ℝ)
    (htol : 0 < effTol dflt tol) {maxA2 : Nat} (hm : 0 < maxA2) :
    let y := applyTwo svd eps dflt x U k dk tol maxA2
    (site y.P k).dim 2 ≤ maxA2 ∧ ∀ j, j ≠ k → (site y.P j).dim 2 ≤ (site x.P j).dim 2 := by
  intro y
  have hlen := h.length
  obtain ⟨pre, X, Y, post, hP, hl⟩ := split_at2 x.P k (by omega)
  have h' := h
  rw [hP] at h
  obtain ⟨ds1, ds', c, rfl, w1, w2⟩ := h.split
  cases w2 with
  | @cons c d e b A As ds'' hXd hc hd he w3 =>
  cases w3 with
  | @cons e d2 f b A As ds3 hYd _ hd2 hf w4 =>
  have hg1 : (ds1 ++ d :: d2 :: ds3).getD k 0 = d := by rw [← hl, w1.length]; simp
  have hg2 : (ds1 ++ d :: d2 :: ds3).getD (k + 1) 0 = d2 := by rw [← hl, w1.length]; simp
  rw [hg1, hg2] at hU
  obtain ⟨B1, B2, g, err, hB1, hB2, hg0, hgm, -, herr, -, hex, happ⟩ := applyTwo_core hg eps hd0 x hP w1 hXd hYd ⟨hc, hd, he, hd2, hf⟩ w4 U hU dk tol
    htol maxA2
  rw [hl] at happ
  have hQ : WF a (pre ++ B1 :: B2 :: post) (ds1 ++ d :: d2 :: ds3) b :=
    w1.append (WF.cons hB1 hc hd hg0 (WF.cons hB2 hg0 hd2 hf w4))
  have hb := setCanonical_bonds hg eps hd0 hQ (if dk > 0 then k + 1 else k)
      (by simp only [List.length_append, List.length_cons, hl]; split <;> omega) dk
  have hyP : y.P = (setCanonical svd eps dflt (pre ++ B1 :: B2 :: post) (if dk > 0 then k + 1 else k)
      (site (pre ++ B1 :: B2 :: post) (if dk > 0 then k + 1 else k)) dk true).1 := by
    simp only [y, happ]
    rw [if_pos (by omega)]
  rw [hyP]
  have e1 : site (pre ++ B1 :: B2 :: post) k = B1 := by simp [site, ← hl]
  have e2 : site (pre ++ B1 :: B2 :: post) (k + 1) = B2 := by simp [site, ← hl]
  have e3 : site x.P (k + 1) = Y := by rw [hP]; simp [site, ← hl]
  refine ⟨(hb k).trans (by rw [e1, dim2_of hB1]; exact hgm hm), fun j hj => (hb j).trans ?_⟩
  by_cases hj1 : j = k + 1
  · rw [hj1, e2, e3, dim2_of hB2, dim2_of hYd]
  · apply le_of_eq
    congr 1
    rw [hP]
    unfold site
    by_cases hlt : j < k
    · simp [List.getD_eq_getElem?_getD, List.getElem?_append, hl, hlt]
    · have hlt' : ¬ j < pre.length := by omega
      obtain ⟨m, hm⟩ : ∃ m, j - pre.length = m + 2 := ⟨j - pre.length - 2, by omega⟩
      simp [List.getD_eq_getElem?_getD, List.getElem?_append, hlt', hm]

/-- the bonds after a gate on the site `k` -/
theorem applyOne_bonds {svd : Tensor ℂ → SvdRes ℂ} (hg : GoodSvd svd) (eps : ℝ) {dflt : ℝ} (hd0 : 0 < dflt) {a b : Nat}
    (x : Evo) {ds : List Nat} (h : WF a x.P ds b) (k : Nat) (hk : k < ds.length)
    (U : Tensor ℂ) (hU : U.dims = [ds.getD k 0, ds.getD k 0]) (dk : Int) {maxA2 : Nat} (hm : 0 < maxA2) (j : Nat) :
    (site (applyOne svd eps dflt x U k dk maxA2).P j).dim 2 ≤ (site x.P j).dim 2 := by
  have hlen := h.length
  have hz := path_zero h k (by omega)
  obtain ⟨a', d, b', h1, -, h2, -, h4, -⟩ := hz
  have hUne : U.isEmpty = false := by
    rw [h4] at hU
    simp [Tensor.isEmpty, Tensor.size, hU]; omega
  have hw : WF a (x.P.set k (foldin U (-1) (site x.P k) 1)) ds b := h.set_act hU
  simp only [applyOne, hUne, Bool.false_eq_true, if_false]
  rw [if_pos (by omega)]
  simp only
  rw [← setCanonical_set _ _ _ _ _ (by omega)]
  refine (setCanonical_bonds hg eps hd0 hw k (by simp; omega) dk j).trans ?_
  rw [site_set _ _ _ _ (by omega)]
  split_ifs with hj
  · rw [hj]
    apply le_of_eq
    rw [h4] at hU
    rw [dim2_of (show (foldin U (-1) (site x.P k) 1).dims = [a', d, b'] by simp [foldin, hU, h1]), dim2_of h1]
  · exact le_refl _

end MPS.Trotter

