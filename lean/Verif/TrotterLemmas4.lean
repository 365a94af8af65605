import Verif.TrotterLemmas3
import Verif.MPOCanonLemmas

/-! # Distance of states which differ in two tensors -/

set_option linter.unusedSectionVars false
set_option linter.unusedSimpArgs false

namespace MPS
open Tensor
variable {K : Type} [RCLike K]

theorem path_pair_expand {R : Type} [CommRing R] {a c e f d d2 b : Nat} {pre post : List (Tensor R)} {X Y : Tensor R}
    {ds1 ds3 s1 s3 : List Nat} (w1 : WF a pre ds1 c) (hX : X.dims = [c, d, e]) (hY : Y.dims = [e, d2, f])
    (hpos : 0 < c ∧ 0 < d ∧ 0 < e ∧ 0 < d2 ∧ 0 < f) (w4 : WF f post ds3 b) (hs1 : IsCfg ds1 s1) (i j : Nat) {x : Nat} (hx : x < a) (y : Nat) :
    path (pre ++ X :: Y :: post) (s1 ++ i :: j :: s3) x y = ∑ u ∈ Finset.range c, path pre s1 x u *
      ∑ v ∈ Finset.range f, (∑ m ∈ Finset.range e, X.get [u, i, m] * Y.get [m, j, v]) * path post s3 v y := by
  obtain ⟨p1, p2, p3, p4, p5⟩ := hpos
  have l1 : s1.length = pre.length := by rw [hs1.length, w1.length]
  have wX : WF c [X, Y] [d, d2] f := WF.cons hX p1 p2 p3 (WF.single hY p3 p4 p5)
  rw [path_append w1 l1 hx]
  refine Finset.sum_congr rfl fun u hu => ?_
  rw [show X :: Y :: post = [X, Y] ++ post from rfl, show i :: j :: s3 = [i, j] ++ s3 from rfl,
    path_append wX (by simp) (Finset.mem_range.1 hu)]
  congr 1
  refine Finset.sum_congr rfl fun v hv => ?_
  rw [path_pair hX hY _ _ _ _ (Finset.mem_range.1 hv)]

theorem ofReal_normSq (z : K) : ((‖z‖ ^ 2 : ℝ) : K) = star z * z := by
  have := RCLike.conj_mul z
  simpa using this.symm

theorem sumCfg_ofReal (ds : List Nat) (F : List Nat → ℝ) : ((sumCfg ds F : ℝ) : K) = sumCfg ds fun s => (F s : K) := by
  induction ds generalizing F with
  | nil => rfl
  | cons d ds ih => simp only [sumCfg_cons, RCLike.ofReal_sum, ih]

/-- norm of a wave function with isometric left and right parts, and any central part `G` -/
theorem sandwich_norm {a c f b : Nat} {pre post : List (Tensor K)} {ds1 ds3 : List Nat} (w1 : WF a pre ds1 c) (w4 : WF f post ds3 b)
    (hpre : ∀ A ∈ pre, LeftIso A) (hpost : ∀ A ∈ post, RightIso A) (d e : Nat) (G : Nat → Nat → Nat → Nat → K) :
    ∑ u ∈ Finset.range a, ∑ v ∈ Finset.range b, sumCfg ds1 (fun s1 => ∑ i ∈ Finset.range d, ∑ j ∈ Finset.range e, sumCfg ds3 (fun s3 =>
      ‖∑ x ∈ Finset.range c, path pre s1 u x * ∑ y ∈ Finset.range f, G x i j y * path post s3 y v‖ ^ 2))
    = ∑ x ∈ Finset.range c, ∑ i ∈ Finset.range d, ∑ j ∈ Finset.range e, ∑ y ∈ Finset.range f, ‖G x i j y‖ ^ 2 := by
  apply RCLike.ofReal_injective (K := K)
  simp only [RCLike.ofReal_sum, sumCfg_ofReal, ofReal_normSq]
  have e1 : ∀ i j, ∑ u ∈ Finset.range a, ∑ v ∈ Finset.range b, sumCfg ds1 (fun s1 => sumCfg ds3 (fun s3 =>
      star (∑ x ∈ Finset.range c, path pre s1 u x * ∑ y ∈ Finset.range f, G x i j y * path post s3 y v) *
        (∑ x ∈ Finset.range c, path pre s1 u x * ∑ y ∈ Finset.range f, G x i j y * path post s3 y v)))
      = ∑ x ∈ Finset.range c, ∑ y ∈ Finset.range f, star (G x i j y) * G x i j y := by
    intro i j
    have h1 : ∀ v s3, ∑ u ∈ Finset.range a, sumCfg ds1 (fun s1 =>
        star (∑ x ∈ Finset.range c, path pre s1 u x * ∑ y ∈ Finset.range f, G x i j y * path post s3 y v) *
        (∑ x ∈ Finset.range c, path pre s1 u x * ∑ y ∈ Finset.range f, G x i j y * path post s3 y v))
        = ∑ x ∈ Finset.range c, star (∑ y ∈ Finset.range f, G x i j y * path post s3 y v) * ∑ y ∈ Finset.range f, G x i j y * path post s3 y v := by
      intro v s3
      exact iso_normL a ds1 (fun s u x => path pre s u x) (fun x => ∑ y ∈ Finset.range f, G x i j y * path post s3 y v) (left_chain w1 hpre)
    have h2 : ∀ x, ∑ v ∈ Finset.range b, sumCfg ds3 (fun s3 =>
        star (∑ y ∈ Finset.range f, G x i j y * path post s3 y v) * ∑ y ∈ Finset.range f, G x i j y * path post s3 y v)
        = ∑ y ∈ Finset.range f, star (G x i j y) * G x i j y := by
      intro x
      have := iso_normL (c := f) b ds3 (fun s v y => path post s y v) (fun y => G x i j y) ?_
      · rw [← this]
        refine Finset.sum_congr rfl fun v _ => sumCfg_congr fun s _ => ?_
        have : ∀ y, G x i j y * path post s y v = path post s y v * G x i j y := fun y => mul_comm _ _
        simp only [this]
      · intro y y' hy hy'
        have := right_chain w4 hpost y' y hy' hy
        rw [show (if y = y' then (1 : K) else 0) = if y' = y then 1 else 0 by simp [eq_comm], ← this]
        refine Finset.sum_congr rfl fun v _ => sumCfg_congr fun s _ => mul_comm _ _
    rw [Finset.sum_comm]
    have h3 : ∀ v ∈ Finset.range b, ∑ u ∈ Finset.range a, sumCfg ds1 (fun s1 => sumCfg ds3 (fun s3 =>
      star (∑ x ∈ Finset.range c, path pre s1 u x * ∑ y ∈ Finset.range f, G x i j y * path post s3 y v) *
        (∑ x ∈ Finset.range c, path pre s1 u x * ∑ y ∈ Finset.range f, G x i j y * path post s3 y v)))
        = ∑ x ∈ Finset.range c, sumCfg ds3 (fun s3 =>
        star (∑ y ∈ Finset.range f, G x i j y * path post s3 y v) * ∑ y ∈ Finset.range f, G x i j y * path post s3 y v) := by
      intro v _
      rw [← sumCfg_sum ds3]
      rw [sumCfg_congr fun s3 _ => (h1 v s3).symm, sumCfg_sum]
      exact Finset.sum_congr rfl fun u _ => sumCfg_comm _ _ _
    rw [Finset.sum_congr rfl h3, Finset.sum_comm]
    exact Finset.sum_congr rfl fun x _ => h2 x
  have e2 : ∀ u v, sumCfg ds1 (fun s1 => ∑ i ∈ Finset.range d, ∑ j ∈ Finset.range e, sumCfg ds3 (fun s3 =>
      star (∑ x ∈ Finset.range c, path pre s1 u x * ∑ y ∈ Finset.range f, G x i j y * path post s3 y v) *
        (∑ x ∈ Finset.range c, path pre s1 u x * ∑ y ∈ Finset.range f, G x i j y * path post s3 y v)))
      = ∑ i ∈ Finset.range d, ∑ j ∈ Finset.range e, sumCfg ds1 (fun s1 => sumCfg ds3 (fun s3 =>
      star (∑ x ∈ Finset.range c, path pre s1 u x * ∑ y ∈ Finset.range f, G x i j y * path post s3 y v) *
        (∑ x ∈ Finset.range c, path pre s1 u x * ∑ y ∈ Finset.range f, G x i j y * path post s3 y v))) := by
    intro u v
    rw [sumCfg_sum]
    exact Finset.sum_congr rfl fun i _ => by rw [sumCfg_sum]
  simp only [e2]
  rw [sum4_comm, Finset.sum_congr rfl fun i _ => Finset.sum_congr rfl fun j _ => e1 i j]
  rw [Finset.sum_congr rfl fun i _ => Finset.sum_comm, Finset.sum_comm]

/-- the distance between the state with tensors `B1`, `B2` and the state with tensors `X`, `Y` transformed with a two-site
operator, if all other tensors are isometries -/
theorem pair_distance {c e f d d2 g : Nat} {pre post : List (Tensor K)} {X Y B1 B2 : Tensor K}
    {ds1 ds3 : List Nat} (op : Tensor K)
    (w1 : WF 1 pre ds1 c) (hX : X.dims = [c, d, e]) (hY : Y.dims = [e, d2, f]) (hB1 : B1.dims = [c, d, g])
    (hB2 : B2.dims = [g, d2, f]) (hpos : 0 < c ∧ 0 < d ∧ 0 < e ∧ 0 < d2 ∧ 0 < f ∧ 0 < g) (w4 : WF f post ds3 1)
    (hpre : ∀ A ∈ pre, LeftIso A) (hpost : ∀ A ∈ post, RightIso A) :
    sumCfg (ds1 ++ d :: d2 :: ds3) (fun s => ‖actPair d d2 op pre.length (amp (pre ++ X :: Y :: post)) s
        - amp (pre ++ B1 :: B2 :: post) s‖ ^ 2)
      = ∑ x ∈ Finset.range c, ∑ i ∈ Finset.range d, ∑ j ∈ Finset.range d2, ∑ y ∈ Finset.range f,
        ‖(∑ i' ∈ Finset.range d, ∑ j' ∈ Finset.range d2, op.get [i + d * j, i' + d * j'] *
            ∑ z ∈ Finset.range e, X.get [x, i', z] * Y.get [z, j', y])
          - ∑ m ∈ Finset.range g, B1.get [x, i, m] * B2.get [m, j, y]‖ ^ 2 := by
  obtain ⟨p1, p2, p3, p4, p5, p6⟩ := hpos
  have wX : WF 1 (pre ++ X :: Y :: post) (ds1 ++ d :: d2 :: ds3) 1 := w1.append (WF.cons hX p1 p2 p3 (WF.cons hY p3 p4 p5 w4))
  have wB : WF 1 (pre ++ B1 :: B2 :: post) (ds1 ++ d :: d2 :: ds3) 1 := w1.append (WF.cons hB1 p1 p2 p6 (WF.cons hB2 p6 p4 p5 w4))
  rw [← sandwich_norm w1 w4 hpre hpost]
  simp only [Finset.sum_range_one]
  rw [sumCfg_append]
  refine sumCfg_congr fun s1 hs1 => ?_
  simp only [sumCfg_cons]
  refine Finset.sum_congr rfl fun i hi => Finset.sum_congr rfl fun j hj => sumCfg_congr fun s3 hs3 => ?_
  have l1 : s1.length = pre.length := by rw [hs1.length, w1.length]
  rw [amp_of_WF wB (by simp), Finset.sum_range_one, path_pair_expand w1 hB1 hB2 ⟨p1, p2, p6, p4, p5⟩ w4 hs1 i j (by omega)]
  unfold actPair
  beta_reduce
  have e1 : ∀ i' j', amp (pre ++ X :: Y :: post) (((s1 ++ i :: j :: s3).set pre.length i').set (pre.length + 1) j') =
      ∑ u ∈ Finset.range c, path pre s1 0 u *
      ∑ v ∈ Finset.range f, (∑ m ∈ Finset.range e, X.get [u, i', m] * Y.get [m, j', v]) * path post s3 v 0 := by
    intro i' j'
    have : ((s1 ++ i :: j :: s3).set pre.length i').set (pre.length + 1) j' = s1 ++ i' :: j' :: s3 := by
      rw [← l1]; simp [List.set_append]
    rw [this, amp_of_WF wX (by simp), Finset.sum_range_one, path_pair_expand w1 hX hY ⟨p1, p2, p3, p4, p5⟩ w4 hs1 i' j' (by omega)]
  have g1 : (s1 ++ i :: j :: s3).getD pre.length 0 = i := by rw [← l1]; simp
  have g2 : (s1 ++ i :: j :: s3).getD (pre.length + 1) 0 = j := by rw [← l1]; simp
  simp only [e1, g1, g2]
  congr 2
  simp only [sub_mul, Finset.sum_sub_distrib, mul_sub]
  congr 1
  simp only [Finset.mul_sum, Finset.sum_mul]
  rw [sum4_comm]
  refine Finset.sum_congr rfl fun u _ => Finset.sum_congr rfl fun v _ => Finset.sum_congr rfl fun i' _ => Finset.sum_congr rfl fun j' _ =>
    Finset.sum_congr rfl fun z _ => by ring

end MPS
