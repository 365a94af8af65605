import Verif.CanonProj
import Verif.TrotterTrunc5

/-! # Truncations in the middle of a chain which is an isometry on its right side only -/

set_option linter.unusedSectionVars false
set_option linter.unusedSimpArgs false

namespace MPS.Trotter
open MPS Tensor Minim

/-- squared norm of the right part of a chain, with an open bond of dimension `c` -/
noncomputable def rNorm (c : Nat) (ds : List Nat) (R : List (Tensor ℂ)) : ℝ :=
  ∑ x ∈ Finset.range c, sumCfg ds fun s => ‖path R s x 0‖ ^ 2

/-- the left part of a chain multiplies squared norms by `C` at most -/
def LBound (ds : List Nat) (c : Nat) (pre : List (Tensor ℂ)) (C : ℝ) : Prop :=
  ∀ v : Nat → ℂ, sumCfg ds (fun s => ‖∑ x ∈ Finset.range c, path pre s 0 x * v x‖ ^ 2) ≤ C * ∑ x ∈ Finset.range c, ‖v x‖ ^ 2

/-- `G` is a projection of `F`, with the projector acting on the configurations -/
def RProj (c : Nat) (ds : List Nat) (F G : Nat → List Nat → ℂ) : Prop :=
  ∀ x < c, ∀ x' < c, sumCfg ds (fun s => star (G x' s) * (F x s - G x s)) = 0

theorem sumCfg_le {ds : List Nat} {F G : List Nat → ℝ} (h : ∀ s, IsCfg ds s → F s ≤ G s) : sumCfg ds F ≤ sumCfg ds G := by
  have := sumCfg_nonneg ds (fun s => G s - F s) fun s hs => by have := h s hs; linarith
  have e : sumCfg ds G = sumCfg ds F + sumCfg ds fun s => G s - F s := by
    rw [← sumCfg_add]; exact sumCfg_congr fun s _ => by ring
  linarith

theorem sqnorm_sum (g h : ℂ) : ‖g + h‖ ^ 2 = ‖g‖ ^ 2 + ‖h‖ ^ 2 + 2 * (star g * h).re := by
  have e1 := Complex.normSq_add g h
  rw [Complex.normSq_eq_norm_sq, Complex.normSq_eq_norm_sq, Complex.normSq_eq_norm_sq] at e1
  rw [e1]
  simp [Complex.mul_re]

theorem sumCfg_re (ds : List Nat) (F : List Nat → ℂ) : (sumCfg ds F).re = sumCfg ds fun s => (F s).re := by
  induction ds generalizing F with
  | nil => rfl
  | cons d ds ih => simp only [sumCfg_cons, Complex.re_sum, ih]

theorem RProj.pyth {c : Nat} {ds : List Nat} {F G : Nat → List Nat → ℂ} (h : RProj c ds F G) (a : Nat → ℂ) :
    sumCfg ds (fun s => ‖∑ x ∈ Finset.range c, a x * G x s‖ ^ 2) +
      sumCfg ds (fun s => ‖∑ x ∈ Finset.range c, a x * G x s - ∑ x ∈ Finset.range c, a x * F x s‖ ^ 2) =
      sumCfg ds (fun s => ‖∑ x ∈ Finset.range c, a x * F x s‖ ^ 2) := by
  have h0 : sumCfg ds (fun s => star (∑ x ∈ Finset.range c, a x * G x s) *
      (∑ x ∈ Finset.range c, a x * F x s - ∑ x ∈ Finset.range c, a x * G x s)) = 0 := by
    have e : ∀ s, star (∑ x ∈ Finset.range c, a x * G x s) * (∑ x ∈ Finset.range c, a x * F x s - ∑ x ∈ Finset.range c, a x * G x s)
        = ∑ x' ∈ Finset.range c, ∑ x ∈ Finset.range c, (star (a x') * a x) * (star (G x' s) * (F x s - G x s)) := by
      intro s
      rw [← Finset.sum_sub_distrib, star_sum, Finset.sum_mul_sum]
      refine Finset.sum_congr rfl fun x' _ => Finset.sum_congr rfl fun x _ => ?_
      rw [star_mul']; ring
    rw [sumCfg_congr fun s _ => e s, sumCfg_sum]
    refine Finset.sum_eq_zero fun x' hx' => ?_
    rw [sumCfg_sum]
    refine Finset.sum_eq_zero fun x hx => ?_
    rw [sumCfg_mul_left, h x (Finset.mem_range.1 hx) x' (Finset.mem_range.1 hx'), mul_zero]
  have h1 := congrArg Complex.re h0
  rw [sumCfg_re] at h1
  have e2 : ∀ s, ‖∑ x ∈ Finset.range c, a x * F x s‖ ^ 2 = ‖∑ x ∈ Finset.range c, a x * G x s‖ ^ 2 +
      ‖∑ x ∈ Finset.range c, a x * G x s - ∑ x ∈ Finset.range c, a x * F x s‖ ^ 2 +
      2 * (star (∑ x ∈ Finset.range c, a x * G x s) * (∑ x ∈ Finset.range c, a x * F x s - ∑ x ∈ Finset.range c, a x * G x s)).re := by
    intro s
    have := sqnorm_sum (∑ x ∈ Finset.range c, a x * G x s) (∑ x ∈ Finset.range c, a x * F x s - ∑ x ∈ Finset.range c, a x * G x s)
    rw [add_sub_cancel, norm_sub_rev] at this
    exact this
  have e3 := sumCfg_congr (ds := ds) fun s _ => e2 s
  rw [sumCfg_add, sumCfg_add, sumCfg_mul_left, h1] at e3
  simpa using e3.symm

/-- the left part of a chain in front of any functions of the right part -/
theorem LBound.apply {ds1 : List Nat} {c : Nat} {pre : List (Tensor ℂ)} {C : ℝ} (h : LBound ds1 c pre C) (ds2 : List Nat)
    (F : Nat → List Nat → ℂ) :
    sumCfg ds1 (fun s => sumCfg ds2 fun t => ‖∑ x ∈ Finset.range c, path pre s 0 x * F x t‖ ^ 2) ≤
      C * ∑ x ∈ Finset.range c, sumCfg ds2 fun t => ‖F x t‖ ^ 2 := by
  rw [sumCfg_comm, ← sumCfg_sum, ← sumCfg_mul_left]
  exact sumCfg_le fun t _ => h fun x => F x t

/-- scalar products of functions in front of a right-isometric chain -/
theorem right_inner {f : Nat} {post : List (Tensor ℂ)} {ds3 : List Nat} (w4 : WF f post ds3 1) (hpost : ∀ A ∈ post, RightIso A) (t t' : Nat → ℂ) :
    sumCfg ds3 (fun s => star (∑ y ∈ Finset.range f, t' y * path post s y 0) * ∑ y ∈ Finset.range f, t y * path post s y 0)
      = ∑ y ∈ Finset.range f, star (t' y) * t y := by
  have rc : ∀ y y', y < f → y' < f → sumCfg ds3 (fun s => star (path post s y 0) * path post s y' 0) = if y = y' then 1 else 0 := by
    intro y y' hy hy'
    have := right_chain w4 hpost y' y hy' hy
    rw [Finset.sum_range_one] at this
    rw [show (if y = y' then (1 : ℂ) else 0) = if y' = y then 1 else 0 by simp [eq_comm], ← this]
    exact sumCfg_congr fun s _ => mul_comm _ _
  have e : ∀ s, star (∑ y ∈ Finset.range f, t' y * path post s y 0) * ∑ y ∈ Finset.range f, t y * path post s y 0 =
      ∑ y ∈ Finset.range f, ∑ y' ∈ Finset.range f, (star (t' y) * t y') * (star (path post s y 0) * path post s y' 0) := by
    intro s
    rw [star_sum, Finset.sum_mul_sum]
    refine Finset.sum_congr rfl fun x' _ => Finset.sum_congr rfl fun x _ => ?_
    rw [star_mul']; ring
  rw [sumCfg_congr fun s _ => e s, sumCfg_sum]
  refine Finset.sum_congr rfl fun y hy => ?_
  rw [sumCfg_sum, Finset.sum_eq_single y]
  · rw [sumCfg_mul_left, rc y y (Finset.mem_range.1 hy) (Finset.mem_range.1 hy), if_pos rfl, mul_one]
  · intro y' hy' hne
    rw [sumCfg_mul_left, rc y y' (Finset.mem_range.1 hy) (Finset.mem_range.1 hy'), if_neg hne.symm, mul_zero]
  · intro hn; exact absurd hy hn

theorem right_norm {f : Nat} {post : List (Tensor ℂ)} {ds3 : List Nat} (w4 : WF f post ds3 1) (hpost : ∀ A ∈ post, RightIso A) (t : Nat → ℂ) :
    sumCfg ds3 (fun s => ‖∑ y ∈ Finset.range f, t y * path post s y 0‖ ^ 2) = ∑ y ∈ Finset.range f, ‖t y‖ ^ 2 := by
  apply Complex.ofReal_injective
  have h := right_inner w4 hpost t t
  have e1 : ((sumCfg ds3 (fun s => ‖∑ y ∈ Finset.range f, t y * path post s y 0‖ ^ 2) : ℝ) : ℂ) =
      sumCfg ds3 (fun s => star (∑ y ∈ Finset.range f, t y * path post s y 0) * ∑ y ∈ Finset.range f, t y * path post s y 0) :=
    (sumCfg_ofReal (K := ℂ) _ _).trans (sumCfg_congr fun s _ => ofReal_normSq (K := ℂ) _)
  rw [e1, h, Complex.ofReal_sum]
  exact Finset.sum_congr rfl fun y _ => (ofReal_normSq (K := ℂ) _).symm

/-- a right-isometric chain -/
theorem rNorm_iso {f : Nat} {post : List (Tensor ℂ)} {ds3 : List Nat} (w4 : WF f post ds3 1) (hpost : ∀ A ∈ post, RightIso A) :
    rNorm f ds3 post = f := by
  unfold rNorm
  have : ∀ x ∈ Finset.range f, sumCfg ds3 (fun s => ‖path post s x 0‖ ^ 2) = 1 := by
    intro x hx
    have := right_norm w4 hpost (fun y => if y = x then 1 else 0)
    simp only [ite_mul, one_mul, zero_mul, Finset.sum_ite_eq', hx, if_true] at this
    rw [this, Finset.sum_eq_single x] <;> simp +contextual
    simpa using hx
  rw [Finset.sum_congr rfl this]; simp

/-- in front of a right-isometric chain, the left part is limited by the norm of the state -/
theorem LBound.of_iso {c : Nat} {pre post : List (Tensor ℂ)} {ds1 ds2 : List Nat} (w1 : WF 1 pre ds1 c) (w2 : WF c post ds2 1)
    (hpost : ∀ A ∈ post, RightIso A) (hne : pre ++ post ≠ []) : LBound ds1 c pre (normSq (ds1 ++ ds2) (pre ++ post)) := by
  have hw := w1.append w2
  have e : normSq (ds1 ++ ds2) (pre ++ post) = sumCfg ds1 fun s => ∑ x ∈ Finset.range c, ‖path pre s 0 x‖ ^ 2 := by
    unfold normSq
    rw [sumCfg_append]
    refine sumCfg_congr fun s hs => ?_
    rw [← right_norm w2 hpost fun x => path pre s 0 x]
    refine sumCfg_congr fun t _ => ?_
    rw [amp_of_WF hw hne, Finset.sum_range_one, path_append w1 (by rw [hs.length, w1.length]) Nat.one_pos]
  intro v
  rw [e, ← sumCfg_mul_right]
  refine sumCfg_le fun s _ => ?_
  have h1 : ‖∑ x ∈ Finset.range c, path pre s 0 x * v x‖ ≤ ∑ x ∈ Finset.range c, ‖path pre s 0 x‖ * ‖v x‖ :=
    (norm_sum_le _ _).trans (le_of_eq (Finset.sum_congr rfl fun x _ => norm_mul _ _))
  calc _ ≤ (∑ x ∈ Finset.range c, ‖path pre s 0 x‖ * ‖v x‖) ^ 2 := by gcongr
    _ ≤ _ := Finset.sum_mul_sq_le_sq_mul_sq _ _ _

/-- a left isometry after the left part -/
theorem LBound.snoc {ds1 : List Nat} {c d g : Nat} {pre : List (Tensor ℂ)} {C : ℝ} (h : LBound ds1 c pre C) (w1 : WF 1 pre ds1 c)
    {B : Tensor ℂ} (hB : B.dims = [c, d, g]) (hI : LeftIso B) : LBound (ds1 ++ [d]) g (pre ++ [B]) C := by
  intro v
  have e : sumCfg (ds1 ++ [d]) (fun s => ‖∑ x ∈ Finset.range g, path (pre ++ [B]) s 0 x * v x‖ ^ 2) =
      sumCfg ds1 fun s => sumCfg [d] fun t => ‖∑ x ∈ Finset.range c, path pre s 0 x * ∑ m ∈ Finset.range g, B.get [x, t.getD 0 0, m] * v m‖ ^ 2 := by
    rw [sumCfg_append]
    refine sumCfg_congr fun s hs => ?_
    rw [sumCfg_single, sumCfg_single]
    refine Finset.sum_congr rfl fun i _ => ?_
    have : ∀ y ∈ Finset.range g, path (pre ++ [B]) (s ++ [i]) 0 y * v y = ∑ x ∈ Finset.range c, path pre s 0 x * (B.get [x, i, y] * v y) := by
      intro y hy
      rw [path_append w1 (by rw [hs.length, w1.length]) Nat.one_pos, Finset.sum_mul]
      exact Finset.sum_congr rfl fun x _ => by rw [path_single hB (Finset.mem_range.1 hy)]; ring
    rw [Finset.sum_congr rfl this, Finset.sum_comm]
    simp only [Finset.mul_sum, List.getD_cons_zero]
  rw [e]
  refine (h.apply [d] _).trans (le_of_eq ?_)
  congr 1
  have := norm_fold_left (K := ℂ) (V := ⟨[g, 1], fun I => v (I.getD 0 0)⟩) (l := 1) hB hI
  simp only [Finset.sum_range_one, List.getD_cons_zero] at this
  rw [← this]
  exact Finset.sum_congr rfl fun x _ => by rw [sumCfg_single]; simp

/-- a left isometry in front of the right part -/
theorem rNorm_cons {ds : List Nat} {c d g : Nat} {R : List (Tensor ℂ)} {B : Tensor ℂ} (hB : B.dims = [c, d, g]) (hI : LeftIso B) :
    rNorm c (d :: ds) (B :: R) = rNorm g ds R := by
  unfold rNorm
  simp only [sumCfg_cons, path_cons, dim2_of hB]
  rw [← sumCfg_sum, Finset.sum_congr rfl fun x _ => (sumCfg_sum _ _ _).symm, ← sumCfg_sum]
  refine sumCfg_congr fun s _ => ?_
  have := norm_fold_left (K := ℂ) (V := ⟨[g, 1], fun I => path R s (I.getD 0 0) 0⟩) (l := 1) hB hI
  simpa only [Finset.sum_range_one, List.getD_cons_zero] using this

end MPS.Trotter
