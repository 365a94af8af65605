import Verif.MPOCanonLemmas
import Verif.Props.CanonProps
import Mathlib.Algebra.Order.BigOperators.Ring.Finset

/-! # Helper lemmas: operators as states -/

set_option linter.unusedSectionVars false
set_option linter.unusedSimpArgs false

namespace MPS
open Tensor

section Ring
variable {R : Type} [CommRing R]

/-- local dimensions of the state `mpo_to_mps(O)` -/
def sq (ds : List Nat) : List Nat := ds.map fun d => d * d

/-- configuration of `mpo_to_mps(O)` that holds the matrix element `⟨s|O|t⟩` -/
def pairCfg : List Nat → List Nat → List Nat → List Nat
  | d :: ds, i :: s, j :: t => (i + d * j) :: pairCfg ds s t
  | _, _, _ => []

theorem pairCfg_isCfg : ∀ {ds s t : List Nat}, IsCfg ds s → IsCfg ds t → IsCfg (sq ds) (pairCfg ds s t)
  | [], _, _, h, h' => by cases h; cases h'; exact List.Forall₂.nil
  | _ :: _, _, _, h, h' => by
    cases h with
    | cons h1 h2 =>
    cases h' with
    | cons g1 g2 => exact List.Forall₂.cons (add_mul_lt h1 g1) (pairCfg_isCfg h2 g2)

theorem sumCfg_sq {M : Type} [AddCommMonoid M] : ∀ (ds : List Nat) (F : List Nat → M),
    sumCfg (sq ds) F = sumCfg ds fun s => sumCfg ds fun t => F (pairCfg ds s t)
  | [], F => rfl
  | d :: ds, F => by
    have e : sq (d :: ds) = (d * d) :: sq ds := rfl
    rw [e, sumCfg_cons, sum_range_mul, Finset.sum_comm, sumCfg_cons]
    refine Finset.sum_congr rfl fun i _ => ?_
    simp only [sumCfg_cons]
    rw [sumCfg_sum]
    refine Finset.sum_congr rfl fun j _ => ?_
    rw [sumCfg_sq ds]
    rfl

theorem reshape4_get {m : Tensor R} {a d c : Nat} (h : m.dims = [a, d, d, c]) {x i j y : Nat} (hx : x < a) (hi : i < d) (hj : j < d)
    (hy : y < c) : (reshape m [a, d * d, c]).get [x, i + d * j, y] = m.get [x, i, j, y] := by
  apply reshape_get
  · rw [h]; simp [hx, hi, hj, hy]
  · rw [h]; simp only [flat]; ring

theorem reshape3_get {m : Tensor R} {a d c : Nat} (h : m.dims = [a, d * d, c]) {x i j y : Nat} (hx : x < a) (hi : i < d) (hj : j < d)
    (hy : y < c) : (reshape m [a, d, d, c]).get [x, i, j, y] = m.get [x, i + d * j, y] := by
  apply reshape_get
  · rw [h]; simp [hx, hy, add_mul_lt hi hj]
  · rw [h]; simp only [flat]; ring

theorem mpoToMPS_WF {a b : Nat} {O : List (Tensor R)} {ds : List Nat} (h : WFO a O ds b) : WF a (mpoToMPS O) (sq ds) b := by
  induction h with
  | nil => exact WF.nil _
  | cons h1 h2 h3 h4 _ ih =>
    obtain ⟨q0, q1, q2, q3⟩ := dim_of4 h1
    refine WF.cons ?_ h2 (Nat.mul_pos h3 h3) h4 ih
    simp only [reshape_dims, q0, q1, q2, q3]

theorem mpoToMPS_path {a b : Nat} {O : List (Tensor R)} {ds : List Nat} (h : WFO a O ds b) :
    ∀ {s t : List Nat}, IsCfg ds s → IsCfg ds t → ∀ x < a, ∀ y, path (mpoToMPS O) (pairCfg ds s t) x y = opPath O s t x y := by
  induction h with
  | nil =>
    intro s t hs ht x hx y
    cases hs; cases ht; rfl
  | @cons a d c b A As ds h1 h2 h3 h4 _ ih =>
    intro s t hs ht x hx y
    cases hs with
    | @cons i _ s _ hi hs =>
    cases ht with
    | @cons j _ t _ hj ht =>
    obtain ⟨q0, q1, q2, q3⟩ := dim_of4 h1
    show path (reshape A [A.dim 0, A.dim 1 * A.dim 2, A.dim 3] :: mpoToMPS As) ((i + d * j) :: pairCfg ds s t) x y = _
    rw [q0, q1, q2, q3, path_cons, opPath_cons, q3, dim2_of reshape_dims]
    refine Finset.sum_congr rfl fun z hz => ?_
    rw [reshape4_get h1 hx hi hj (Finset.mem_range.1 hz), ih hs ht z (Finset.mem_range.1 hz) y]

theorem IsMPO.toMPS {ds : List Nat} {O : List (Tensor R)} (h : IsMPO ds O) : IsMPS (sq ds) (mpoToMPS O) := by
  obtain ⟨hne, D, hw⟩ := h
  exact ⟨by simpa [mpoToMPS] using hne, D, mpoToMPS_WF hw⟩

theorem amp_mpoToMPS {ds : List Nat} {O : List (Tensor R)} (h : IsMPO ds O) {s t : List Nat} (hs : IsCfg ds s) (ht : IsCfg ds t) :
    amp (mpoToMPS O) (pairCfg ds s t) = opElt O s t := by
  obtain ⟨hne, D, hw⟩ := h
  rw [amp_of_WF (mpoToMPS_WF hw) (by simpa [mpoToMPS] using hne), opElt_of_WFO hw hne]
  exact Finset.sum_congr rfl fun x hx => mpoToMPS_path hw hs ht x (Finset.mem_range.1 hx) x

/-- the tensor of an operator made of the tensor `m2` of a state, with the physical dimensions of `m1` -/
def backSite (m1 m2 : Tensor R) : Tensor R := reshape m2 [m2.dim 0, m1.dim 1, m1.dim 2, m2.dim 2]

theorem back_spec {a b : Nat} {O : List (Tensor R)} {ds : List Nat} (h : WFO a O ds b) :
    ∀ {a' b' : Nat} {ψ : List (Tensor R)}, WF a' ψ (sq ds) b' → WFO a' (List.zipWith backSite O ψ) ds b' ∧
      ∀ {s t : List Nat}, IsCfg ds s → IsCfg ds t → ∀ x < a', ∀ y,
        opPath (List.zipWith backSite O ψ) s t x y = path ψ (pairCfg ds s t) x y := by
  induction h with
  | nil =>
    intro a' b' ψ hw
    cases hw
    refine ⟨WFO.nil _, ?_⟩
    intro s t hs ht x _ y
    cases hs; cases ht; rfl
  | @cons a d c b A As ds h1 h2 h3 h4 _ ih =>
    intro a' b' ψ hw
    cases hw with
    | @cons _ _ c' _ B Bs _ g1 g2 g3 g4 g5 =>
    obtain ⟨q0, q1, q2, q3⟩ := dim_of4 h1
    obtain ⟨i1, i2⟩ := ih g5
    have hb : backSite A B = reshape B [a', d, d, c'] := by
      simp only [backSite, q1, q2, dim0_of g1, dim2_of g1]
    refine ⟨WFO.cons (by rw [hb]; rfl) g2 h3 g4 i1, ?_⟩
    intro s t hs ht x hx y
    cases hs with
    | @cons i _ s _ hi hs =>
    cases ht with
    | @cons j _ t _ hj ht =>
    show opPath (backSite A B :: List.zipWith backSite As Bs) (i :: s) (j :: t) x y
      = path (B :: Bs) ((i + d * j) :: pairCfg ds s t) x y
    have q3' : (reshape B [a', d, d, c']).dim 3 = c' := (dim_of4 reshape_dims).2.2.2
    rw [hb, path_cons, opPath_cons, q3', dim2_of g1]
    refine Finset.sum_congr rfl fun z hz => ?_
    rw [reshape3_get g1 hx hi hj (Finset.mem_range.1 hz), i2 hs ht z (Finset.mem_range.1 hz) y]

end Ring

/-! ### Cauchy–Schwarz -/
section CS

theorem sumCfg_range {M : Type} [AddCommMonoid M] : ∀ (ds : List Nat) (F : List Nat → M), (∀ d ∈ ds, 0 < d) →
    sumCfg ds F = ∑ n ∈ Finset.range ds.prod, F (unflat ds n)
  | [], F, _ => by simp [sumCfg, unflat]
  | d :: ds, F, h => by
    rw [sumCfg_cons, List.prod_cons, sum_range_mul, Finset.sum_comm]
    refine Finset.sum_congr rfl fun i hi => ?_
    rw [sumCfg_range ds _ fun e he => h e (List.mem_cons_of_mem _ he)]
    refine Finset.sum_congr rfl fun n _ => ?_
    rw [Finset.mem_range] at hi
    have hd : 0 < d := by omega
    simp [unflat, Nat.mod_eq_of_lt hi, Nat.add_mul_div_left _ _ hd, Nat.div_eq_of_lt hi]

variable {K : Type} [RCLike K]

theorem inner_le (ds : List Nat) (hd : ∀ d ∈ ds, 0 < d) (φ χ : List Nat → K) :
    ‖inner ds φ χ‖ ≤ Real.sqrt (sumCfg ds fun s => ‖φ s‖ ^ 2) * Real.sqrt (sumCfg ds fun s => ‖χ s‖ ^ 2) := by
  rw [← Real.sqrt_mul (sumCfg_nonneg _ _ fun s _ => by positivity)]
  apply Real.le_sqrt_of_sq_le
  unfold inner
  rw [sumCfg_range _ _ hd, sumCfg_range _ _ hd, sumCfg_range _ _ hd]
  refine le_trans (pow_le_pow_left₀ (norm_nonneg _) (norm_sum_le _ _) 2) ?_
  simp only [norm_mul, norm_star]
  exact Finset.sum_mul_sq_le_sq_mul_sq _ _ _

end CS

theorem WF.dims_pos {R : Type} {a b : Nat} {ψ : List (Tensor R)} {ds : List Nat} (h : WF a ψ ds b) : ∀ d ∈ ds, 0 < d := by
  induction h with
  | nil => simp
  | cons _ _ h3 _ _ ih =>
    intro d hd
    rcases List.mem_cons.1 hd with rfl | hd
    · exact h3
    · exact ih d hd

end MPS
