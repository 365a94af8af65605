import Verif.Spec
import Mathlib.Data.List.GetD

/-! # Helper lemmas: index arithmetic, sums over configurations, path sums -/

set_option linter.unusedSectionVars false

namespace MPS
open Tensor
variable {R : Type}

namespace Tensor

theorem unflat_flat : ∀ {ds is : List Nat}, InB ds is → unflat ds (flat ds is) = is
  | [], [], _ => rfl
  | d :: ds, i :: is, h => by
    have h1 : i < d := (List.forall₂_cons.1 h).1
    have h2 : InB ds is := (List.forall₂_cons.1 h).2
    have hd : 0 < d := by omega
    simp only [flat, unflat]
    rw [Nat.add_mul_mod_self_left, Nat.mod_eq_of_lt h1, Nat.add_mul_div_left _ _ hd,
      Nat.div_eq_of_lt h1, Nat.zero_add, unflat_flat h2]

@[simp] theorem inB_nil : InB [] [] := List.Forall₂.nil
@[simp] theorem inB_cons {d i : Nat} {ds is : List Nat} :
    InB (d :: ds) (i :: is) ↔ i < d ∧ InB ds is := List.forall₂_cons

/-- the way `reshape` is used: `idx'` in the new shape and `idx` in the old one are at the same position -/
theorem reshape_get {A : Tensor R} {ds idx idx' : List Nat} (hb : InB A.dims idx)
    (h : flat ds idx' = flat A.dims idx) : (reshape A ds).get idx' = A.get idx := by
  simp [reshape, h, unflat_flat hb]

@[simp] theorem reshape_dims {A : Tensor R} {ds : List Nat} : (reshape A ds).dims = ds := rfl
@[simp] theorem conj_dims [Star R] {A : Tensor R} : (conj A).dims = A.dims := rfl
@[simp] theorem conj_get [Star R] {A : Tensor R} {i : List Nat} : (conj A).get i = star (A.get i) := rfl
@[simp] theorem nrm_nonneg (r : Nat) (n : Nat) : nrm r (n : Int) = n := by simp [nrm]
@[simp] theorem nrm_zero (r : Nat) : nrm r 0 = 0 := by simp [nrm]
@[simp] theorem nrm_one (r : Nat) : nrm r 1 = 1 := by simp [nrm]
@[simp] theorem nrm_two (r : Nat) : nrm r 2 = 2 := by simp [nrm]
@[simp] theorem nrm_three (r : Nat) : nrm r 3 = 3 := by simp [nrm]
@[simp] theorem nrm_neg1 (r : Nat) : nrm r (-1) = r - 1 := by simp [nrm]; omega

end Tensor

theorem sum_range_mul [AddCommMonoid R] (a b : Nat) (f : Nat → R) :
    ∑ k ∈ Finset.range (a * b), f k
      = ∑ j ∈ Finset.range b, ∑ i ∈ Finset.range a, f (i + a * j) := by
  induction b with
  | zero => simp
  | succ b ih =>
    rw [Finset.sum_range_succ, ← ih, Nat.mul_succ, Finset.sum_range_add]
    congr 1
    apply Finset.sum_congr rfl
    intro i _
    rw [Nat.add_comm]

theorem add_mul_lt {a b i j : Nat} (hi : i < a) (hj : j < b) : i + a * j < a * b := by
  calc i + a * j < a + a * j := by omega
    _ = a * (j + 1) := by ring
    _ ≤ a * b := Nat.mul_le_mul_left _ hj

section sumCfg
variable [AddCommMonoid R]

@[simp] theorem sumCfg_nil (F : List Nat → R) : sumCfg [] F = F [] := rfl
theorem sumCfg_cons (d : Nat) (ds : List Nat) (F : List Nat → R) :
    sumCfg (d :: ds) F = ∑ i ∈ Finset.range d, sumCfg ds (fun s => F (i :: s)) := rfl

theorem sumCfg_congr {ds : List Nat} {F G : List Nat → R} (h : ∀ s, IsCfg ds s → F s = G s) :
    sumCfg ds F = sumCfg ds G := by
  induction ds generalizing F G with
  | nil => exact h [] List.Forall₂.nil
  | cons d ds ih =>
    rw [sumCfg_cons, sumCfg_cons]
    refine Finset.sum_congr rfl fun i hi => ih fun s hs => h _ ?_
    exact List.Forall₂.cons (Finset.mem_range.1 hi) hs

theorem sumCfg_add (ds : List Nat) (F G : List Nat → R) :
    sumCfg ds (fun s => F s + G s) = sumCfg ds F + sumCfg ds G := by
  induction ds generalizing F G with
  | nil => rfl
  | cons d ds ih => simp only [sumCfg_cons, ih, Finset.sum_add_distrib]

@[simp] theorem sumCfg_zero (ds : List Nat) : sumCfg ds (fun _ => (0 : R)) = 0 := by
  induction ds with
  | nil => rfl
  | cons d ds ih => simp [sumCfg_cons, ih]

theorem sumCfg_sum {ι : Type} (ds : List Nat) (S : Finset ι) (F : ι → List Nat → R) :
    sumCfg ds (fun s => ∑ i ∈ S, F i s) = ∑ i ∈ S, sumCfg ds (F i) := by
  classical
  induction S using Finset.induction_on with
  | empty => simp
  | insert a S ha ih => simp only [Finset.sum_insert ha, sumCfg_add, ih]

theorem sumCfg_append (ds es : List Nat) (F : List Nat → R) :
    sumCfg (ds ++ es) F = sumCfg ds (fun s => sumCfg es (fun t => F (s ++ t))) := by
  induction ds generalizing F with
  | nil => rfl
  | cons d ds ih => simp only [List.cons_append, sumCfg_cons, ih]

theorem sumCfg_single (d : Nat) (F : List Nat → R) :
    sumCfg [d] F = ∑ i ∈ Finset.range d, F [i] := rfl

theorem sumCfg_comm (ds es : List Nat) (F : List Nat → List Nat → R) :
    sumCfg ds (fun s => sumCfg es (fun t => F s t))
      = sumCfg es (fun t => sumCfg ds (fun s => F s t)) := by
  induction ds generalizing F with
  | nil => rfl
  | cons d ds ih => simp only [sumCfg_cons, ih, sumCfg_sum]

end sumCfg

theorem sumCfg_mul_left [CommRing R] (ds : List Nat) (c : R) (F : List Nat → R) :
    sumCfg ds (fun s => c * F s) = c * sumCfg ds F := by
  induction ds generalizing F with
  | nil => rfl
  | cons d ds ih => simp only [sumCfg_cons, ih, Finset.mul_sum]

theorem sumCfg_mul_right [CommRing R] (ds : List Nat) (c : R) (F : List Nat → R) :
    sumCfg ds (fun s => F s * c) = sumCfg ds F * c := by
  induction ds generalizing F with
  | nil => rfl
  | cons d ds ih => simp only [sumCfg_cons, ih, Finset.sum_mul]

theorem sumCfg_star [CommRing R] [StarRing R] (ds : List Nat) (F : List Nat → R) :
    star (sumCfg ds F) = sumCfg ds (fun s => star (F s)) := by
  induction ds generalizing F with
  | nil => rfl
  | cons d ds ih => simp only [sumCfg_cons, ih, star_sum]

theorem IsCfg.length {ds s : List Nat} (h : IsCfg ds s) : s.length = ds.length :=
  List.Forall₂.length_eq h

theorem isCfg_cons {d i : Nat} {ds s : List Nat} :
    IsCfg (d :: ds) (i :: s) ↔ i < d ∧ IsCfg ds s := List.forall₂_cons

theorem isCfg_append {ds es s t : List Nat} (h1 : IsCfg ds s) (h2 : IsCfg es t) :
    IsCfg (ds ++ es) (s ++ t) := List.rel_append h1 h2

section path
variable [CommRing R]

theorem path_cons (A : Tensor R) (As : List (Tensor R)) (i : Nat) (s : List Nat) (a b : Nat) :
    path (A :: As) (i :: s) a b
      = ∑ c ∈ Finset.range (A.dim 2), A.get [a, i, c] * path As s c b := rfl

theorem path_nil (a b : Nat) : path ([] : List (Tensor R)) [] a b = if a = b then 1 else 0 := rfl

theorem WF.length {a b : Nat} {ψ : List (Tensor R)} {ds : List Nat} (h : WF a ψ ds b) :
    ψ.length = ds.length := by
  induction h with
  | nil => rfl
  | cons _ _ _ _ _ ih => simp [ih]

theorem WF.pos_right {a b : Nat} {ψ : List (Tensor R)} {ds : List Nat} (h : WF a ψ ds b)
    (ha : 0 < a) : 0 < b := by
  induction h with
  | nil => exact ha
  | cons _ _ _ hc _ ih => exact ih hc

theorem WF.append {a b c : Nat} {ψ φ : List (Tensor R)} {ds es : List Nat} (h : WF a ψ ds b)
    (h' : WF b φ es c) : WF a (ψ ++ φ) (ds ++ es) c := by
  induction h with
  | nil => exact h'
  | cons h1 h2 h3 h4 _ ih => exact WF.cons h1 h2 h3 h4 (ih h')

theorem WF.single {a d c : Nat} {A : Tensor R} (h : A.dims = [a, d, c]) (ha : 0 < a) (hd : 0 < d)
    (hc : 0 < c) : WF a [A] [d] c := WF.cons h ha hd hc (WF.nil c)

/-- split a well-formed product at any point -/
theorem WF.split {a b : Nat} {ψ φ : List (Tensor R)} {ds : List Nat} (h : WF a (ψ ++ φ) ds b) :
    ∃ ds₁ ds₂ c, ds = ds₁ ++ ds₂ ∧ WF a ψ ds₁ c ∧ WF c φ ds₂ b := by
  induction ψ generalizing a ds with
  | nil => exact ⟨[], ds, a, rfl, WF.nil a, h⟩
  | cons A As ih =>
    cases h with
    | cons h1 h2 h3 h4 h5 =>
      obtain ⟨ds₁, ds₂, c, rfl, hl, hr⟩ := ih h5
      exact ⟨_ :: ds₁, ds₂, c, rfl, WF.cons h1 h2 h3 h4 hl, hr⟩

theorem path_append {a b c : Nat} {ψ φ : List (Tensor R)} {ds : List Nat} {s t : List Nat}
    (h : WF a ψ ds c) (hs : s.length = ψ.length) {x : Nat} (hx : x < a) :
    path (ψ ++ φ) (s ++ t) x b = ∑ y ∈ Finset.range c, path ψ s x y * path φ t y b := by
  induction h generalizing s x with
  | nil a =>
    have : s = [] := by simpa using hs
    subst this
    simp only [List.nil_append, path_nil, ite_mul, one_mul, zero_mul]
    rw [Finset.sum_ite_eq]; simp [hx]
  | @cons a d c b' A As ds h1 h2 h3 h4 h5 ih =>
    cases s with
    | nil => simp at hs
    | cons i s =>
      simp only [List.cons_append, path_cons]
      simp only [Finset.sum_mul]
      rw [Finset.sum_comm]
      refine Finset.sum_congr rfl fun e he => ?_
      have hdim : A.dim 2 = c := by simp [dim, h1]
      rw [hdim, Finset.mem_range] at he
      rw [ih (by simpa using hs) he, Finset.mul_sum]
      exact Finset.sum_congr rfl fun y _ => by ring

theorem path_single {A : Tensor R} {i x y a d c : Nat} (h : A.dims = [a, d, c]) (hy : y < c) :
    path [A] [i] x y = A.get [x, i, y] := by
  have hdim : A.dim 2 = c := by simp [dim, h]
  simp only [path_cons, path_nil, mul_ite, mul_one, mul_zero]
  rw [Finset.sum_ite_eq', hdim]; simp [hy]

/-- replacing tensors by others with the same in-range entries does not change path sums -/
theorem dim0_of {A : Tensor R} {a d c : Nat} (h : A.dims = [a, d, c]) : A.dim 0 = a := by
  simp [dim, h]
theorem dim1_of {A : Tensor R} {a d c : Nat} (h : A.dims = [a, d, c]) : A.dim 1 = d := by
  simp [dim, h]
theorem dim2_of {A : Tensor R} {a d c : Nat} (h : A.dims = [a, d, c]) : A.dim 2 = c := by
  simp [dim, h]

theorem amp_of_WF {a b : Nat} {ψ : List (Tensor R)} {ds : List Nat} (h : WF a ψ ds b) (hne : ψ ≠ [])
    (s : List Nat) : amp ψ s = ∑ x ∈ Finset.range a, path ψ s x x := by
  cases h with
  | nil => exact absurd rfl hne
  | cons h1 _ _ _ _ => simp [amp, dim, h1]

end path
end MPS
