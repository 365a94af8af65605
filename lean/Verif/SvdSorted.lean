import Verif.SvdExists
import Mathlib.Data.Fin.Tuple.Sort
import Mathlib.Data.List.GetD
import Mathlib.Algebra.BigOperators.Fin

/-!
# Singular value decompositions with ordered singular values
-/

set_option linter.unusedSectionVars false
set_option linter.unusedSimpArgs false

namespace MPS
open Tensor
variable {K : Type} [RCLike K]

/-- the singular values are not negative and come in descending order, as LAPACK returns them -/
def SortedSvd (svd : Tensor K → SvdRes K) : Prop :=
  ∀ A, (∀ x ∈ (svd A).s, 0 ≤ x) ∧ ∀ i j, i ≤ j → (svd A).s.getD j 0 ≤ (svd A).s.getD i 0

/-- the permutation which orders the singular values -/
noncomputable def sortPerm (r : SvdRes K) : Equiv.Perm (Fin r.s.length) := Tuple.sort fun k : Fin r.s.length => - r.s.getD k 0

/-- the same permutation of indices -/
noncomputable def sortIdx (r : SvdRes K) (k : Nat) : Nat := if h : k < r.s.length then sortPerm r ⟨k, h⟩ else k

/-- a singular value decomposition, its values reordered -/
noncomputable def sortRes (r : SvdRes K) : SvdRes K :=
  ⟨⟨r.U.dims, fun I => r.U.get [I.getD 0 0, sortIdx r (I.getD 1 0)]⟩, List.ofFn fun k : Fin r.s.length => r.s.getD (sortPerm r k) 0,
    ⟨r.V.dims, fun I => r.V.get [sortIdx r (I.getD 0 0), I.getD 1 0]⟩⟩

theorem sortRes_isSVD {A : Tensor K} {m n : Nat} {r : SvdRes K} (h : IsSVD A m n r) : IsSVD A m n (sortRes r) := by
  obtain ⟨hU, hs, hV, hp, iU, iV⟩ := h
  have hpk : ∀ k : Fin r.s.length, sortIdx r k = sortPerm r k := by intro k; unfold sortIdx; simp
  unfold sortRes
  generalize sortIdx r = p at *
  generalize sortPerm r = σ at *
  have hplt : ∀ k, k < min m n → p k < min m n := by
    intro k hk
    rw [← hs] at hk ⊢
    have := hpk ⟨k, hk⟩
    rw [this]; exact (σ ⟨k, hk⟩).2
  have hinj : ∀ k k', k < min m n → k' < min m n → (p k = p k' ↔ k = k') := by
    intro k k' hk hk'
    rw [← hs] at hk hk'
    have h1 := hpk ⟨k, hk⟩
    have h2 := hpk ⟨k', hk'⟩
    rw [h1, h2, Fin.val_inj, σ.injective.eq_iff]; simp
  refine ⟨hU, by simpa using hs, hV, ?_, ?_, ?_⟩
  · intro i j hi hj
    rw [← hp i j hi hj, ← hs]
    rw [← Fin.sum_univ_eq_sum_range (fun k => r.U.get [i, k] * ((r.s.getD k 0 : ℝ) : K) * r.V.get [k, j]),
      ← Equiv.sum_comp σ]
    refine Eq.trans (Fin.sum_univ_eq_sum_range (fun k => r.U.get [[i, k].getD 0 0, p ([i, k].getD 1 0)] *
        (((List.ofFn fun k : Fin r.s.length => r.s.getD (σ k) 0).getD k 0 : ℝ) : K) * r.V.get [p ([k, j].getD 0 0), [k, j].getD 1 0]) _).symm ?_
    refine Finset.sum_congr rfl fun k _ => ?_
    rw [List.getD_eq_getElem _ _ (by simp)]
    simp [hpk]
  · intro k k' hk hk'
    have := iU (p k) (p k') (hplt k hk) (hplt k' hk')
    simp only [hinj k k' hk hk'] at this
    exact this
  · intro k k' hk hk'
    have := iV (p k) (p k') (hplt k hk) (hplt k' hk')
    simp only [hinj k k' hk hk'] at this
    exact this

theorem sortRes_desc {r : SvdRes K} (h0 : ∀ x ∈ r.s, 0 ≤ x) :
    (∀ x ∈ (sortRes r).s, 0 ≤ x) ∧ ∀ i j, i ≤ j → (sortRes r).s.getD j 0 ≤ (sortRes r).s.getD i 0 := by
  have hg : ∀ k : Nat, 0 ≤ r.s.getD k 0 := by
    intro k
    rcases Nat.lt_or_ge k r.s.length with h | h
    · rw [List.getD_eq_getElem _ _ h]; exact h0 _ (List.getElem_mem h)
    · rw [List.getD_eq_default _ _ h]
  have hnn : ∀ x ∈ (sortRes r).s, 0 ≤ x := by
    intro x hx
    obtain ⟨k, rfl⟩ := (List.mem_ofFn' _ _).1 hx
    exact hg _
  refine ⟨hnn, ?_⟩
  intro i j hij
  have hlen : (sortRes r).s.length = r.s.length := by simp [sortRes]
  rcases Nat.lt_or_ge j r.s.length with h | h
  · have hi : i < r.s.length := by omega
    rw [List.getD_eq_getElem _ _ (by omega), List.getD_eq_getElem _ _ (by omega)]
    have := Tuple.monotone_sort (fun k : Fin r.s.length => - r.s.getD k 0) (show (⟨i, hi⟩ : Fin _) ≤ ⟨j, h⟩ from hij)
    simp only [Function.comp] at this
    simp only [sortRes, sortPerm, List.getElem_ofFn]
    linarith
  · rw [List.getD_eq_default _ _ (by omega)]
    rcases Nat.lt_or_ge i r.s.length with hi | hi
    · rw [List.getD_eq_getElem _ _ (by omega)]; exact hnn _ (List.getElem_mem _)
    · rw [List.getD_eq_default _ _ (by omega)]

theorem exists_goodSvd_sorted : ∃ svd : Tensor K → SvdRes K, GoodSvd svd ∧ SortedSvd svd := by
  obtain ⟨svd, hg, h0⟩ := exists_goodSvd_nonneg (K := K)
  exact ⟨fun A => sortRes (svd A), fun A m n h1 h2 h3 => sortRes_isSVD (hg A m n h1 h2 h3), fun A => sortRes_desc (h0 A)⟩

end MPS
