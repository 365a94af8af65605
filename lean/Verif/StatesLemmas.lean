import Verif.MPSLemmas3
import Verif.StatesModel
import Mathlib.Tactic.IntervalCases

set_option linter.unusedSectionVars false
set_option linter.unusedSimpArgs false

/-! # Helper lemmas: constructors, reference states, reduced density matrix -/

namespace MPS
open Tensor
variable {R : Type} [CommRing R]

/-- build well-formedness from the shapes of the tensors -/
theorem WF_of_get {ψ : List (Tensor R)} {ds : List Nat} (B : Nat → Nat) (hl : ψ.length = ds.length)
    (hB : ∀ k, k ≤ ds.length → 0 < B k) (hd : ∀ d ∈ ds, 0 < d)
    (h : ∀ k (h1 : k < ψ.length), (ψ[k]).dims = [B k, ds.getD k 0, B (k + 1)]) :
    WF (B 0) ψ ds (B ds.length) := by
  induction ds generalizing ψ B with
  | nil =>
    have : ψ = [] := List.length_eq_zero_iff.1 (by simpa using hl)
    subst this; exact WF.nil _
  | cons d ds ih =>
    cases ψ with
    | nil => simp at hl
    | cons A As =>
      have := ih (ψ := As) (fun k => B (k + 1)) (by simpa using hl)
        (fun k hk => hB _ (by simp; omega)) (fun d hd' => hd d (by simp [hd']))
        (fun k hk => by have := h (k + 1) (by simpa using hk); simpa using this)
      refine WF.cons (c := B 1) ?_ (hB 0 (by simp)) (hd d (by simp)) (hB 1 (by simp)) this
      have := h 0 (by simp)
      simpa only [List.getElem_cons_zero, List.getD_cons_zero] using this

/-- the bond dimensions promised by the constructors -/
def presizeBond (l D : Nat) (periodic : Bool) (k : Nat) : Nat :=
  if periodic = true ∨ (0 < k ∧ k < l) then D else 1

theorem presizeDims_eq {l d D k : Nat} {p : Bool} (hk : k < l) :
    presizeDims l d D p k = [presizeBond l D p k, d, presizeBond l D p (k + 1)] := by
  have h1 : (((k : Int) < (l : Int) - 1) ↔ k + 1 < l) := by omega
  cases p <;> simp [presizeDims, presizeBond, hk, h1]

theorem presizeMPS_get {pd : List Nat} {D : Nat} {p : Bool} {ψ : List (Tensor R)}
    (h : presizeMPS pd D p = some ψ) :
    0 < D ∧ (∀ d ∈ pd, 0 < d) ∧ ψ.length = pd.length ∧
    ∀ k (h1 : k < ψ.length), ψ[k] = zeros
      [presizeBond pd.length D p k, pd.getD k 0, presizeBond pd.length D p (k + 1)] := by
  unfold presizeMPS at h
  split at h
  case isFalse => simp at h
  case isTrue hc =>
    obtain rfl := Option.some.inj h
    refine ⟨hc.1, hc.2, by simp, fun k h1 => ?_⟩
    have hk : k < pd.length := by simpa using h1
    simp [presizeDims_eq hk, List.getElem?_eq_getElem hk]

theorem presizeBond_pos {l D k : Nat} {p : Bool} (hD : 0 < D) : 0 < presizeBond l D p k := by
  unfold presizeBond; split <;> omega

theorem shape_isMPS {pd : List Nat} {D : Nat} {p : Bool} {ψ : List (Tensor R)} (hne : pd ≠ [])
    (hD : 0 < D) (hd : ∀ d ∈ pd, 0 < d) (hl : ψ.length = pd.length)
    (hs : ∀ k (h1 : k < ψ.length), (ψ[k]).dims =
      [presizeBond pd.length D p k, pd.getD k 0, presizeBond pd.length D p (k + 1)]) :
    IsMPS pd ψ := by
  have h0 : ψ ≠ [] := by intro h; subst h; simp at hl; exact hne (List.length_eq_zero_iff.1 hl.symm)
  have := WF_of_get (presizeBond pd.length D p) hl (fun k _ => presizeBond_pos hD) hd hs
  refine ⟨h0, presizeBond pd.length D p 0, ?_⟩
  have he : presizeBond pd.length D p pd.length = presizeBond pd.length D p 0 := by
    unfold presizeBond; simp
  rw [he] at this
  exact this

/-! ### GHZ -/

/-- middle tensor of the GHZ state -/
def ghzMid : Tensor R := ⟨[2, 2, 2], fun j => if j = [1, 1, 1] then 1 else if j = [0, 0, 0] then 1 else 0⟩
def ghzFirst (w : R) (p : Nat) : Tensor R :=
  ⟨[p + 1, 2, 2], fun j => if j = [p, 1, 1] then w else if j = [0, 0, 0] then w else 0⟩
def ghzLast (w : R) (p : Nat) : Tensor R :=
  ⟨[2, 2, p + 1], fun j => if j = [1, 1, p] then w else if j = [0, 0, 0] then w else 0⟩

theorem ghzWith_eq (v w : R) (m : Nat) (p : Bool) :
    ghzWith v w (m + 2) p = some (ghzFirst w p.toNat :: (List.replicate m ghzMid ++ [ghzLast w p.toNat])) := by
  have hpre : (presizeMPS (List.replicate (m + 2) 2) 2 p : Option (List (Tensor R))) =
      some ((List.replicate (m + 2) 2).mapIdx fun i d => zeros (presizeDims (List.replicate (m + 2) 2).length d 2 p i)) := by
    unfold presizeMPS; rw [if_pos]; simp
  simp only [ghzWith, newMPS, hpre]
  simp only [Option.map_some, if_neg (show ¬ (2 = 0) by omega), if_neg (show ¬ (m + 2 = 1) by omega)]
  congr 1
  apply List.ext_getElem
  · simp
  · intro k h1 h2
    have hk : k < m + 2 := by simpa using h1
    have hpd : presizeDims (m + 2) 2 2 p k = [presizeBond (m+2) 2 p k, 2, presizeBond (m+2) 2 p (k + 1)] := presizeDims_eq hk
    simp only [List.getElem_mapIdx, List.getElem_replicate, List.length_replicate, hpd]
    rcases Nat.eq_zero_or_pos k with rfl | hk0
    · cases p <;> simp [ghzSite, ghzFirst, setAt, fillZeros, zeros, presizeBond]
    · obtain ⟨k, rfl⟩ := Nat.exists_eq_succ_of_ne_zero (by omega : k ≠ 0)
      by_cases hkm : k < m
      · rw [List.getElem_cons_succ, List.getElem_append_left (by simpa using hkm)]
        have : k + 1 ≠ m + 2 - 1 := by omega
        have h3 : k + 1 < m + 2 := by omega
        have h4 : k ≠ m := by omega
        cases p <;> simp [ghzSite, ghzMid, setAt, fillZeros, zeros, presizeBond, this, h3, h4, hkm]
      · have : k = m := by omega
        subst this
        rw [List.getElem_cons_succ, List.getElem_append_right (by simp)]
        cases p <;> simp [ghzSite, ghzLast, setAt, fillZeros, zeros, presizeBond]

theorem path_ghzMid (m : Nat) (s : List Nat) (hs : IsCfg (List.replicate m 2) s) (a b : Nat)
    (ha : a < 2) :
    path (List.replicate m (ghzMid : Tensor R)) s a b
      = if a = b ∧ s = List.replicate m a then 1 else 0 := by
  induction m generalizing s a with
  | zero =>
    cases s with
    | nil => simp [path_nil]
    | cons i s => cases hs
  | succ m ih =>
    cases s with
    | nil => cases hs
    | cons i s =>
      rw [List.replicate_succ] at hs
      have h := isCfg_cons.1 hs
      rw [List.replicate_succ, path_cons]
      have h2 : (ghzMid : Tensor R).dim 2 = 2 := by simp [dim, ghzMid]
      rw [h2, Finset.sum_range_succ, Finset.sum_range_one, ih s h.2 0 (by omega), ih s h.2 1 (by omega)]
      have hi := h.1
      interval_cases a <;> interval_cases i <;> simp [ghzMid, List.replicate_succ]

/-! ### cluster -/

def clMid (v : R) : Tensor R :=
  ⟨[2, 2, 2], fun j => if j = [1, 1, 1] then -v else if j = [0, 1, 1] then v
    else if j = [1, 0, 0] then v else if j = [0, 0, 0] then v else 0⟩
def clFirst (v : R) : Tensor R :=
  ⟨[1, 2, 2], fun j => if j = [0, 0, 0] then v else if j = [0, 1, 1] then v else 0⟩
def clLast (v : R) : Tensor R :=
  ⟨[2, 2, 1], fun j => if j = [1, 1, 0] then -v else if j = [1, 0, 0] then v
    else if j = [0, 1, 0] then v else if j = [0, 0, 0] then v else 0⟩

theorem cluster_eq (v : R) (m : Nat) :
    ((newMPS (m + 2) 2 2 false).map fun out => out.mapIdx (clusterSite v (m + 2)))
      = some (clFirst v :: (List.replicate m (clMid v) ++ [clLast v])) := by
  have hpre : (presizeMPS (List.replicate (m + 2) 2) 2 false : Option (List (Tensor R))) =
      some ((List.replicate (m + 2) 2).mapIdx fun i d => zeros (presizeDims (List.replicate (m + 2) 2).length d 2 false i)) := by
    unfold presizeMPS; rw [if_pos]; simp
  simp only [newMPS, hpre]
  simp only [Option.map_some, if_neg (show ¬ (2 = 0) by omega)]
  congr 1
  apply List.ext_getElem
  · simp
  · intro k h1 h2
    have hk : k < m + 2 := by simpa using h1
    have hpd : presizeDims (m + 2) 2 2 false k = [presizeBond (m+2) 2 false k, 2, presizeBond (m+2) 2 false (k + 1)] := presizeDims_eq hk
    simp only [List.getElem_mapIdx, List.getElem_replicate, List.length_replicate, hpd]
    rcases Nat.eq_zero_or_pos k with rfl | hk0
    · simp [clusterSite, clFirst, setAt, fillZeros, zeros, presizeBond]
    · obtain ⟨k, rfl⟩ := Nat.exists_eq_succ_of_ne_zero (by omega : k ≠ 0)
      by_cases hkm : k < m
      · rw [List.getElem_cons_succ, List.getElem_append_left (by simpa using hkm)]
        have : k + 1 ≠ m + 2 - 1 := by omega
        have h3 : k + 1 < m + 2 := by omega
        have h4 : k ≠ m := by omega
        simp [clusterSite, clMid, setAt, fillZeros, zeros, presizeBond, this, h3, h4, hkm]
      · have : k = m := by omega
        subst this
        rw [List.getElem_cons_succ, List.getElem_append_right (by simp)]
        simp [clusterSite, clLast, setAt, fillZeros, zeros, presizeBond]

/-- `∏_k (-1)^{s_k s_{k+1}}` -/
def czSign : List Nat → R
  | a :: b :: s => (-1) ^ (a * b) * czSign (b :: s)
  | _ => 1

theorem path_clTail (v : R) (m : Nat) (s : List Nat) (hs : IsCfg (List.replicate (m + 1) 2) s)
    (a : Nat) (ha : a < 2) :
    path (List.replicate m (clMid v) ++ [clLast v]) s a 0 = v ^ (m + 1) * czSign (a :: s) := by
  induction m generalizing s a with
  | zero =>
    cases s with
    | nil => cases hs
    | cons i s =>
      have h := isCfg_cons.1 hs
      have : s = [] := by cases s with
        | nil => rfl
        | cons _ _ => cases h.2
      subst this
      have hi := h.1
      simp only [List.replicate_zero, List.nil_append]
      rw [path_single (a := 2) (d := 2) (c := 1) rfl (by omega)]
      interval_cases a <;> interval_cases i <;> simp [clLast, czSign]
  | succ m ih =>
    cases s with
    | nil => cases hs
    | cons i s =>
      have h := isCfg_cons.1 hs
      rw [List.replicate_succ, List.cons_append, path_cons]
      have h2 : (clMid v : Tensor R).dim 2 = 2 := by simp [dim, clMid]
      rw [h2, Finset.sum_range_succ, Finset.sum_range_one, ih s h.2 0 (by omega),
        ih s h.2 1 (by omega)]
      have hi := h.1
      interval_cases a <;> interval_cases i <;> simp [clMid, czSign] <;> ring

/-! ### density matrix -/

section Star
variable [StarRing R]

theorem densityContract_get {ML MR A : Tensor R} {a1 b1 a2 b2 a3 b3 i j d : Nat}
    (hL : ML.dims = [a1, b1, a2, b2]) (hR : MR.dims = [a3, b3, a1, b1]) (hA : A.dims = [a2, d, a3])
    (hab2 : a2 = b2) (hab3 : a3 = b3) (hi : i < d) (hj : j < d) :
    (densityContract ML MR A).dims = [d, d] ∧
    (densityContract ML MR A).get [i, j] =
      ∑ x3 ∈ Finset.range a3, ∑ x2 ∈ Finset.range a2,
        (∑ y3 ∈ Finset.range b3, ∑ y2 ∈ Finset.range b2, star (A.get [y2, j, y3]) *
          ∑ y1 ∈ Finset.range b1, ∑ x1 ∈ Finset.range a1,
            MR.get [x3, y3, x1, y1] * ML.get [x1, y1, x2, y2]) * A.get [x2, i, x3] := by
  subst hab2 hab3
  have e1 : MR.dim 2 = a1 := by simp [dim, hR]
  have e2 : MR.dim 3 = b1 := by simp [dim, hR]
  have e3 : ML.dim 2 = a2 := by simp [dim, hL]
  have e4 : ML.dim 3 = a2 := by simp [dim, hL]
  have e5 : MR.dim 0 = a3 := by simp [dim, hR]
  have e6 : MR.dim 1 = a3 := by simp [dim, hR]
  have e7 : A.dim 1 = d := by simp [dim, hA]
  have hE : ∀ y2 y3 x2 x3, x3 < a3 → y3 < a3 → x2 < a2 → y2 < a2 →
      (permute (foldin (reshape MR [a3, a3, a1 * b1]) (-1) (reshape ML [a1 * b1, a2, a2]) 0) 0 3).get
        [y2, y3, x2, x3] = ∑ y1 ∈ Finset.range b1, ∑ x1 ∈ Finset.range a1,
            MR.get [x3, y3, x1, y1] * ML.get [x1, y1, x2, y2] := by
    intro y2 y3 x2 x3 h3 h3' h2 h2'
    simp only [permute, foldin, reshape_dims, swapIdx]
    simp
    rw [sum_range_mul]
    refine Finset.sum_congr rfl fun y1 hy1 => Finset.sum_congr rfl fun x1 hx1 => ?_
    rw [Finset.mem_range] at hy1 hx1
    rw [reshape_get (A := MR) (idx := [x3, y3, x1, y1]), reshape_get (A := ML) (idx := [x1, y1, x2, y2])]
    · simp [hL, *]
    · simp only [hL, flat]; ring
    · simp [hR, *]
    · simp only [hR, flat]; ring
  have hEd : (permute (foldin (reshape MR [a3, a3, a1 * b1]) (-1) (reshape ML [a1 * b1, a2, a2]) 0) 0 3).dims
      = [a2, a3, a2, a3] := by
    simp [permute, foldin, swapIdx]
  have hAp : ∀ i x2 x3, i < d → x2 < a2 → x3 < a3 →
      (reshape (permute A 0 1) [d, a2 * a3]).get [i, x2 + a2 * x3] = A.get [x2, i, x3] := by
    intro i x2 x3 hi h2 h3
    rw [reshape_get (idx := [i, x2, x3])]
    · simp [permute, swapIdx, hA]
    · simp [permute, swapIdx, hA, *]
    · simp only [permute, swapIdx, hA, flat]; simp [flat]
  simp only [densityContract, e1, e2, e3, e4, e5, e6, e7]
  constructor
  · simp [transpose, permute, swapIdx, fold, foldc]
  · set E0 := permute (foldin (reshape MR [a3, a3, a1 * b1]) (-1) (reshape ML [a1 * b1, a2, a2]) 0) 0 3
      with hE0
    simp only [transpose, permute, swapIdx, fold, foldc, conj_dims, reshape_dims]
    simp
    rw [sum_range_mul]
    refine Finset.sum_congr rfl fun x3 hx3 => Finset.sum_congr rfl fun x2 hx2 => ?_
    rw [Finset.mem_range] at hx3 hx2
    have := hAp i x2 x3 hi hx2 hx3
    simp only [permute, swapIdx] at this
    simp at this
    rw [this, sum_range_mul]
    congr 1
    refine Finset.sum_congr rfl fun y3 hy3 => Finset.sum_congr rfl fun y2 hy2 => ?_
    rw [Finset.mem_range] at hy3 hy2
    have := hAp j y2 y3 hj hy2 hy3
    simp only [permute, swapIdx] at this
    simp at this
    rw [this, reshape_get (A := E0) (idx := [y2, y3, x2, x3]), hE _ _ _ _ hx3 hy3 hx2 hy2]
    · rw [hEd]; simp [hy2, hy3, hx2, hx3]
    · simp only [hEd, flat]; ring

end Star
end MPS
