import Verif.Props.ITebdProps5
import Mathlib.Data.List.GetD

/-!
# C89: product states of the infinite chain
-/

set_option linter.unusedSectionVars false
set_option linter.unusedSimpArgs false

namespace MPS.Props
open MPS Tensor ITebd
variable {K : Type} [RCLike K]

/-- squared norm of a vector -/
noncomputable def vecSq (A : Tensor K) (d : Nat) : ℝ := ∑ i ∈ Finset.range d, ‖A.get [i]‖ ^ 2

theorem prodTensor_spec {A : Tensor K} {d : Nat} (hA : A.dims = [d]) : (prodTensor A).dims = [1, d, 1] ∧
    ∀ i < d, (prodTensor A).get [0, i, 0] = ((1 / Real.sqrt (vecSq A d) : ℝ) : K) * A.get [i] := by
  have hd : A.dim 0 = d := by simp [dim, hA, nrm]
  have hf : frob A = Real.sqrt (vecSq A d) := by
    unfold frob vecSq
    congr 1
    have hs : A.size = d := by simp [size, hA]
    rw [hs]
    refine Finset.sum_congr rfl fun i hi => ?_
    simp [lin, hA, unflat, Nat.mod_eq_of_lt (Finset.mem_range.1 hi)]
  refine ⟨by rw [prodTensor, reshape_dims, hd], fun i hi => ?_⟩
  unfold prodTensor
  rw [hd, hf]
  apply reshape_get (idx := [i])
  · show InB A.dims [i]
    rw [hA]; exact .cons hi .nil
  · show _ = flat A.dims [i]
    rw [hA]; simp [flat]

theorem scale_one {A : Tensor K} : scale A (-1) oneVec = A := by
  unfold scale oneVec
  simp

/-- the vector of a site, normalised -/
noncomputable def siteVec (A B : Tensor K) (d e : Nat) (k : Int) (i : Nat) : K :=
  if k % 2 = 1 then ((1 / Real.sqrt (vecSq B e) : ℝ) : K) * B.get [i] else ((1 / Real.sqrt (vecSq A d) : ℝ) : K) * A.get [i]

theorem siteVec_norm {A B : Tensor K} {d e : Nat} (hA : 0 < vecSq A d) (hB : 0 < vecSq B e) (k : Int) :
    ∑ i ∈ Finset.range (if k % 2 = 1 then e else d), siteVec A B d e k i * star (siteVec A B d e k i) = 1 := by
  have key : ∀ (C : Tensor K) (n : Nat), 0 < vecSq C n → ∑ i ∈ Finset.range n, (((1 / Real.sqrt (vecSq C n) : ℝ) : K) * C.get [i]) *
      star (((1 / Real.sqrt (vecSq C n) : ℝ) : K) * C.get [i]) = 1 := by
    intro C n hC
    have : ∀ i ∈ Finset.range n, (((1 / Real.sqrt (vecSq C n) : ℝ) : K) * C.get [i]) * star (((1 / Real.sqrt (vecSq C n) : ℝ) : K) * C.get [i]) =
        ((1 / vecSq C n * ‖C.get [i]‖ ^ 2 : ℝ) : K) := by
      intro i _
      rw [RCLike.star_def, RCLike.mul_conj, norm_mul, RCLike.norm_ofReal, ← RCLike.ofReal_pow, mul_pow, sq_abs, div_pow, Real.sq_sqrt hC.le]
      norm_num
    rw [Finset.sum_congr rfl this, ← RCLike.ofReal_sum, ← Finset.mul_sum, ← vecSq, one_div_mul_cancel hC.ne', RCLike.ofReal_one]
  unfold siteVec
  split
  · exact key B e hB
  · exact key A d hA

/-- C89: the constructor from one or two vectors -/
theorem C89_product {A B : Tensor K} {d e : Nat} (hA : A.dims = [d]) (hB : B.dims = [e]) (hA0 : 0 < vecSq A d) (hB0 : 0 < vecSq B e) :
    ∃ psi, State.product A B = some psi ∧ (A = B → State.product1 A = some psi) ∧ Ok psi ∧ psi.canonical = true ∧ RightCanonical psi ∧ LeftCanonical psi ∧
      (∀ k, (psi.matrix k).dim 0 = 1) ∧ (∀ k, (psi.matrix k).dim 1 = if k % 2 = 1 then e else d) ∧
      ∀ (p : Int) (n : Nat) (s : List Nat), IsCfg (winDims psi p n) s →
        winAmp psi p n 0 0 s = ∏ k ∈ Finset.range n, siteVec A B d e (p + k) (s.getD k 0) := by
  obtain ⟨a1, a2⟩ := prodTensor_spec hA
  obtain ⟨b1, b2⟩ := prodTensor_spec hB
  have hd : 0 < d := by
    rcases Nat.eq_zero_or_pos d with h | h
    · rw [h] at hA0; simp [vecSq] at hA0
    · exact h
  have he : 0 < e := by
    rcases Nat.eq_zero_or_pos e with h | h
    · rw [h] at hB0; simp [vecSq] at hB0
    · exact h
  set psi : State K := ⟨prodTensor A, prodTensor B, oneVec, oneVec, prodTensor A, prodTensor B, true⟩ with hpsi
  have hok : Ok psi := by
    refine ⟨?_, ?_, ?_, ?_, ?_, ?_, ?_, ?_, ?_, ?_, ?_⟩
    · show (prodTensor A).dims.length = 3; rw [a1]; rfl
    · show (prodTensor B).dims.length = 3; rw [b1]; rfl
    · show ∀ x ∈ (prodTensor A).dims, 0 < x; rw [a1]; simp [hd]
    · show ∀ x ∈ (prodTensor B).dims, 0 < x; rw [b1]; simp [he]
    · show (prodTensor B).dim 0 = (prodTensor A).dim 2; rw [dim0_of b1, dim2_of a1]
    · show (prodTensor A).dim 0 = (prodTensor B).dim 2; rw [dim0_of a1, dim2_of b1]
    · show oneVec.dims = [(prodTensor A).dim 2]; rw [dim2_of a1]; rfl
    · show oneVec.dims = [(prodTensor B).dim 2]; rw [dim2_of b1]; rfl
    · intro a; exact ⟨star_one K, star_one K⟩
    · exact scale_one.symm
    · exact scale_one.symm
  have m0 : ∀ k, (psi.matrix k).dim 0 = 1 := by
    intro k; unfold State.matrix; split
    · exact dim0_of b1
    · exact dim0_of a1
  have m1 : ∀ k, (psi.matrix k).dim 1 = if k % 2 = 1 then e else d := by
    intro k; unfold State.matrix; split
    · exact dim1_of b1
    · exact dim1_of a1
  have hlv : ∀ k i, (psi.leftVector k).get i = 1 := by
    intro k i; unfold State.leftVector; split <;> rfl
  have hsd : ∀ k, (siteT psi k).dim 2 = 1 := by
    intro k
    have := hok.siteT_dims k
    rw [m0 (k + 1)] at this
    exact dim2_of this
  have hst : ∀ k i, i < (if k % 2 = 1 then e else d) → (siteT psi k).get [0, i, 0] = siteVec A B d e k i := by
    intro k i hi
    have : siteT psi k = psi.matrix k := by
      unfold siteT State.rightVector State.matrix
      split <;> exact scale_one
    rw [this]
    unfold State.matrix siteVec
    split
    · rename_i h; rw [if_pos h] at hi; exact b2 i hi
    · rename_i h; rw [if_neg h] at hi; exact a2 i hi
  have hpath : ∀ (n : Nat) (p : Int) (s : List Nat), IsCfg (winDims psi p n) s →
      path (window psi p n) s 0 0 = ∏ k ∈ Finset.range n, siteVec A B d e (p + k) (s.getD k 0) := by
    intro n
    induction n with
    | zero => intro p s hs; cases hs; simp [window, path]
    | succ n ih =>
      intro p s hs
      rw [winDims_succ] at hs
      cases hs with
      | cons hi hs =>
        rename_i i s
        rw [window_succ, path_cons, hsd, Finset.sum_range_one, ih (p + 1) _ hs, Finset.prod_range_succ', mul_comm]
        rw [m1] at hi
        rw [hst p _ hi]
        congr 1
        · refine Finset.prod_congr rfl fun k _ => ?_
          rw [List.getD_cons_succ]
          congr 1; push_cast; ring
        · simp
  have hamp : ∀ (p : Int) (n : Nat) (s : List Nat), IsCfg (winDims psi p n) s →
      winAmp psi p n 0 0 s = ∏ k ∈ Finset.range n, siteVec A B d e (p + k) (s.getD k 0) := by
    intro p n s hs
    unfold winAmp
    rw [hlv, one_mul, hpath n p s hs]
  have wd : ∀ k : Int, winDims psi k 1 = [if k % 2 = 1 then e else d] := by
    intro k; rw [winDims_succ, m1]; rfl
  refine ⟨psi, ?_, ?_, hok, rfl, ?_, ?_, m0, m1, hamp⟩
  · unfold State.product; rw [if_pos (by simp [rank, hA, hB])]
  · intro hAB; unfold State.product1; rw [if_pos (by simp [rank, hA]), hpsi, hAB]
  · intro k a ha a' ha'
    rw [m0] at ha ha'
    obtain rfl : a = 0 := by omega
    obtain rfl : a' = 0 := by omega
    rw [m0, Finset.sum_range_one, if_pos rfl, wd, sumCfg_cons, ← siteVec_norm hA0 hB0 k]
    refine Finset.sum_congr rfl fun i hi => ?_
    have : path (window psi k 1) [i] 0 0 = siteVec A B d e k i := by
      rw [hpath 1 k [i] (by rw [wd]; exact .cons (Finset.mem_range.1 hi) .nil)]; simp
    simp only [sumCfg, this]
  · intro k b hb b' hb'
    rw [m0] at hb hb'
    obtain rfl : b = 0 := by omega
    obtain rfl : b' = 0 := by omega
    rw [m0, Finset.sum_range_one, if_pos rfl, wd, sumCfg_cons, hlv, one_pow, mul_one, ← siteVec_norm hA0 hB0 k]
    refine Finset.sum_congr rfl fun i hi => ?_
    have : winAmp psi k 1 0 0 [i] = siteVec A B d e k i := by
      rw [hamp k 1 [i] (by rw [wd]; exact .cons (Finset.mem_range.1 hi) .nil)]; simp
    simp only [sumCfg, this]
    ring

end MPS.Props
