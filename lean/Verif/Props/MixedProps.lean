import Verif.MixedModel
import Verif.Props.MPSProps
import Verif.Props.DmrgProps2

/-!
# C108: real states and complex operators
-/

set_option linter.unusedSectionVars false
set_option linter.unusedSimpArgs false

namespace MPS.Props
open Tensor MPS

/-- the wave function of a real state, as a complex function -/
noncomputable def ampC (ψ : List (Tensor ℝ)) : List Nat → ℂ := fun s => ((amp ψ s : ℝ) : ℂ)

theorem sumCfg_toC (ds : List Nat) (F : List Nat → ℝ) : ((sumCfg ds F : ℝ) : ℂ) = sumCfg ds fun s => (F s : ℂ) :=
  MPS.sumCfg_ofReal (K := ℂ) ds F

theorem castMPS_eq (a : List (Tensor ℝ)) : Mixed.castMPS a = a.map toC := by
  unfold Mixed.castMPS
  apply List.ext_getElem (by simp)
  intro i h1 h2
  have : i < a.length := by simpa using h1
  simp [site, this, toC, Mixed.castT, List.getD_eq_getElem?_getD]

theorem site_cast (a : List (Tensor ℝ)) {k : Nat} (hk : k < a.length) : Mixed.castT (site a k) = site (Mixed.castMPS a) k := by
  rw [castMPS_eq]
  simp [site, hk, toC, Mixed.castT, List.getD_eq_getElem?_getD]

theorem cast_length (a : List (Tensor ℝ)) : (Mixed.castMPS a).length = a.length := by simp [Mixed.castMPS]

theorem mixed1_eq (a : List (Tensor ℝ)) (op : Tensor ℂ) (k : Int) : Mixed.expected1 a op k = expected1 (Mixed.castMPS a) op k := by
  unfold Mixed.expected1 expected1
  rw [cast_length]
  congr 1; funext k1
  have : (List.range a.length).map (fun k => (Mixed.castT (site a k), Mixed.castT (site a k), if k = k1 then some op else none)) =
      (List.range a.length).map (fun k => (site (Mixed.castMPS a) k, site (Mixed.castMPS a) k, if k = k1 then some op else none)) :=
    List.map_congr_left fun k hk => by rw [site_cast a (by simpa using hk)]
  simp only [this]

theorem mixed2_eq (a : List (Tensor ℝ)) (op1 op2 : Tensor ℂ) (k1 k2 : Int) :
    Mixed.expected2 a op1 k1 op2 k2 = expected2 (Mixed.castMPS a) op1 k1 op2 k2 := by
  unfold Mixed.expected2 expected2
  rw [cast_length, mixed1_eq]
  congr 1
  congr 1; funext k1
  congr 1; funext k2
  have : (List.range a.length).map (fun k => (Mixed.castT (site a k), Mixed.castT (site a k), if k = k1 then some op1 else if k = k2 then some op2 else none)) =
      (List.range a.length).map (fun k => (site (Mixed.castMPS a) k, site (Mixed.castMPS a) k, if k = k1 then some op1 else if k = k2 then some op2 else none)) :=
    List.map_congr_left fun k hk => by rw [site_cast a (by simpa using hk)]
  simp only [this]

theorem IsMPS.cast {ds : List Nat} {ψ : List (Tensor ℝ)} (h : IsMPS ds ψ) : IsMPS ds (Mixed.castMPS ψ) := by
  obtain ⟨h0, D, hW⟩ := h
  rw [castMPS_eq]
  exact ⟨by simpa using h0, D, WF.toC hW⟩

theorem amp_cast (ψ : List (Tensor ℝ)) : amp (Mixed.castMPS ψ) = ampC ψ := by
  funext s; rw [castMPS_eq, amp_toC]; rfl

/-- C108: `CMPS(psi)` of a real state, with open or periodic boundaries, is a state on the same sites with the same bonds, and its amplitudes are those of `psi`. -/
theorem C108_cast {a b : Nat} {ds : List Nat} {ψ : List (Tensor ℝ)} (h : WF a ψ ds b) :
    WF a (Mixed.castMPS ψ) ds b ∧ (∀ s, amp (Mixed.castMPS ψ) s = ((amp ψ s : ℝ) : ℂ)) ∧
      ∀ k, k < ψ.length → (site (Mixed.castMPS ψ) k).dims = (site ψ k).dims :=
  ⟨by rw [castMPS_eq]; exact WF.toC h, fun s => congrFun (amp_cast ψ) s, fun k hk => by rw [← site_cast ψ hk]; rfl⟩

/-- C108: scalar products and norms are those of the real states. -/
theorem C108_scprod {ds : List Nat} {φ ψ : List (Tensor ℝ)} (hφ : IsMPS ds φ) (hψ : IsMPS ds ψ) (sense : Int) :
    scprod (Mixed.castMPS φ) (Mixed.castMPS ψ) sense = (scprod φ ψ sense).map Complex.ofReal ∧ norm2 (Mixed.castMPS ψ) = norm2 ψ := by
  constructor
  · rw [scprod_spec hφ hψ, scprod_spec (IsMPS.cast hφ) (IsMPS.cast hψ), amp_cast, amp_cast]
    simp only [Option.map_some, MPS.inner, ampC]
    rw [sumCfg_toC]
    simp
  · rw [norm2_spec hψ, norm2_spec (IsMPS.cast hψ), amp_cast]
    simp [ampC]

/-- C108: `expected(psi, op, k)` of a real state and a complex matrix. -/
theorem C108_expected {ds : List Nat} {ψ : List (Tensor ℝ)} (h : IsMPS ds ψ) (op : Tensor ℂ) (k : Int)
    (hk : -(ds.length : Int) ≤ k ∧ k < ds.length) (n : Nat) (hn : (n : Int) = if k < 0 then k + ds.length else k)
    (hop : op.dims = [ds.getD n 0, ds.getD n 0]) :
    Mixed.expected1 ψ op k = some (MPS.inner ds (ampC ψ) (actSite (ds.getD n 0) op n (ampC ψ))) := by
  rw [mixed1_eq, C04_expected (IsMPS.cast h) op k hk n hn hop, amp_cast]

/-- C108: an index outside `[-L, L)` is rejected. -/
theorem C108_out_of_range {ds : List Nat} {ψ : List (Tensor ℝ)} (h : IsMPS ds ψ) (op : Tensor ℂ) (k : Int)
    (hk : ¬ (-(ds.length : Int) ≤ k ∧ k < ds.length)) : Mixed.expected1 ψ op k = none := by
  rw [mixed1_eq]; exact C04_out_of_range (IsMPS.cast h) op k hk

/-- C108: without a site, the sum over all sites. -/
theorem C108_sum {L d : Nat} {ψ : List (Tensor ℝ)} (h : IsMPS (List.replicate L d) ψ) (op : Tensor ℂ) (ho : op.dims = [d, d]) :
    Mixed.expectedSum ψ op = some (∑ k ∈ Finset.range L, MPS.inner (List.replicate L d) (ampC ψ) (actSite d op k (ampC ψ))) := by
  have : Mixed.expectedSum ψ op = expectedSum (Mixed.castMPS ψ) op := by
    unfold Mixed.expectedSum expectedSum
    rw [cast_length]
    simp only [mixed1_eq]
  rw [this, C06_expected_sum (IsMPS.cast h) op ho, amp_cast]

/-- C108: two operators on the sites `n1`, `n2`; their product if the sites are the same. -/
theorem C108_expected2 {ds : List Nat} {ψ : List (Tensor ℝ)} (h : IsMPS ds ψ) (op1 op2 : Tensor ℂ) (n1 n2 : Nat)
    (h1 : n1 < ds.length) (h2 : n2 < ds.length) (ho1 : op1.dims = [ds.getD n1 0, ds.getD n1 0]) (ho2 : op2.dims = [ds.getD n2 0, ds.getD n2 0]) :
    Mixed.expected2 ψ op1 n1 op2 n2 =
      some (MPS.inner ds (ampC ψ) (actSite (ds.getD n1 0) op1 n1 (actSite (ds.getD n2 0) op2 n2 (ampC ψ)))) := by
  rw [mixed2_eq, C05_expected2_nonneg (IsMPS.cast h) op1 op2 n1 n2 h1 h2 ho1 ho2, amp_cast]; rfl

/-- C108: with an operator whose elements are real, the value of the real function. -/
theorem C108_real {ds : List Nat} {ψ : List (Tensor ℝ)} (h : IsMPS ds ψ) (op : Tensor ℝ) (k : Int)
    (hk : -(ds.length : Int) ≤ k ∧ k < ds.length) (n : Nat) (hn : (n : Int) = if k < 0 then k + ds.length else k)
    (hop : op.dims = [ds.getD n 0, ds.getD n 0]) :
    Mixed.expected1 ψ (Mixed.castT op) k = (expected1 ψ op k).map Complex.ofReal := by
  rw [C108_expected h _ k hk n hn hop, C04_expected h op k hk n hn hop]
  simp only [Option.map_some, MPS.inner, ampC]
  rw [sumCfg_toC]
  simp [ampC, actSite, Mixed.castT]

/-- the real state `|00⟩ + |01⟩ - |11⟩` -/
def exReal : List (Tensor ℝ) :=
  [⟨[1, 2, 2], fun i => if i = [0, 0, 0] then 1 else if i = [0, 1, 1] then 1 else 0⟩,
   ⟨[2, 2, 1], fun i => if i = [0, 0, 0] ∨ i = [0, 1, 0] then 1 else if i = [1, 1, 0] then -1 else 0⟩]

theorem exReal_isMPS : IsMPS [2, 2] exReal :=
  ⟨by simp [exReal], 1, .cons rfl (by simp) (by simp) (by simp) (.cons rfl (by simp) (by simp) (by simp) (.nil 1))⟩

/-- the matrix `[[0, i], [0, 0]]`, neither real nor Hermitian -/
noncomputable def exRaise : Tensor ℂ := ⟨[2, 2], fun i => if i = [0, 1] then Complex.I else 0⟩

/-- a case with a complex value: `⟨psi| (i |0⟩⟨1|)_0 |psi⟩ = -i` -/
example : Mixed.expected1 exReal exRaise 0 = some (-Complex.I) := by
  rw [C108_expected exReal_isMPS exRaise 0 (by simp) 0 (by simp) rfl]
  simp [MPS.inner, sumCfg_cons, sumCfg, actSite, Finset.sum_range_succ, ampC, amp, path, exReal, exRaise, dim]

end MPS.Props
