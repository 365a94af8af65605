import Verif.Props.ITebdProps8
import Verif.Props.ITebdProps6
import Verif.Props.ITebdCanonProps2
import Verif.ExpmExists
import Verif.SvdExists

/-!
# C65, C91: entropies of infinite states; an example for C90
-/

set_option linter.unusedSectionVars false
set_option linter.unusedSimpArgs false

namespace MPS.Props
open MPS Tensor ITebd Trotter
variable {K : Type} [RCLike K]

/-- C90 is about something: a product state of spins, the Hamiltonian `σ_z σ_z` and functions with all the properties required -/
theorem C90_example : ∃ (L : Lib ℂ) (H : Tensor ℂ) (start : State ℂ), GoodSvd L.svd ∧ GoodEigSym L.eigSym ∧ 0 ≤ L.dflt ∧ 0 < effTol L.dflt (-1) ∧
    (∀ c : ℂ, (L.expm (smul c H)).dims = [2 * 2, 2 * 2]) ∧ Ok start ∧ (start.matrix 0).dim 1 = 2 ∧ (start.matrix 1).dim 1 = 2 ∧
    H.get [0, 0] ≠ 0 ∧ ∃ out, evolveItime L start H 0.1 6 (-1) 10 3 2 = some out ∧ out.times = [0, 0.3, 0.6] ∧ BondsAtMost out.psi 10 := by
  obtain ⟨svd, hsvd⟩ := exists_goodSvd (K := ℂ)
  obtain ⟨es, hes⟩ := exists_goodEigSym (K := ℂ)
  let L : Lib ℂ := ⟨svd, es, fun _ _ v => v, matrixExp, 1e-16, 1e-16⟩
  let H : Tensor ℂ := ⟨[4, 4], fun i => if i.getD 0 0 = i.getD 1 0 then (if i.getD 0 0 = 0 ∨ i.getD 0 0 = 3 then 1 else -1) else 0⟩
  have hx : ∀ c : ℂ, (L.expm (smul c H)).dims = [2 * 2, 2 * 2] := fun c => exists_goodExpm.dims _ 4 rfl
  have vA : vecSq (⟨[2], fun _ => 1⟩ : Tensor ℂ) 2 = 2 := by simp [vecSq]
  obtain ⟨psi, p1, -, p2, p3, -, -, p6, p7, -⟩ := C89_product (A := (⟨[2], fun _ => 1⟩ : Tensor ℂ)) (B := ⟨[2], fun _ => 1⟩) (d := 2) (e := 2) rfl rfl
    (by rw [vA]; norm_num) (by rw [vA]; norm_num)
  have ht : 0 < effTol L.dflt (-1) := by unfold effTol; rw [if_pos (by norm_num)]; show (0 : ℝ) < 1e-16; norm_num
  have hd : 0 ≤ L.dflt := by show (0 : ℝ) ≤ 1e-16; norm_num
  obtain ⟨out, ps, o1, o2, o3, o4, o5, o6, o7, o8, o9⟩ := C90_evolve_itime (L := L) hsvd hes hd ht 10 hx 0.1 2 p2 (p7 0) (p7 1) 2 3 (by norm_num)
  refine ⟨L, H, psi, hsvd, hes, hd, ht, hx, p2, p7 0, p7 1, ?_, out, o1, ?_, o6 (by norm_num) (by norm_num)⟩
  · show (if (0 : Nat) = 0 then (if (0 : Nat) = 0 ∨ (0 : Nat) = 3 then (1 : ℂ) else -1) else 0) ≠ 0
    simp
  · rw [o9]
    simp only [List.range_succ, List.range_zero, List.nil_append, List.map_append, List.map_cons, List.map_nil, List.cons_append]
    norm_num

/-- the absolute values of the elements of the vector `λ` on the left of a site -/
noncomputable def bondValues (psi : State K) (site : Int) : List ℝ :=
  (List.range ((psi.leftVector site).dim 0)).map fun k : Nat => ‖(psi.leftVector site).get [k]‖

/-- `schmidt(site)` are the squares of the elements of the vector on the left of the site -/
theorem C91_schmidt (psi : State K) (site : Int) : schmidt psi site = (bondValues psi site).map fun x => x ^ 2 := by
  unfold schmidt bondValues
  rw [List.map_map]
  exact List.map_congr_left fun k _ => by simp [sq]

/-- **C91**: the entropy of a canonical state at an odd site is that of the Schmidt values there, between 0 and the logarithm of their
number; `entropy()` is twice that -/
theorem C91_entropy (L : Lib K) {psi : State K} (hok : Ok psi) (hc : psi.canonical = true) (site : Int)
    (hne : ∀ a < (psi.matrix 1).dim 0, (psi.leftVector 1).get [a] ≠ 0) :
    entropyAt L psi site = some (schmidtEntropy (bondValues psi 1)) ∧ bondValues psi 1 ≠ [] ∧
    0 ≤ schmidtEntropy (bondValues psi 1) ∧ schmidtEntropy (bondValues psi 1) ≤ Real.log ((psi.matrix 1).dim 0) ∧
    entropyTotal L psi = some (2 * schmidtEntropy (bondValues psi 1)) ∧
    (site % 2 = 1 → bondValues psi site = bondValues psi 1) := by
  have hE : psi.lA.dims = [psi.A.dim 2] := hok.lA
  have hEB : (psi.matrix 1).dim 0 = psi.A.dim 2 := hok.AB
  have hd0 : psi.lA.dim 0 = psi.A.dim 2 := by simp [dim, hE, nrm]
  have hpos : 0 < psi.A.dim 2 := by have := hok.dims4.hE; exact this
  have hlist : ((List.range (psi.lA.dim 0)).map fun k => ‖psi.lA.get [k] * psi.lA.get [k]‖) = (bondValues psi 1).map fun x => x ^ 2 := by
    unfold bondValues
    rw [List.map_map]
    refine List.map_congr_left fun k _ => ?_
    show _ = ‖psi.lA.get [k]‖ ^ 2
    rw [norm_mul, sq]
  have hbne : bondValues psi 1 ≠ [] := by
    unfold bondValues
    rw [show psi.leftVector 1 = psi.lA from rfl, hd0]
    simp; omega
  obtain ⟨S, s1, s2, s3, s4⟩ := C67_entropy_partial ((bondValues psi 1).map fun x => x ^ 2) (by simpa using hbne) (by
    intro x hx
    unfold bondValues at hx
    rw [List.map_map, List.mem_map] at hx
    obtain ⟨k, hk, rfl⟩ := hx
    rw [show psi.leftVector 1 = psi.lA from rfl, hd0] at hk
    have := hne k (by rw [hEB]; exact List.mem_range.1 hk)
    have := norm_pos_iff.2 this
    show 0 < ‖(psi.leftVector 1).get [k]‖ ^ 2
    positivity)
  have hS : S = schmidtEntropy (bondValues psi 1) := by
    rw [s2]; unfold schmidtEntropy
    rw [List.map_map]; rfl
  have hat : ∀ site, entropyAt L psi site = some (schmidtEntropy (bondValues psi 1)) := by
    intro site
    unfold entropyAt entropyCanon
    rw [hc, if_pos rfl, hlist, s1, hS]
  have hlen : ((bondValues psi 1).map fun x => x ^ 2).length = (psi.matrix 1).dim 0 := by
    unfold bondValues
    rw [show psi.leftVector 1 = psi.lA from rfl, hd0, hEB]; simp
  refine ⟨hat site, hbne, by rw [← hS]; exact s3, by rw [← hS, ← hlen]; exact s4, ?_, fun hs => ?_⟩
  · unfold entropyTotal
    rw [hat, hat]
    show some (_ + _) = _
    rw [two_mul]
  · unfold bondValues
    rw [leftVector_parity psi (p := site) (q := 1) (by omega)]

/-- a chain of pairs of sites, each of them in the state `(|00⟩ + |11⟩)/√2` -/
noncomputable def bellPairs (canonical : Bool) : State ℝ :=
  State.ofParts ⟨[1, 2, 2], fun i => if i.getD 1 0 = i.getD 2 0 then 1 else 0⟩ ⟨[2], fun _ => 1 / Real.sqrt 2⟩
    ⟨[2, 2, 1], fun i => if i.getD 0 0 = i.getD 1 0 then 1 else 0⟩ ⟨[1], fun _ => 1⟩ canonical

theorem bellPairs_ok (c : Bool) : Ok (bellPairs c) := by
  refine ⟨rfl, rfl, ?_, ?_, rfl, rfl, rfl, rfl, ?_, rfl, rfl⟩
  · intro d hd; simp [bellPairs, State.ofParts] at hd; omega
  · intro d hd; simp [bellPairs, State.ofParts] at hd; omega
  · intro a; exact ⟨star_trivial _, star_trivial _⟩

theorem bell_values (c : Bool) : bondValues (bellPairs c) 0 = [1] ∧ bondValues (bellPairs c) 1 = [1 / Real.sqrt 2, 1 / Real.sqrt 2] := by
  have h2 : |Real.sqrt 2| = Real.sqrt 2 := abs_of_nonneg (Real.sqrt_nonneg 2)
  constructor
  · simp [bondValues, State.leftVector, bellPairs, State.ofParts, dim, nrm, List.range_succ]
  · simp [bondValues, State.leftVector, bellPairs, State.ofParts, dim, nrm, List.range_succ, h2]

theorem bell_entropy : schmidtEntropy [1 / Real.sqrt 2, 1 / Real.sqrt 2] = Real.log 2 ∧ schmidtEntropy [1] = 0 := by
  have h2 : Real.sqrt 2 ^ 2 = 2 := Real.sq_sqrt (by norm_num)
  constructor
  · simp only [schmidtEntropy, List.map_cons, List.map_nil, List.sum_cons, List.sum_nil, div_pow, one_pow, h2]
    norm_num
    rw [one_div, Real.log_inv]
    ring
  · simp [schmidtEntropy]

/-- the pairs are a canonical state at both bonds -/
theorem bell_canonical : RightCanonical (bellPairs true) ∧ LeftCanonical (bellPairs true) := by
  have h2 : (Real.sqrt 2)⁻¹ * (Real.sqrt 2)⁻¹ = 1 / 2 := by
    rw [← mul_inv, Real.mul_self_sqrt (by norm_num)]; norm_num
  have w0 : ∀ k : Int, k % 2 = 0 → (bellPairs true).matrix k = (bellPairs true).A ∧ (bellPairs true).matrix (k + (1 : Nat)) = (bellPairs true).B ∧
      window (bellPairs true) k 1 = [scale (bellPairs true).A (-1) (bellPairs true).lA] ∧
      (bellPairs true).leftVector k = (bellPairs true).lB ∧ (bellPairs true).leftVector (k + (1 : Nat)) = (bellPairs true).lA := by
    intro k hk
    have h1 : ¬ k % 2 = 1 := by omega
    have h2 : (k + ((1 : Nat) : Int)) % 2 = 1 := by push_cast; omega
    refine ⟨if_neg h1, if_pos h2, ?_, if_neg h1, if_pos h2⟩
    rw [window_succ]
    unfold siteT State.matrix State.rightVector
    rw [if_neg h1, if_neg h1]; rfl
  have w1 : ∀ k : Int, k % 2 = 1 → (bellPairs true).matrix k = (bellPairs true).B ∧ (bellPairs true).matrix (k + (1 : Nat)) = (bellPairs true).A ∧
      window (bellPairs true) k 1 = [scale (bellPairs true).B (-1) (bellPairs true).lB] ∧
      (bellPairs true).leftVector k = (bellPairs true).lA ∧ (bellPairs true).leftVector (k + (1 : Nat)) = (bellPairs true).lB := by
    intro k hk
    have h2 : ¬ (k + ((1 : Nat) : Int)) % 2 = 1 := by push_cast; omega
    refine ⟨if_pos hk, if_neg h2, ?_, if_pos hk, if_neg h2⟩
    rw [window_succ]
    unfold siteT State.matrix State.rightVector
    rw [if_pos hk, if_pos hk]; rfl
  constructor
  · intro k a ha a' ha'
    rcases Int.emod_two_eq_zero_or_one k with hk | hk
    · obtain ⟨e1, e2, e3, e4, e5⟩ := w0 k hk
      rw [e1] at ha ha'
      rw [e2, e3, winDims_succ, e1]
      simp [bellPairs, State.ofParts, dim, nrm] at ha ha'
      subst ha ha'
      simp [winDims, sumCfg, bellPairs, State.ofParts, dim, nrm, Finset.sum_range_succ, path, scale, h2]
      norm_num
    · obtain ⟨e1, e2, e3, e4, e5⟩ := w1 k hk
      rw [e1] at ha ha'
      rw [e2, e3, winDims_succ, e1]
      simp [bellPairs, State.ofParts, dim, nrm] at ha ha'
      interval_cases a <;> interval_cases a' <;>
        simp [winDims, sumCfg, bellPairs, State.ofParts, dim, nrm, Finset.sum_range_succ, path, scale, h2]
  · intro k a ha a' ha'
    rcases Int.emod_two_eq_zero_or_one k with hk | hk
    · obtain ⟨e1, e2, e3, e4, e5⟩ := w0 k hk
      unfold winAmp
      rw [e2] at ha ha'
      rw [e3, winDims_succ, e1, e4, e5]
      simp [bellPairs, State.ofParts, dim, nrm] at ha ha'
      interval_cases a <;> interval_cases a' <;>
        simp [winDims, sumCfg, bellPairs, State.ofParts, dim, nrm, Finset.sum_range_succ, path, scale, sq, h2]
    · obtain ⟨e1, e2, e3, e4, e5⟩ := w1 k hk
      unfold winAmp
      rw [e2] at ha ha'
      rw [e3, winDims_succ, e1, e4, e5]
      simp [bellPairs, State.ofParts, dim, nrm] at ha ha'
      subst ha ha'
      simp [winDims, sumCfg, bellPairs, State.ofParts, dim, nrm, Finset.sum_range_succ, path, scale, h2]
      norm_num

/-- **C65**, what is false: between the pairs there is no entanglement, but `entropy(0)` is `log 2`; the same state not flagged canonical
has twice the entropy at every site, and `entropy()` is `2 log 2` and `4 log 2` instead of `log 2`, whatever the functions of the library -/
theorem C65_violated (L : Lib ℝ) : schmidtEntropy (bondValues (bellPairs true) 0) = 0 ∧ entropyAt L (bellPairs true) 0 = some (Real.log 2) ∧
    entropyTotal L (bellPairs true) = some (2 * Real.log 2) ∧
    (∀ site, entropyAt L (bellPairs false) site = some (2 * Real.log 2)) ∧ entropyTotal L (bellPairs false) = some (4 * Real.log 2) ∧
    Real.log 2 ≠ 0 := by
  have hne : ∀ a < ((bellPairs true).matrix 1).dim 0, ((bellPairs true).leftVector 1).get [a] ≠ 0 := by
    intro a _
    show 1 / Real.sqrt 2 ≠ 0
    positivity
  obtain ⟨h1, -, -, -, h5, -⟩ := C91_entropy L (bellPairs_ok true) rfl 0 hne
  rw [(bell_values true).2, bell_entropy.1] at h1 h5
  have hl : ∀ site, entropyAt L (bellPairs false) site = some (2 * Real.log 2) := by
    intro site
    have hc : entropyCanon (canonForm L (bellPairs false)) = some (Real.log 2) := by
      have : entropyCanon (canonForm L (bellPairs false)) = entropyAt L (bellPairs true) 0 := rfl
      rw [this, h1]
    unfold entropyAt
    rw [if_neg (by simp [bellPairs, State.ofParts]), hc]
    show some (_ + _) = _
    rw [two_mul]
  refine ⟨by rw [(bell_values true).1, bell_entropy.2], h1, h5, hl, ?_, (Real.log_pos (by norm_num)).ne'⟩
  unfold entropyTotal
  rw [hl, hl]
  show some (_ + _) = _
  congr 1; ring

end MPS.Props
