import Verif.DmrgManyLemmas
import Mathlib.LinearAlgebra.Dimension.Finite
import Mathlib.LinearAlgebra.FiniteDimensional.Lemmas
import Mathlib.LinearAlgebra.Pi

/-! The last step of single-site DMRG, and upper bounds of the eigenvalues. -/

set_option linter.unusedSectionVars false
set_option linter.unusedSimpArgs false

namespace MPS.Dmrg
open MPS Tensor Form Minim
variable {K : Type} [RCLike K]

theorem neig_pos (n : Int) : 0 < neig n := by unfold neig; omega

/-- the first eigenvector and eigenvalue -/
theorem firstOf_good {eigs : ManyEigs K} (he : GoodManyEigs eigs) (neigenvalues : Int) : GoodEigs (firstOf eigs neigenvalues) := by
  intro A n P W hn hW hA hok
  have hm := neig_pos neigenvalues
  obtain ⟨g1, g2, g3, g4, g5⟩ := he A n (neig neigenvalues) P W hn hm hW hA hok
  set m := neig neigenvalues with hmm
  set r := eigs A n m P with hr
  have hE : (firstOf eigs neigenvalues A n P).E = ((RCLike.re (r.aux.getD 0 0) : ℝ) : K) := by
    simp only [firstOf, ← hmm, ← hr]
    congr 1
    cases hx : r.aux with
    | nil => rw [hx] at g1; simp at g1; omega
    | cons x l => simp
  have hP : (firstOf eigs neigenvalues A n P).P.dims = [n] ∧ ∀ i < n, (firstOf eigs neigenvalues A n P).P.get [i] = r.P.get [i, 0] := by
    simp only [firstOf, ← hmm, ← hr]
    split_ifs with h1
    · refine ⟨by simp [column0, Tensor.dim, g2], fun i hi => by simp [column0]⟩
    · refine ⟨rfl, fun i hi => ?_⟩
      apply reshape_get
      · rw [g2]; exact .cons hi (.cons hm .nil)
      · rw [g2]; simp [flat]
  refine ⟨hP.1, ?_, fun i hi => ?_, fun X => ?_⟩
  · have e := g3 0 0 hm hm
    rw [if_pos rfl] at e
    apply RCLike.ofReal_injective (K := K)
    rw [RCLike.ofReal_sum, RCLike.ofReal_one, ← e]
    refine Finset.sum_congr rfl fun i hi => ?_
    rw [hP.2 i (Finset.mem_range.1 hi), ofReal_normSq]
  · rw [hE, hP.2 i hi, ← g4 0 hm i hi]
    exact Finset.sum_congr rfl fun j hj => by rw [hP.2 j (Finset.mem_range.1 hj)]
  · rw [hE, RCLike.ofReal_re]
    exact g5 0 hm X (fun q hq => absurd hq (by omega))

theorem last_right {svd : Tensor K → SvdRes K} (hg : GoodSvd svd) (eps : ℝ) {dflt : ℝ} (hd0 : 0 < dflt) {eigs : Eigs K} (he : GoodEigs eigs)
    {ds : List Nat} {H : Ham K} (hH : HamOk ds H) (P0 : List (List (Tensor K))) (fuel : Nat) {k : Nat} (hfuel : k + fuel + 1 = ds.length) {d : St K}
    (hc : Cent ds H d k) {E0 : ℝ} {d' : St K} {E : ℝ} (hrun : singleRight svd eps dflt eigs H P0 (fuel + 1) k d E0 = some (.done d' E)) :
    ∃ d1 k1 dk, Cent ds H d1 k1 ∧ (k1 = 0 → dk > 0) ∧ singleSite svd eps dflt eigs H P0 d1 k1 dk = some (d', E) := by
  induction fuel generalizing k d E0 with
  | zero =>
    rw [singleRight] at hrun
    obtain ⟨⟨d1, E1⟩, h1, h2⟩ := Option.bind_eq_some_iff.1 hrun
    simp only [singleRight, Option.some.injEq, Iter.done.injEq] at h2
    obtain ⟨rfl, rfl⟩ := h2
    exact ⟨d, k, 1, hc, fun _ => by decide, h1⟩
  | succ fuel ih =>
    rw [singleRight] at hrun
    obtain ⟨⟨d1, E1⟩, h1, h2⟩ := Option.bind_eq_some_iff.1 hrun
    obtain ⟨a1, -⟩ := single_swept hg eps hd0 he hH P0 hc (fun _ => by decide) h1
    have e : nextCentre ds.length 1 k = k + 1 := by unfold nextCentre; rw [if_pos (by decide), if_neg (by omega)]
    rw [e] at a1
    exact ih (by omega) a1 h2

theorem last_left {svd : Tensor K → SvdRes K} (hg : GoodSvd svd) (eps : ℝ) {dflt : ℝ} (hd0 : 0 < dflt) {eigs : Eigs K} (he : GoodEigs eigs)
    {ds : List Nat} {H : Ham K} (hH : HamOk ds H) (P0 : List (List (Tensor K))) {k : Nat} {d : St K}
    (hc : Cent ds H d (k + 1)) {E0 : ℝ} {d' : St K} {E : ℝ} (hrun : singleLeft svd eps dflt eigs H P0 (k + 1) d E0 = some (.done d' E)) :
    ∃ d1 k1 dk, Cent ds H d1 k1 ∧ (k1 = 0 → dk > 0) ∧ singleSite svd eps dflt eigs H P0 d1 k1 dk = some (d', E) := by
  induction k generalizing d E0 with
  | zero =>
    rw [singleLeft] at hrun
    obtain ⟨⟨d1, E1⟩, h1, h2⟩ := Option.bind_eq_some_iff.1 hrun
    simp only [singleLeft, Option.some.injEq, Iter.done.injEq] at h2
    obtain ⟨rfl, rfl⟩ := h2
    exact ⟨d, 0 + 1, -1, hc, fun h => by omega, h1⟩
  | succ k ih =>
    rw [singleLeft] at hrun
    obtain ⟨⟨d1, E1⟩, h1, h2⟩ := Option.bind_eq_some_iff.1 hrun
    obtain ⟨a1, -⟩ := single_swept hg eps hd0 he hH P0 hc (fun h => by omega) h1
    have e : nextCentre ds.length (-1) (k + 1 + 1) = k + 1 := by simp [nextCentre]
    rw [e] at a1
    exact ih a1 h2

/-- a complete iteration ends with a step from a state in canonical form -/
theorem last_iteration {svd : Tensor K → SvdRes K} (hg : GoodSvd svd) (eps : ℝ) {dflt : ℝ} (hd0 : 0 < dflt) {eigs : Eigs K} (he : GoodEigs eigs)
    (solve : Solve K) (svdTol : ℝ) {ds : List Nat} {H : Ham K} (hH : HamOk ds H) (P0 : List (List (Tensor K))) {d : St K} {dk : Int}
    (hc : Cent ds H d (endOf ds.length dk)) {d' : St K} {E : ℝ} (hrun : iteration svd eps dflt eigs solve svdTol H P0 0 dk d = some (.done d' E)) :
    ∃ d1 k1 dk, Cent ds H d1 k1 ∧ (k1 = 0 → dk > 0) ∧ singleSite svd eps dflt eigs H P0 d1 k1 dk = some (d', E) := by
  have h2 := hH.two
  unfold iteration at hrun
  rw [if_neg (by simp), hH.size] at hrun
  by_cases hs : dk > 0
  · rw [if_pos hs] at hrun
    simp only [endOf, if_pos hs] at hc
    obtain ⟨n, hn⟩ : ∃ n, ds.length = n + 1 := ⟨ds.length - 1, by omega⟩
    rw [hn] at hrun
    exact last_right hg eps hd0 he hH P0 n (by omega) hc hrun
  · rw [if_neg hs] at hrun
    simp only [endOf, if_neg hs] at hc
    obtain ⟨n, hn⟩ : ∃ n, ds.length - 1 = n + 1 := ⟨ds.length - 2, by omega⟩
    rw [hn] at hrun hc
    exact last_left hg eps hd0 he hH P0 hc hrun

/-- `j + 1` orthonormal states without matrix elements of `H` between them: the largest of their energies is not below any lower bound
for the states which are orthogonal to `j` states -/
theorem ritz_upper {ds : List Nat} {H : Ham K} {m : Nat} {f : Nat → List Nat → K} {v : Nat → ℝ}
    (h1 : ∀ p q, p < m → q < m → MPS.inner ds (f p) (f q) = if p = q then 1 else 0)
    (h2 : ∀ p q, p < m → q < m → MPS.inner ds (f p) (actOp ds (Props.hamElt ds H) (f q)) = if p = q then (v p : K) else 0)
    (h3 : ∀ p q, p ≤ q → q < m → v p ≤ v q) {j : Nat} (hj : j < m) {χ : Nat → List Nat → K} {e : ℝ} (hb : LowerBound ds H j χ e) : e ≤ v j := by
  -- a combination orthogonal to the `j` states
  let T : (Fin (j + 1) → K) →ₗ[K] (Fin j → K) :=
    LinearMap.pi fun q => ∑ p : Fin (j + 1), (MPS.inner ds (χ q) (f p)) • LinearMap.proj (R := K) (φ := fun _ => K) p
  have hT : ∀ c q, T c q = ∑ p : Fin (j + 1), MPS.inner ds (χ q) (f p) * c p := by
    intro c q; simp [T, LinearMap.sum_apply]
  have hker : LinearMap.ker T ≠ ⊥ := LinearMap.ker_ne_bot_of_finrank_lt (by simp)
  obtain ⟨c, hc, hc0⟩ := Submodule.exists_mem_ne_zero_of_ne_bot hker
  have hc' : ∀ q : Fin j, ∑ p : Fin (j + 1), MPS.inner ds (χ q) (f p) * c p = 0 := fun q => by
    rw [← hT]; rw [LinearMap.mem_ker.1 hc]; rfl
  let ψ : List Nat → K := fun s => ∑ p : Fin (j + 1), c p * f p s
  have hlin : ∀ φ : List Nat → K, MPS.inner ds φ ψ = ∑ p : Fin (j + 1), MPS.inner ds φ (f p) * c p := by
    intro φ
    unfold MPS.inner
    simp only [ψ, Finset.mul_sum]
    rw [sumCfg_sum]
    refine Finset.sum_congr rfl fun p _ => ?_
    rw [← sumCfg_mul_right]
    exact sumCfg_congr fun s _ => by ring
  have hlin2 : ∀ φ : List Nat → K, MPS.inner ds ψ φ = ∑ p : Fin (j + 1), star (c p) * MPS.inner ds (f p) φ := by
    intro φ
    unfold MPS.inner
    simp only [ψ, star_sum, star_mul', Finset.sum_mul]
    rw [sumCfg_sum]
    refine Finset.sum_congr rfl fun p _ => ?_
    rw [← sumCfg_mul_left]
    exact sumCfg_congr fun s _ => by ring
  have hact : ∀ φ : List Nat → K, MPS.inner ds φ (actOp ds (Props.hamElt ds H) ψ) =
      ∑ p : Fin (j + 1), MPS.inner ds φ (actOp ds (Props.hamElt ds H) (f p)) * c p := by
    intro φ
    unfold MPS.inner actOp
    simp only [ψ, Finset.mul_sum]
    rw [show (sumCfg ds fun s => star (φ s) * sumCfg ds fun t => ∑ p : Fin (j + 1), Props.hamElt ds H s t * (c p * f p t)) =
      sumCfg ds fun s => ∑ p : Fin (j + 1), star (φ s) * (sumCfg ds fun t => Props.hamElt ds H s t * f p t) * c p from ?_]
    · rw [sumCfg_sum]
      refine Finset.sum_congr rfl fun p _ => ?_
      rw [← sumCfg_mul_right]
    · refine sumCfg_congr fun s _ => ?_
      rw [sumCfg_sum, Finset.mul_sum]
      refine Finset.sum_congr rfl fun p _ => ?_
      rw [mul_assoc, ← sumCfg_mul_right]
      congr 1
      exact sumCfg_congr fun t _ => by ring
  have hd : ∀ F : Nat → K, ∀ p : Fin (j + 1), ∑ q : Fin (j + 1), (if (p : Nat) = q then F p else 0) * c q = F p * c p := by
    intro F p
    rw [Finset.sum_eq_single p]
    · rw [if_pos rfl]
    · intro q _ hq; rw [if_neg (fun h => hq (Fin.ext h.symm)), zero_mul]
    · intro h; exact absurd (Finset.mem_univ p) h
  have hnorm : (sumCfg ds fun s => ‖ψ s‖ ^ 2) = ∑ p : Fin (j + 1), ‖c p‖ ^ 2 := by
    apply RCLike.ofReal_injective (K := K)
    rw [sumCfg_ofReal, RCLike.ofReal_sum]
    simp only [ofReal_normSq]
    change MPS.inner ds ψ ψ = _
    rw [hlin2]
    refine Finset.sum_congr rfl fun p _ => ?_
    rw [hlin, Finset.sum_congr rfl fun q _ => by rw [h1 p q (by omega) (by omega)]]
    rw [hd (fun _ => 1) p, one_mul]
  have hen : stateEnergy ds H ψ = ∑ p : Fin (j + 1), v p * ‖c p‖ ^ 2 := by
    unfold stateEnergy
    rw [hlin2, ← RCLike.ofReal_re (K := K) (∑ p : Fin (j + 1), v p * ‖c p‖ ^ 2)]
    congr 1
    rw [RCLike.ofReal_sum]
    refine Finset.sum_congr rfl fun p _ => ?_
    rw [hact, Finset.sum_congr rfl fun q _ => by rw [h2 p q (by omega) (by omega)]]
    rw [hd (fun p => (v p : K)) p, RCLike.ofReal_mul, ofReal_normSq]
    ring
  have hfin := hb ψ (fun q hq => by rw [hlin]; exact hc' ⟨q, hq⟩)
  rw [hnorm, hen] at hfin
  have hpos : 0 < ∑ p : Fin (j + 1), ‖c p‖ ^ 2 := by
    obtain ⟨p, hp⟩ := Function.ne_iff.1 hc0
    refine Finset.sum_pos' (fun _ _ => by positivity) ⟨p, Finset.mem_univ _, ?_⟩
    have : 0 < ‖c p‖ := norm_pos_iff.2 hp
    positivity
  have hle : ∑ p : Fin (j + 1), v p * ‖c p‖ ^ 2 ≤ v j * ∑ p : Fin (j + 1), ‖c p‖ ^ 2 := by
    rw [Finset.mul_sum]
    exact Finset.sum_le_sum fun p _ => mul_le_mul_of_nonneg_right (h3 p j (by omega) hj) (by positivity)
  exact le_of_mul_le_mul_right (hfin.trans hle) hpos

end MPS.Dmrg
