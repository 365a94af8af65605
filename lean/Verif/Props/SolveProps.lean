import Verif.SolveLemmas6
import Verif.Props.MinimizerProps2

/-!
# C100: `solve(H, &P, Q, &sense, sweeps, normalize, Dmax, tol)`, single-site algorithm, Hermitian operators
-/

set_option linter.unusedSectionVars false
set_option linter.unusedSimpArgs false

namespace MPS.Props
open MPS Tensor Form Minim Obc Solve
variable {K : Type} [RCLike K]

theorem adjoint_of_hermitian {ds : List Nat} {H : List (Tensor K)} (hH : WFO 1 H ds 1) (hpos : 0 < ds.length) (hh : Minim.Hermitian ds H)
    {adj : List (Tensor K) → List (Tensor K)} (ha : adj = adjointC ∨ adj = adjointR) : WFO 1 (adj H) ds 1 ∧ IsAdjoint ds (adj H) H := by
  have hl := hH.length
  rcases ha with rfl | rfl
  · exact ⟨adjoint_WFO hH, (adjointC_spec ⟨by rintro rfl; simp at hl; omega, 1, hH⟩).2⟩
  · exact ⟨hH, fun s t hs ht => (hh t s ht hs).symm⟩

theorem target_of_hermitian {ds : List Nat} {H : List (Tensor K)} (hh : Minim.Hermitian ds H) {g q : List Nat → K}
    (hg : ∀ s, IsCfg ds s → g s = act ds H q s) : Target ds H g q := by
  intro e
  have e1 : MPS.inner ds g e = sumCfg ds fun s => sumCfg ds fun t => star (q t) * (opElt H t s * e s) := by
    unfold MPS.inner
    refine sumCfg_congr fun s hs => ?_
    rw [hg s hs]
    show star (sumCfg ds fun t => opElt H s t * q t) * e s = _
    rw [sumCfg_star, ← sumCfg_mul_right]
    refine sumCfg_congr fun t ht => ?_
    rw [star_mul', hh s t hs ht]; ring
  rw [e1, sumCfg_comm]
  unfold MPS.inner
  refine sumCfg_congr fun t _ => ?_
  rw [sumCfg_mul_left]
  rfl

theorem guess_eq (svd : Tensor K → SvdRes K) (eps dflt : ℝ) (P Q : List (Tensor K)) :
    guess svd eps dflt P Q = if P = [] then (canonicalForm svd eps dflt Q (-1)).1 else P := by
  unfold guess; simp only [List.length_eq_zero_iff]

/-- from what the loop guarantees, for a Hermitian operator (or whenever `Target` holds), without truncation in the last local problem -/
theorem Solve.Ran.solved {ds : List Nat} {H HH G P : List (Tensor K)} {normalize : Bool} {tolerance nq : ℝ} {n : Nat} {x : St K} {out : Solve.Out K}
    (hx : x.lost = 0) (hxP : x.P = P) {q : List Nat → K} (hT : Target ds H (amp G) q) (hnq : nq = normSqOf ds q)
    (r : Ran ds H HH G 0 0 True NearOne normalize tolerance nq n 0 x out.errs out) : Solved ds H q P out := by
  have r' := r
  obtain ⟨y, f1, f2, e, e1, e2, e3, -⟩ := r.fin
  have e0 : out.P0 = y.P := by rw [f2]; rfl
  have he := eq_of_dist (by ring) e2
  have herr : out.err = residual ds H q out.P0 := by
    rw [e1, hnq, value_eq hT, residual_eq, e0, resOf_congr he]
  have hcen : centreOf ds.length out.sense = y.s.k.toNat := by
    obtain ⟨hst, -⟩ := f1
    obtain ⟨hs, hc⟩ | ⟨hs, hc⟩ := hst
    · have : out.sense = -1 := by rw [f2]; simp [Solve.finish, hs]
      simp [centreOf, this, hs]
    · have : out.sense = 1 := by rw [f2]; simp [Solve.finish, hs]
      have := hc.lt
      simp only [centreOf, ‹out.sense = 1›, hs]
      rw [if_neg (by decide)]; omega
  refine ⟨herr, ?_, ?_, fun h0 => ?_, fun h0 => (r.mono trivial q hT hnq (by rw [h0, hx])).2⟩
  · rw [herr]
    constructor
    · intro h s hs
      have := sumCfg_eq_zero_nonneg ds _ (fun _ => sq_nonneg _) h s hs
      exact sub_eq_zero.1 (norm_eq_zero.1 (pow_eq_zero_iff two_ne_zero |>.1 this))
    · intro h
      unfold Solve.residual
      rw [sumCfg_congr (G := fun _ => 0) fun s hs => by rw [h s hs, sub_self]; simp, sumCfg_zero]
  · intro Y hY
    rw [hcen, e0] at hY ⊢
    rw [residual_eq, ← resOf_congr he]
    exact e3 q hT _ ⟨Y, hY, rfl⟩
  · rw [← hxP]
    exact r.closer trivial q hT (by rw [h0, hx])

/-- **C100.**  Single-site algorithm, Hermitian operator (for real operators, the function `adjoint` is the identity, so that this is the
condition under which it is right), data that are brought into canonical form without loss: the function returns `‖H P - Q‖²`, see `Solved` and
`Shaped` in `SolveSpec`. -/
theorem C100_solve {svd : Tensor K → SvdRes K} (hg : GoodSvd svd) (eps : ℝ) {dflt : ℝ} (hd0 : 0 < dflt) {lin : Tensor K → Tensor K → Tensor K}
    (hl : GoodSolve lin) (cgs : Cgs K) {adj : List (Tensor K) → List (Tensor K)} (ha : adj = adjointC ∨ adj = adjointR)
    {ds : List Nat} (hpos : 0 < ds.length) (hds : ∀ d ∈ ds, 0 < d) {H P Q : List (Tensor K)} (hH : WFO 1 H ds 1) (hh : Minim.Hermitian ds H) (hQ : WF 1 Q ds 1)
    (hP : P = [] ∨ WF 1 P ds 1) (hloss : Lossless svd eps dflt H Q) (tolerance solveTol : ℝ) (sense : Int) {sweeps : Nat} (hs : 0 < sweeps)
    (normalize : Bool) (Dmax : Nat) (tol : ℝ) {out : Solve.Out K}
    (ho : solve adj svd eps dflt lin cgs true tolerance solveTol H P Q sense sweeps normalize Dmax tol = some out) :
    Shaped ds sweeps normalize tolerance out ∧ Solved ds H (amp Q) (guess svd eps dflt P Q) out := by
  obtain ⟨hA, hadj⟩ := adjoint_of_hermitian hH hpos hh ha
  obtain ⟨n, rfl⟩ : ∃ n, sweeps = n + 1 := ⟨sweeps - 1, by omega⟩
  obtain ⟨HH, G, x, hi, e⟩ := solve_init hg eps hd0 lin cgs true tolerance solveTol hH hA hadj hQ hpos hP sense n normalize Dmax tol
  rw [e] at ho
  by_cases hsm : normSq ds (canonicalForm svd eps dflt Q (-1)).1 < 1 / 10 ^ 16
  · rw [if_pos hsm] at ho; exact absurd ho (by simp)
  · rw [if_neg hsm] at ho
    obtain ⟨es, h1, r⟩ := loop_spec (opt := True) (near := NearOne) le_rfl (fun x hx r hr => single_pass hg eps hd0 hl hi.hHH hi.sq hi.hG hds hx hr)
      normalize tolerance _ n 0 x [] hi.start ho
    rw [List.nil_append] at h1
    rw [← h1] at r
    obtain ⟨t1, t2⟩ := hi.target hloss.1 hloss.2
    exact ⟨r.shaped hi.lost, Solve.Ran.solved hi.lost (by rw [hi.P, guess_eq]) (target_of_hermitian hh t2) t1 r⟩

/-- **C100**: it returns for every operator that is not zero, if `‖Q‖²` is at least `1e-16` -/
theorem C100_returns {svd : Tensor K → SvdRes K} (hg : GoodSvd svd) (eps : ℝ) {dflt : ℝ} (hd0 : 0 < dflt) {lin : Tensor K → Tensor K → Tensor K}
    (hl : GoodSolve lin) (cgs : Cgs K) {adj : List (Tensor K) → List (Tensor K)} (ha : adj = adjointC ∨ adj = adjointR)
    {ds : List Nat} (hpos : 0 < ds.length) (hds : ∀ d ∈ ds, 0 < d) {H P Q : List (Tensor K)} (hH : WFO 1 H ds 1) (hh : Minim.Hermitian ds H) (hnz : NonZero ds H)
    (hQ : WF 1 Q ds 1) (hq : 1 / 10 ^ 16 ≤ normSq ds Q)
    (hP : P = [] ∨ WF 1 P ds 1) (hloss : Lossless svd eps dflt H Q) (tolerance solveTol : ℝ) (sense : Int) {sweeps : Nat} (hs : 0 < sweeps)
    (normalize : Bool) (Dmax : Nat) (tol : ℝ) :
    ∃ out, solve adj svd eps dflt lin cgs true tolerance solveTol H P Q sense sweeps normalize Dmax tol = some out := by
  obtain ⟨hA, hadj⟩ := adjoint_of_hermitian hH hpos hh ha
  obtain ⟨n, rfl⟩ : ∃ n, sweeps = n + 1 := ⟨sweeps - 1, by omega⟩
  obtain ⟨HH, G, x, hi, e⟩ := solve_init hg eps hd0 lin cgs true tolerance solveTol hH hA hadj hQ hpos hP sense n normalize Dmax tol
  obtain ⟨t1, -⟩ := hi.target hloss.1 hloss.2
  rw [e, if_neg (by rw [t1]; exact not_lt.2 hq)]
  exact loop_returns (I := AtStart ds HH G) (fun x hx => single_pass_runs hg eps hd0 hl hi.hHH (square_nonzero hi.sq hnz) hi.sq hi.hG hds hx)
    normalize tolerance _ n 0 x [] hi.start

/-- **C100**: no sweeps, or a right-hand side that vanishes, are rejected -/
theorem C100_rejects {svd : Tensor K → SvdRes K} (hg : GoodSvd svd) (eps : ℝ) {dflt : ℝ} (hd0 : 0 < dflt) (lin : Tensor K → Tensor K → Tensor K)
    (cgs : Cgs K) (adj : List (Tensor K) → List (Tensor K)) {ds : List Nat} (hpos : 0 < ds.length) (H P : List (Tensor K)) {Q : List (Tensor K)}
    (hQ : WF 1 Q ds 1) (single : Bool) (tolerance solveTol : ℝ) (sense : Int) (sweeps : Nat) (normalize : Bool) (Dmax : Nat) (tol : ℝ)
    (h : sweeps = 0 ∨ ((canonicalForm svd eps dflt Q (-1)).2 = 0 ∧ normSq ds Q < 1 / 10 ^ 16)) :
    solve adj svd eps dflt lin cgs single tolerance solveTol H P Q sense sweeps normalize Dmax tol = none := by
  unfold solve
  simp only
  by_cases h0 : sweeps = 0
  · rw [if_pos h0]
  · obtain ⟨h1, h2⟩ := h.resolve_left h0
    obtain ⟨c1, c2, c3⟩ := canon_open hg eps hd0 hQ hpos
    rw [if_neg h0, norm_first c1 hpos c3, if_pos]
    unfold normSq at h2 ⊢
    rw [sumCfg_congr (G := fun s => ‖amp Q s‖ ^ 2) fun s hs => by rw [c2 h1 s hs]]
    exact h2

/-- the canonical forms are exact if truncation is switched off (`MPS_TRUNCATION_TOLERANCE` at least one) -/
theorem lossless_exact {svd : Tensor K → SvdRes K} (hg : GoodSvd svd) (eps : ℝ) {dflt : ℝ} (hd : 1 ≤ dflt) {ds : List Nat} (hpos : 0 < ds.length)
    {H Q : List (Tensor K)} (hH : WFO 1 H ds 1) (hQ : WF 1 Q ds 1) : Lossless svd eps dflt H Q := by
  have key : ∀ ψ : List (Tensor K), WF 1 ψ ds 1 → (canonicalForm svd eps dflt ψ (-1)).2 = 0 := by
    intro ψ h
    have hl := h.length
    have hne : ψ ≠ [] := by rintro rfl; simp at hl; omega
    exact (C14_canonical_form hg eps dflt ⟨hne, 1, h⟩ (Or.inl (by linarith)) (-1)).2.2 (Or.inr hd)
  refine ⟨key Q hQ, fun HQ h => key HQ ?_⟩
  obtain ⟨HQ', a1, a2, -⟩ := apply_open hH (canon_open hg eps (by linarith) hQ hpos).1 hpos
  rw [h] at a1
  rw [Option.some.inj a1]; exact a2

/-- a function that solves linear equations exists -/
theorem exists_goodSolve : ∃ lin : Tensor K → Tensor K → Tensor K, GoodSolve lin := by
  classical
  have h : ∀ A b : Tensor K, ∃ v : Tensor K, ∀ n : Nat, A.dims = [n, n] → b.dims = [n] → v.dims = [n] ∧
    ((∃ x : Nat → K, ∀ i < n, ∑ j ∈ Finset.range n, A.get [i, j] * x j = b.get [i]) →
      ∀ i < n, ∑ j ∈ Finset.range n, A.get [i, j] * v.get [j] = b.get [i]) := by
    intro A b
    by_cases hx : ∃ x : Nat → K, ∀ i < b.dims.getD 0 0, ∑ j ∈ Finset.range (b.dims.getD 0 0), A.get [i, j] * x j = b.get [i]
    · obtain ⟨x, hx⟩ := hx
      refine ⟨⟨b.dims, fun I => x (I.getD 0 0)⟩, fun n h1 h2 => ⟨h2, fun _ i hi => ?_⟩⟩
      rw [h2] at hx
      exact hx i hi
    · refine ⟨⟨b.dims, fun _ => 0⟩, fun n h1 h2 => ⟨h2, fun hy => absurd ?_ hx⟩⟩
      rw [h2]
      exact hy
  choose lin hlin using h
  exact ⟨lin, fun A b n h1 h2 => hlin A b n h1 h2⟩

/-- C100 is not vacuous: two sites, an operator and a state that are not products, no initial guess -/
example : ∃ (svd : Tensor ℝ → SvdRes ℝ) (lin : Tensor ℝ → Tensor ℝ → Tensor ℝ), GoodSvd svd ∧ GoodSolve lin ∧ ∀ (cgs : Cgs ℝ) (eps dflt : ℝ), 1 ≤ dflt →
    ∃ out, solve adjointR svd eps dflt lin cgs true 1e-14 1e-10 bellH [] bellState (-1) 4 true 0 0 = some out ∧
      out.err = Solve.residual [2, 2] bellH (amp bellState) out.P0 := by
  obtain ⟨svd, hg⟩ := exists_goodSvd (K := ℝ)
  obtain ⟨lin, hl⟩ := exists_goodSolve (K := ℝ)
  refine ⟨svd, lin, hg, hl, fun cgs eps dflt hd => ?_⟩
  have hds : ∀ d ∈ [2, 2], 0 < d := by simp
  have hlo := lossless_exact hg eps hd (by simp) bellH_wf bellState_wf
  have hn : normSq [2, 2] bellState = 2 := by
    obtain ⟨a1, a2, a3, a4⟩ := bellState_amp
    simp [normSq, sumCfg_cons, Finset.sum_range_succ, a1, a2, a3, a4]; norm_num
  have hnz : NonZero [2, 2] bellH := ⟨[0, 0], [0, 0], by simp [IsCfg], by simp [IsCfg], by rw [bellH_elt (by omega) (by omega) (by omega) (by omega)]; norm_num⟩
  obtain ⟨out, ho⟩ := C100_returns hg eps (by linarith) hl cgs (Or.inr rfl) (by simp) hds bellH_wf bellH_hermitian hnz bellState_wf
    (by rw [hn]; norm_num) (Or.inl rfl) hlo 1e-14 1e-10 (-1) (sweeps := 4) (by omega) true 0 0
  exact ⟨out, ho, (C100_solve hg eps (by linarith) hl cgs (Or.inr rfl) (by simp) hds bellH_wf bellH_hermitian bellState_wf (Or.inl rfl) hlo
    1e-14 1e-10 (-1) (by omega) true 0 0 ho).2.err⟩

end MPS.Props
