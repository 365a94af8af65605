import Verif.Props.SolveProps2

/-!
# `solve(H, &P, Q, ...)` for operators that are not Hermitian

The linear form is made from `H Q`, where the normal equations ask for `H† Q`.
-/

set_option linter.unusedSectionVars false
set_option linter.unusedSimpArgs false

namespace MPS.Props
open MPS Tensor Form Minim Obc Solve
variable {K : Type} [RCLike K]

/-- what the loop finds, for any `q` with `H† q = g` -/
theorem Solve.Ran.found {ds : List Nat} {H HH G P : List (Tensor K)} {normalize : Bool} {tolerance nq : ℝ} {n : Nat} {x : St K} {out : Solve.Out K}
    (hx : x.lost = 0) (hxP : x.P = P) {q : List Nat → K} (hT : Target ds H (amp G) q)
    (r : Ran ds H HH G 0 0 True NearOne normalize tolerance nq n 0 x out.errs out) :
    out.err = residual ds H q out.P0 + nq - normSqOf ds q ∧
    (∀ Y : Tensor K, Y.dims = (site out.P0 (centreOf ds.length out.sense)).dims →
      residual ds H q out.P0 ≤ residual ds H q (out.P0.set (centreOf ds.length out.sense) Y)) ∧
    (out.lost = 0 → residual ds H q out.P0 ≤ residual ds H q P) := by
  obtain ⟨y, f1, f2, e, e1, e2, e3, -⟩ := r.fin
  have e0 : out.P0 = y.P := by rw [f2]; rfl
  have he := eq_of_dist (by ring) e2
  have hcen : centreOf ds.length out.sense = y.s.k.toNat := by
    obtain ⟨hst, -⟩ := f1
    obtain ⟨hs, hc⟩ | ⟨hs, hc⟩ := hst
    · have : out.sense = -1 := by rw [f2]; simp [Solve.finish, hs]
      simp [centreOf, this, hs]
    · have : out.sense = 1 := by rw [f2]; simp [Solve.finish, hs]
      have := hc.lt
      simp only [centreOf, ‹out.sense = 1›, hs]
      rw [if_neg (by decide)]; omega
  refine ⟨?_, ?_, fun h0 => ?_⟩
  · rw [e1]
    have : value ds H (amp G) nq e = value ds H (amp G) (normSqOf ds q) e + nq - normSqOf ds q := by unfold value; ring
    rw [this, value_eq hT, residual_eq, e0, resOf_congr he]
  · intro Y hY
    rw [hcen, e0] at hY ⊢
    rw [residual_eq, ← resOf_congr he]
    exact e3 q hT _ ⟨Y, hY, rfl⟩
  · rw [← hxP]
    exact r.closer trivial q hT (by rw [h0, hx])

/-- `H† q = g`, element by element -/
theorem target_of_adjoint {ds : List Nat} {H : List (Tensor K)} {g q : List Nat → K}
    (h : ∀ s, IsCfg ds s → g s = sumCfg ds fun t => star (opElt H t s) * q t) : Target ds H g q := by
  intro e
  unfold MPS.inner act actOp
  rw [sumCfg_congr (G := fun s => sumCfg ds fun t => star (q t) * (opElt H t s * e s)) fun s hs => by
    rw [h s hs, sumCfg_star, ← sumCfg_mul_right]
    exact sumCfg_congr fun t _ => by rw [star_mul', star_star]; ring]
  rw [sumCfg_comm]
  exact sumCfg_congr fun t _ => by rw [sumCfg_mul_left]

/-- **C102 (partial).**  What the single-site algorithm computes for any operator of type `CMPO`: the best approximation of `H P = q'`, where
`H† q' = H Q`; the value returned is `‖H P - q'‖² + ‖Q‖² - ‖q'‖²`.  For a Hermitian operator `q' = Q` is possible, in general it is not. -/
theorem C102_any_operator_partial {svd : Tensor K → SvdRes K} (hg : GoodSvd svd) (eps : ℝ) {dflt : ℝ} (hd0 : 0 < dflt) {lin : Tensor K → Tensor K → Tensor K}
    (hl : GoodSolve lin) (cgs : Cgs K) {ds : List Nat} (hpos : 0 < ds.length) (hds : ∀ d ∈ ds, 0 < d) {H P Q : List (Tensor K)} (hH : WFO 1 H ds 1)
    (hQ : WF 1 Q ds 1) (hP : P = [] ∨ WF 1 P ds 1) (hloss : Lossless svd eps dflt H Q) (tolerance solveTol : ℝ) (sense : Int) {sweeps : Nat} (hs : 0 < sweeps)
    (normalize : Bool) (Dmax : Nat) (tol : ℝ) {out : Solve.Out K} {q' : List Nat → K}
    (hq' : ∀ s, IsCfg ds s → actOp ds (opElt H) (amp Q) s = sumCfg ds fun t => star (opElt H t s) * q' t)
    (ho : solve adjointC svd eps dflt lin cgs true tolerance solveTol H P Q sense sweeps normalize Dmax tol = some out) :
    Shaped ds sweeps normalize tolerance out ∧
    out.err = residual ds H q' out.P0 + normSq ds Q - normSqOf ds q' ∧
    (∀ Y : Tensor K, Y.dims = (site out.P0 (centreOf ds.length out.sense)).dims →
      residual ds H q' out.P0 ≤ residual ds H q' (out.P0.set (centreOf ds.length out.sense) Y)) ∧
    (out.lost = 0 → residual ds H q' out.P0 ≤ residual ds H q' (guess svd eps dflt P Q)) := by
  have hlen := hH.length
  have hadj : IsAdjoint ds (adjointC H) H := (adjointC_spec ⟨by rintro rfl; simp at hlen; omega, 1, hH⟩).2
  obtain ⟨n, rfl⟩ : ∃ n, sweeps = n + 1 := ⟨sweeps - 1, by omega⟩
  obtain ⟨HH, G, x, hi, e⟩ := solve_init hg eps hd0 lin cgs true tolerance solveTol hH (adjoint_WFO hH) hadj hQ hpos hP sense n normalize Dmax tol
  rw [e] at ho
  by_cases hsm : normSq ds (canonicalForm svd eps dflt Q (-1)).1 < 1 / 10 ^ 16
  · rw [if_pos hsm] at ho; exact absurd ho (by simp)
  · rw [if_neg hsm] at ho
    obtain ⟨es, h1, r⟩ := loop_spec (opt := True) (near := NearOne) le_rfl (fun x hx r hr => single_pass hg eps hd0 hl hi.hHH hi.sq hi.hG hds hx hr)
      normalize tolerance _ n 0 x [] hi.start ho
    rw [List.nil_append] at h1
    rw [← h1] at r
    obtain ⟨t1, t2⟩ := hi.target hloss.1 hloss.2
    rw [t1] at r
    refine ⟨r.shaped hi.lost, Solve.Ran.found hi.lost (by rw [hi.P, guess_eq]) (target_of_adjoint fun s hs => ?_) r⟩
    rw [t2 s hs]
    exact hq' s hs

/-- it returns -/
theorem C102_returns {svd : Tensor K → SvdRes K} (hg : GoodSvd svd) (eps : ℝ) {dflt : ℝ} (hd0 : 0 < dflt) {lin : Tensor K → Tensor K → Tensor K}
    (hl : GoodSolve lin) (cgs : Cgs K) {ds : List Nat} (hpos : 0 < ds.length) (hds : ∀ d ∈ ds, 0 < d) {H P Q : List (Tensor K)} (hH : WFO 1 H ds 1)
    (hnz : NonZero ds H) (hQ : WF 1 Q ds 1) (hq : 1 / 10 ^ 16 ≤ normSq ds Q)
    (hP : P = [] ∨ WF 1 P ds 1) (hloss : Lossless svd eps dflt H Q) (tolerance solveTol : ℝ) (sense : Int) {sweeps : Nat} (hs : 0 < sweeps)
    (normalize : Bool) (Dmax : Nat) (tol : ℝ) :
    ∃ out, solve adjointC svd eps dflt lin cgs true tolerance solveTol H P Q sense sweeps normalize Dmax tol = some out := by
  have hlen := hH.length
  have hadj : IsAdjoint ds (adjointC H) H := (adjointC_spec ⟨by rintro rfl; simp at hlen; omega, 1, hH⟩).2
  obtain ⟨n, rfl⟩ : ∃ n, sweeps = n + 1 := ⟨sweeps - 1, by omega⟩
  obtain ⟨HH, G, x, hi, e⟩ := solve_init hg eps hd0 lin cgs true tolerance solveTol hH (adjoint_WFO hH) hadj hQ hpos hP sense n normalize Dmax tol
  obtain ⟨t1, -⟩ := hi.target hloss.1 hloss.2
  rw [e, if_neg (by rw [t1]; exact not_lt.2 hq)]
  exact loop_returns (I := AtStart ds HH G) (fun x hx => single_pass_runs hg eps hd0 hl hi.hHH (square_nonzero hi.sq hnz) hi.sq hi.hG hds hx)
    normalize tolerance _ n 0 x [] hi.start

/-- the operator `(1 1; 0 1)` -/
def shearH : List (Tensor ℂ) := [⟨[1, 2, 2, 1], fun I => if I.getD 1 0 = 1 ∧ I.getD 2 0 = 0 then 0 else 1⟩]

/-- the state `(1, 0)` -/
def shearQ : List (Tensor ℂ) := [⟨[1, 2, 1], fun I => if I.getD 1 0 = 0 then 1 else 0⟩]

theorem shearH_wf : WFO 1 shearH [2] 1 := .cons rfl (by omega) (by omega) (by omega) (.nil 1)
theorem shearQ_wf : WF 1 shearQ [2] 1 := .cons rfl (by omega) (by omega) (by omega) (.nil 1)

theorem shearH_elt {i j : Nat} : opElt shearH [i] [j] = if i = 1 ∧ j = 0 then 0 else 1 := by
  rw [opElt_of_WFO shearH_wf (by simp [shearH])]
  simp [shearH, opPath, dim]

theorem amp_one {T : Tensor ℂ} (h : T.dims = [1, 2, 1]) (i : Nat) : amp [T] [i] = T.get [0, i, 0] := by
  rw [amp_of_WF (.cons h (by omega) (by omega) (by omega) (.nil 1)) (by simp)]
  simp [path, dim, h]

theorem wf_one {P : List (Tensor ℂ)} (h : WF 1 P [2] 1) : ∃ T : Tensor ℂ, P = [T] ∧ T.dims = [1, 2, 1] := by
  cases h with
  | @cons _ _ c _ A As _ a1 _ _ _ h => cases h; exact ⟨A, rfl, a1⟩

/-- **C102 is false**: one site, `H = (1 1; 0 1)`, `Q = (1, 0)`.  The equation is solved by `P = (1, 0)`; the function returns the error `-1` and the
state `(2, -1)`, for which `‖H P - Q‖² = 1`. -/
theorem C102_violated {svd : Tensor ℂ → SvdRes ℂ} (hg : GoodSvd svd) (eps : ℝ) {dflt : ℝ} (hd : 1 ≤ dflt) {lin : Tensor ℂ → Tensor ℂ → Tensor ℂ}
    (hl : GoodSolve lin) (cgs : Cgs ℂ) (tolerance solveTol : ℝ) (sense : Int) {sweeps : Nat} (hs : 0 < sweeps) (Dmax : Nat) (tol : ℝ) :
    ∃ out, solve adjointC svd eps dflt lin cgs true tolerance solveTol shearH [] shearQ sense sweeps false Dmax tol = some out ∧
      out.err = -1 ∧ amp out.P [0] = 2 ∧ amp out.P [1] = -1 ∧ residual [2] shearH (amp shearQ) out.P = 1 ∧
      residual [2] shearH (amp shearQ) shearQ = 0 := by
  have hds : ∀ d ∈ [2], 0 < d := by simp
  have hlo := lossless_exact hg eps hd (by simp) shearH_wf shearQ_wf
  have q0 : amp shearQ [0] = 1 := by rw [shearQ, amp_one rfl]; rfl
  have q1 : amp shearQ [1] = 0 := by rw [shearQ, amp_one rfl]; rfl
  have hn : normSq [2] shearQ = 1 := by
    simp [normSq, sumCfg_cons, Finset.sum_range_succ, q0, q1]
  have hnz : NonZero [2] shearH := ⟨[0], [0], by simp [IsCfg], by simp [IsCfg], by rw [shearH_elt]; norm_num⟩
  obtain ⟨out, ho⟩ := C102_returns hg eps (by linarith) hl cgs (by simp) hds shearH_wf hnz shearQ_wf (by rw [hn]; norm_num) (Or.inl rfl) hlo
    tolerance solveTol sense hs false Dmax tol
  have hres : ∀ (q : List Nat → ℂ) (P : List (Tensor ℂ)), residual [2] shearH q P =
      ‖amp P [0] + amp P [1] - q [0]‖ ^ 2 + ‖amp P [1] - q [1]‖ ^ 2 := by
    intro q P
    simp [Solve.residual, actOp, sumCfg_cons, Finset.sum_range_succ, shearH_elt]
  obtain ⟨sh, h1, h2, -⟩ := C102_any_operator_partial (q' := fun s => if s = [0] then 1 else -1) hg eps (by linarith) hl cgs (by simp) hds shearH_wf
    shearQ_wf (Or.inl rfl) hlo tolerance solveTol sense hs false Dmax tol (by
      intro s hs
      match s, hs with
      | [i], hs =>
        have hi : i < 2 := (isCfg_cons.1 hs).1
        interval_cases i <;> simp [actOp, sumCfg_cons, Finset.sum_range_succ, shearH_elt, q0, q1]) ho
  have hc : centreOf [2].length out.sense = 0 := by unfold centreOf; split_ifs <;> simp
  rw [hc] at h2
  obtain ⟨T, hT, hTd⟩ : ∃ T : Tensor ℂ, out.P0 = [T] ∧ T.dims = [1, 2, 1] := by
    exact wf_one sh.wf.2
  rw [hT] at h2
  have hz := h2 ⟨[1, 2, 1], fun I => if I.getD 1 0 = 0 then 2 else -1⟩ (by simp [site, hTd])
  simp only [List.set_cons_zero] at hz
  have w0 : amp [(⟨[1, 2, 1], fun I => if I.getD 1 0 = 0 then 2 else -1⟩ : Tensor ℂ)] [0] = 2 := by rw [amp_one rfl]; rfl
  have w1 : amp [(⟨[1, 2, 1], fun I => if I.getD 1 0 = 0 then 2 else -1⟩ : Tensor ℂ)] [1] = -1 := by rw [amp_one rfl]; rfl
  rw [hres, hres, w0, w1] at hz
  norm_num at hz
  have z1 : amp [T] [0] + amp [T] [1] - 1 = 0 := by
    have : ‖amp [T] [0] + amp [T] [1] - 1‖ ^ 2 ≤ 0 := le_trans (le_add_of_nonneg_right (sq_nonneg _)) hz
    exact norm_eq_zero.1 (pow_eq_zero_iff two_ne_zero |>.1 (le_antisymm this (sq_nonneg _)))
  have z2 : amp [T] [1] + 1 = 0 := by
    have : ‖amp [T] [1] + 1‖ ^ 2 ≤ 0 := le_trans (le_add_of_nonneg_left (sq_nonneg _)) hz
    exact norm_eq_zero.1 (pow_eq_zero_iff two_ne_zero |>.1 (le_antisymm this (sq_nonneg _)))
  have y1 : amp [T] [1] = -1 := eq_neg_of_add_eq_zero_left z2
  have y0 : amp [T] [0] = 2 := by rw [y1] at z1; linear_combination z1
  have hPP : out.P = [T] := by rw [sh.keep rfl, hT]
  refine ⟨out, ho, ?_, by rw [hPP, y0], by rw [hPP, y1], ?_, ?_⟩
  · rw [h1, hT, hres, hn, y0, y1]
    simp [normSqOf, sumCfg_cons, Finset.sum_range_succ]
    norm_num
  · rw [hPP, hres, y0, y1, q0, q1]; norm_num
  · rw [hres, q0, q1]; norm_num

end MPS.Props
