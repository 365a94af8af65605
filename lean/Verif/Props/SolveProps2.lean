import Verif.SolveLemmas10
import Verif.Props.SolveProps

/-!
# `solve(H, &P, Q, ...)`: the two-site algorithm
-/

set_option linter.unusedSectionVars false
set_option linter.unusedSimpArgs false

namespace MPS.Props
open MPS Tensor Form Minim Obc Solve
variable {K : Type} [RCLike K]

theorem Solve.Ran.solved2 {cgs : Cgs K} {ds : List Nat} {H HH G P : List (Tensor K)} {normalize : Bool} {tolerance nq : ℝ} {n D : Nat} {x : St K}
    {out : Solve.Out K} (hx : x.lost = 0) (hxP : x.P = P) {q : List Nat → K} (hT : Target ds H (amp G) q) (hnq : nq = normSqOf ds q)

    (r : Ran ds H HH G 1 D (DescentCgs cgs) (NearTwo cgs ds) normalize tolerance nq n 0 x out.errs out) : Solved2 cgs ds H q P D out := by
  obtain ⟨y, f1, f2, e, e1, e2, e3, e4⟩ := r.fin
  have e0 : out.P0 = y.P := by rw [f2]; rfl
  rw [hx, sub_zero, one_mul] at e2
  have herr : out.err = resOf ds H q e := by rw [e1, hnq, value_eq hT]
  have hsame : out.lost = 0 → out.err = residual ds H q out.P0 := by
    intro h0
    rw [herr, residual_eq, e0]
    exact resOf_congr (eq_of_dist h0 e2)
  have hcen : centreOf ds.length out.sense = y.s.k.toNat := by
    obtain ⟨hst, -⟩ := f1
    obtain ⟨hs, hc⟩ | ⟨hs, hc⟩ := hst
    · have : out.sense = -1 := by rw [f2]; simp [Solve.finish, hs]
      simp [centreOf, this, hs]
    · have : out.sense = 1 := by rw [f2]; simp [Solve.finish, hs]
      have := hc.lt
      simp only [centreOf, ‹out.sense = 1›, hs]
      rw [if_neg (by decide)]; omega
  refine ⟨⟨e, herr, by rw [e0]; exact e2⟩, hsame, fun h0 => ?_, fun hi Z hZ hs => ?_, fun hd h0 => ?_, fun hd h0 => (r.mono hd q hT hnq (by rw [h0, hx])).2, ?_⟩
  · rw [hsame h0]
    constructor
    · intro h s hs
      have := sumCfg_eq_zero_nonneg ds _ (fun _ => sq_nonneg _) h s hs
      exact sub_eq_zero.1 (norm_eq_zero.1 (pow_eq_zero_iff two_ne_zero |>.1 this))
    · intro h
      unfold Solve.residual
      rw [sumCfg_congr (G := fun _ => 0) fun s hs => by rw [h s hs, sub_self]; simp, sumCfg_zero]
  · rw [herr]
    rw [hcen, e0] at hs
    exact e3 q hT Z ⟨hi, hZ, hs⟩
  · rw [← hxP]
    exact r.closer hd q hT (by rw [h0, hx])
  · intro hD j hj
    have hP : (site out.P j).dims = (site y.P j).dims := by
      rw [f2]
      simp only [Solve.finish]
      split_ifs
      · by_cases hl : y.s.k.toNat < y.P.length
        · rw [site_set _ _ _ _ hl]
          split_ifs with h
          · rw [h]; rfl
          · rfl
        · rw [List.set_eq_of_length_le (by omega)]
      · rfl
    unfold dim
    rw [hP]
    exact e4 hD j hj

/-- **C101.**  Two-site algorithm, Hermitian operator, data that are brought into canonical form without loss; `cgs` is any function that returns
something of the right size.  The tolerance given by the flag `MPS_SOLVE_TOLERANCE` is positive (a tolerance 0 for the truncation could leave no
singular value at all). -/
theorem C101_solve {svd : Tensor K → SvdRes K} (hg : GoodSvd svd) (eps : ℝ) {dflt : ℝ} (hd0 : 0 < dflt) (lin : Tensor K → Tensor K → Tensor K)
    {cgs : Cgs K} (hsz : SizedCgs cgs) {adj : List (Tensor K) → List (Tensor K)} (ha : adj = adjointC ∨ adj = adjointR)
    {ds : List Nat} (h2 : 1 < ds.length) (hds : ∀ d ∈ ds, 0 < d) {H P Q : List (Tensor K)} (hH : WFO 1 H ds 1) (hh : Minim.Hermitian ds H) (hQ : WF 1 Q ds 1)
    (hP : P = [] ∨ WF 1 P ds 1) (hloss : Lossless svd eps dflt H Q) (tolerance : ℝ) {solveTol : ℝ} (hst : 0 < solveTol) (sense : Int) {sweeps : Nat}
    (hs : 0 < sweeps) (normalize : Bool) (Dmax : Nat) (tol : ℝ) {out : Solve.Out K}
    (ho : solve adj svd eps dflt lin cgs false tolerance solveTol H P Q sense sweeps normalize Dmax tol = some out) :
    Shaped ds sweeps normalize tolerance out ∧ Solved2 cgs ds H (amp Q) (guess svd eps dflt P Q) Dmax out := by
  have hpos : 0 < ds.length := by omega
  obtain ⟨hA, hadj⟩ := adjoint_of_hermitian hH hpos hh ha
  obtain ⟨n, rfl⟩ : ∃ n, sweeps = n + 1 := ⟨sweeps - 1, by omega⟩
  obtain ⟨HH, G, x, hi, e⟩ := solve_init hg eps hd0 lin cgs false tolerance solveTol hH hA hadj hQ hpos hP sense n normalize Dmax tol
  have htol : (if tol ≤ 0 then solveTol else tol) ≠ 0 := by split_ifs with h <;> [exact hst.ne'; exact (not_le.1 h).ne']
  rw [e] at ho
  by_cases hsm : normSq ds (canonicalForm svd eps dflt Q (-1)).1 < 1 / 10 ^ 16
  · rw [if_pos hsm] at ho; exact absurd ho (by simp)
  · rw [if_neg hsm] at ho
    obtain ⟨es, h1, r⟩ := loop_spec (opt := DescentCgs cgs) (near := NearTwo cgs ds) zero_le_one
      (fun x hx r hr => two_pass hg eps hd0 hsz hi.hHH hi.sq hi.hG hds Dmax htol h2 hx hr) normalize tolerance _ n 0 x [] hi.start ho
    rw [List.nil_append] at h1
    rw [← h1] at r
    obtain ⟨t1, t2⟩ := hi.target hloss.1 hloss.2
    exact ⟨r.shaped hi.lost, Solve.Ran.solved2 hi.lost (by rw [hi.P, guess_eq]) (target_of_hermitian hh t2) t1 r⟩

/-- it returns -/
theorem C101_returns {svd : Tensor K → SvdRes K} (hg : GoodSvd svd) (eps : ℝ) {dflt : ℝ} (hd0 : 0 < dflt) (lin : Tensor K → Tensor K → Tensor K)
    {cgs : Cgs K} (hsz : SizedCgs cgs) {adj : List (Tensor K) → List (Tensor K)} (ha : adj = adjointC ∨ adj = adjointR)
    {ds : List Nat} (h2 : 1 < ds.length) (hds : ∀ d ∈ ds, 0 < d) {H P Q : List (Tensor K)} (hH : WFO 1 H ds 1) (hh : Minim.Hermitian ds H)
    (hnz : NonZero ds H) (hQ : WF 1 Q ds 1) (hq : 1 / 10 ^ 16 ≤ normSq ds Q)
    (hP : P = [] ∨ WF 1 P ds 1) (hloss : Lossless svd eps dflt H Q) (tolerance : ℝ) {solveTol : ℝ} (hst : 0 < solveTol) (sense : Int) {sweeps : Nat}
    (hs : 0 < sweeps) (normalize : Bool) (Dmax : Nat) (tol : ℝ) :
    ∃ out, solve adj svd eps dflt lin cgs false tolerance solveTol H P Q sense sweeps normalize Dmax tol = some out := by
  have hpos : 0 < ds.length := by omega
  obtain ⟨hA, hadj⟩ := adjoint_of_hermitian hH hpos hh ha
  obtain ⟨n, rfl⟩ : ∃ n, sweeps = n + 1 := ⟨sweeps - 1, by omega⟩
  obtain ⟨HH, G, x, hi, e⟩ := solve_init hg eps hd0 lin cgs false tolerance solveTol hH hA hadj hQ hpos hP sense n normalize Dmax tol
  have htol : (if tol ≤ 0 then solveTol else tol) ≠ 0 := by split_ifs with h <;> [exact hst.ne'; exact (not_le.1 h).ne']
  obtain ⟨t1, -⟩ := hi.target hloss.1 hloss.2
  rw [e, if_neg (by rw [t1]; exact not_lt.2 hq)]
  exact loop_returns (I := AtStart ds HH G) (fun x hx => two_pass_runs hg eps hd0 hsz hi.hHH (square_nonzero hi.sq hnz) hi.sq hi.hG hds Dmax htol h2 hx)
    normalize tolerance _ n 0 x [] hi.start

/-- a solution makes `⟨y|A y⟩ - 2 Re ⟨b|y⟩` minimal -/
theorem quad_min {A : Tensor K → Tensor K} {d : List Nat} {M : List Nat → List Nat → K} (h : PsdMap A d M) (hpos : ∀ n ∈ d, 0 < n) {b x z : Tensor K}
    (hb : b.dims = d) (hx : x.dims = d) (hz : z.dims = d) (hsol : ∀ I, IsCfg d I → (A z).get I = b.get I) : quad A b z ≤ quad A b x := by
  have hq : ∀ y : Tensor K, y.dims = d → quad A b y = RCLike.re (sumCfg d fun I => star (y.get I) * sumCfg d fun J => M I J * y.get J) -
      2 * RCLike.re (sumCfg d fun I => star (b.get I) * y.get I) := by
    intro y hy
    unfold quad
    rw [tscprod_eq (by rw [hy, (h.map y hy).1]) (by rw [(h.map y hy).1]; exact hpos), tscprod_eq (by rw [hy, hb]) (by rw [hy]; exact hpos), (h.map y hy).1, hy]
    congr 2
    exact sumCfg_congr fun I hI => by rw [(h.map y hy).2 I hI]
  have hM : ∀ I, IsCfg d I → (sumCfg d fun J => M I J * z.get J) = b.get I := fun I hI => by rw [← (h.map z hz).2 I hI, hsol I hI]
  have h0 := h.psd fun I => x.get I - z.get I
  have e1 : (sumCfg d fun I => star (x.get I) * sumCfg d fun J => M I J * z.get J) = star (sumCfg d fun I => star (b.get I) * x.get I) := by
    rw [sumCfg_star]
    exact sumCfg_congr fun I hI => by rw [hM I hI, star_mul', star_star, mul_comm]
  have e2 : (sumCfg d fun I => star (z.get I) * sumCfg d fun J => M I J * x.get J) = sumCfg d fun I => star (b.get I) * x.get I := by
    simp only [← sumCfg_mul_left]
    rw [sumCfg_comm]
    refine sumCfg_congr fun J hJ => ?_
    rw [← hM J hJ, sumCfg_star, ← sumCfg_mul_right]
    refine sumCfg_congr fun I hI => ?_
    rw [star_mul', h.herm J I hJ hI]; ring
  have e3 : (sumCfg d fun I => star (z.get I) * sumCfg d fun J => M I J * z.get J) = star (sumCfg d fun I => star (b.get I) * z.get I) := by
    rw [sumCfg_star]
    exact sumCfg_congr fun I hI => by rw [hM I hI, star_mul', star_star, mul_comm]
  have e4 : (sumCfg d fun I => star (x.get I - z.get I) * sumCfg d fun J => M I J * (x.get J - z.get J)) =
      (sumCfg d fun I => star (x.get I) * sumCfg d fun J => M I J * x.get J) - (sumCfg d fun I => star (x.get I) * sumCfg d fun J => M I J * z.get J) -
      (sumCfg d fun I => star (z.get I) * sumCfg d fun J => M I J * x.get J) + (sumCfg d fun I => star (z.get I) * sumCfg d fun J => M I J * z.get J) := by
    have s1 : ∀ F G : List Nat → K, sumCfg d (fun I => F I - G I) = sumCfg d F - sumCfg d G := by
      intro F G
      have := sumCfg_add d (fun I => F I - G I) G
      simp only [sub_add_cancel] at this
      rw [this]; ring
    have s2 : ∀ I, (sumCfg d fun J => M I J * (x.get J - z.get J)) = (sumCfg d fun J => M I J * x.get J) - sumCfg d fun J => M I J * z.get J := by
      intro I; rw [← s1]; exact sumCfg_congr fun J _ => by ring
    simp only [s2]
    rw [← s1, ← s1, ← sumCfg_add]
    exact sumCfg_congr fun I _ => by rw [star_sub]; ring
  rw [e4, e1, e2, e3] at h0
  rw [hq z hz, hq x hx, e3]
  simp only [map_sub, map_add, RCLike.star_def, RCLike.conj_re] at h0 ⊢
  linarith

/-- a function with all the properties asked from `cgs` exists -/
theorem exists_goodCgs : ∃ cgs : Cgs K, SizedCgs cgs ∧ DescentCgs cgs ∧ IdealCgs cgs := by
  classical
  let good (A : Tensor K → Tensor K) (b x : Tensor K) : Prop :=
    ∃ y : Tensor K, y.dims = x.dims ∧ quad A b y ≤ quad A b x ∧ ∀ I, IsCfg x.dims I → (A y).get I = b.get I
  refine ⟨fun A b x _ _ => if h : good A b x then h.choose else x, fun A b x n tol => ?_, ?_, ?_⟩
  · dsimp only
    split_ifs with h
    · exact h.choose_spec.1
    · rfl
  · intro A b x n tol d M hM hb hx
    dsimp only
    split_ifs with h
    · exact h.choose_spec.2.1
    · exact le_rfl
  · rintro A b x n tol d M hM hb hx ⟨y, hy, hs⟩ I hI
    dsimp only
    have hpos : ∀ n ∈ d, 0 < n := by
      have key : ∀ {d I : List Nat}, IsCfg d I → ∀ n ∈ d, 0 < n := by
        intro d I h
        induction h with
        | nil => simp
        | cons h1 h2 ih =>
          intro n hn
          rcases List.mem_cons.1 hn with rfl | hn
          · omega
          · exact ih n hn
      exact key hI
    have h : good A b x := ⟨y, by rw [hx, hy], quad_min hM hpos hb hx hy hs, by rw [hx]; exact hs⟩
    rw [dif_pos h]
    exact h.choose_spec.2.2 I (by rw [hx]; exact hI)

/-- C101 is not vacuous: two sites, an operator and a state that are not products, no initial guess -/
example : ∃ (svd : Tensor ℝ → SvdRes ℝ) (cgs : Cgs ℝ), GoodSvd svd ∧ SizedCgs cgs ∧ DescentCgs cgs ∧ IdealCgs cgs ∧
    ∀ (lin : Tensor ℝ → Tensor ℝ → Tensor ℝ) (eps dflt : ℝ), 1 ≤ dflt →
    ∃ out, solve adjointR svd eps dflt lin cgs false 1e-14 1e-10 bellH [] bellState (-1) 4 true 3 0 = some out ∧
      Solved2 cgs [2, 2] bellH (amp bellState) (guess svd eps dflt [] bellState) 3 out := by
  obtain ⟨svd, hg⟩ := exists_goodSvd (K := ℝ)
  obtain ⟨cgs, h1, h2, h3⟩ := exists_goodCgs (K := ℝ)
  refine ⟨svd, cgs, hg, h1, h2, h3, fun lin eps dflt hd => ?_⟩
  have hds : ∀ d ∈ [2, 2], 0 < d := by simp
  have hlo := lossless_exact hg eps hd (by simp) bellH_wf bellState_wf
  have hn : normSq [2, 2] bellState = 2 := by
    obtain ⟨a1, a2, a3, a4⟩ := bellState_amp
    simp [normSq, sumCfg_cons, Finset.sum_range_succ, a1, a2, a3, a4]; norm_num
  have hnz : NonZero [2, 2] bellH := ⟨[0, 0], [0, 0], by simp [IsCfg], by simp [IsCfg], by rw [bellH_elt (by omega) (by omega) (by omega) (by omega)]; norm_num⟩
  obtain ⟨out, ho⟩ := C101_returns hg eps (by linarith) lin h1 (Or.inr rfl) (by simp) hds bellH_wf bellH_hermitian hnz bellState_wf
    (by rw [hn]; norm_num) (Or.inl rfl) hlo 1e-14 (solveTol := 1e-10) (by norm_num) (-1) (sweeps := 4) (by omega) true 3 0
  exact ⟨out, ho, (C101_solve hg eps (by linarith) lin h1 (Or.inr rfl) (by simp) hds bellH_wf bellH_hermitian bellState_wf (Or.inl rfl) hlo
    1e-14 (by norm_num) (-1) (by omega) true 3 0 ho).2⟩

end MPS.Props
