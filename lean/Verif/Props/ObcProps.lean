import Verif.ObcLemmas4
import Verif.SvdExists
import Verif.Props.MinimizerProps2

/-!
# C80: `simplify_obc`
-/

set_option linter.unusedSectionVars false

namespace MPS.Props
open MPS Tensor Form Minim Obc
variable {K : Type} [RCLike K]

theorem sumCfg_eq_zero_nonneg (ds : List Nat) (F : List Nat → ℝ) (hF : ∀ s, 0 ≤ F s) (h0 : sumCfg ds F = 0) : ∀ s, IsCfg ds s → F s = 0 := by
  induction ds generalizing F with
  | nil => intro s hs; cases hs; simpa using h0
  | cons d ds ih =>
    intro s hs
    cases hs with
    | @cons i _ s _ hi hs =>
    rw [sumCfg_cons] at h0
    have := (Finset.sum_eq_zero_iff_of_nonneg (fun j _ => sumCfg_nonneg _ _ fun s _ => hF (j :: s))).1 h0 i (Finset.mem_range.2 hi)
    exact ih (fun s => F (i :: s)) (fun s => hF _) this s hs

theorem distTo_zero {ds : List Nat} {q : List Nat → K} {ψ : List (Tensor K)} :
    distTo ds q ψ = 0 ↔ ∀ s, IsCfg ds s → amp ψ s = q s := by
  constructor
  · intro h s hs
    have := sumCfg_eq_zero_nonneg ds (fun s => ‖q s - amp ψ s‖ ^ 2) (fun _ => sq_nonneg _) h s hs
    have := norm_eq_zero.1 (pow_eq_zero_iff (two_ne_zero) |>.1 this)
    exact (sub_eq_zero.1 this).symm
  · intro h
    unfold distTo
    rw [sumCfg_congr (G := fun _ => 0) fun s hs => by rw [h s hs]; simp]
    exact sumCfg_zero ds

theorem simplify_core {ds : List Nat} {w : List K} {Q : List (List (Tensor K))} {D : Nat} {normalize : Bool} {tolerance : ℝ} {n : Nat}
    {x : Sim K} {out : Obc.Out K} (hx : x.lost = 0) (hq : normSqOf ds (superpose w Q) ≠ 0) (r : Ran ds w Q D normalize tolerance n 1 x out.errs out) :
    Simplified ds w Q x.P (n + 1) normalize D tolerance out := by
  have hpos : 0 < normSqOf ds (superpose w Q) := lt_of_le_of_ne (normSqOf_nonneg _ _) (Ne.symm hq)
  obtain ⟨y, f1, f2, f3, f4⟩ := r.fin
  have e0 : out.P0 = y.P := by rw [f2]; rfl
  obtain ⟨k, hk, hkn, hc, hs, hcen⟩ : ∃ k, k < ds.length ∧ y.s.k.toNat = k ∧ LCent ds w Q y.P y.lf k ∧ (out.sense = 1 ∨ out.sense = -1) ∧
      centreOf ds.length out.sense = k := by
    obtain ⟨hs, hc⟩ | ⟨hs, hc⟩ := f1
    · have : out.sense = -1 := by rw [f2]; simp [finish, hs]
      exact ⟨0, hc.lt, by rw [hs]; simp, hc, Or.inr this, by simp [centreOf, this]⟩
    · have : out.sense = 1 := by rw [f2]; simp [finish, hs]
      exact ⟨_, hc.lt, by rw [hs]; simp, hc, Or.inl this, by simp [centreOf, this]⟩
  have hlen := hc.wf.length
  have hP : out.P = if normalize then y.P.set k (smul ((1 / Real.sqrt out.norm : ℝ) : K) (site y.P k)) else y.P := by
    conv_lhs => rw [f2]
    simp only [finish, hkn]
  have hsm := path_set_smul hc.wf k (by omega) ((1 / Real.sqrt out.norm : ℝ) : K)
  have hsite : ∀ j, j ≠ k → site out.P j = site y.P j := by
    intro j hj
    rw [hP]; split_ifs
    · rw [site_set _ _ _ _ (by omega), if_neg (by omega)]
    · rfl
  have hdim : ∀ j, (site out.P j).dims = (site y.P j).dims := by
    intro j
    by_cases hj : j = k
    · rw [hP]; split_ifs
      · rw [site_set _ _ _ _ (by omega), if_pos hj, hj]; rfl
      · rfl
    · rw [hsite j hj]
  rw [hkn] at f3
  have hlost := r.lost
  rw [hx] at hlost
  refine ⟨⟨?_, by rw [e0]; exact hc.wf⟩, ⟨hs, ?_⟩, r.norm, r.err, ?_, by rw [e0, hcen]; exact f3, ?_, hlost, ?_, ?_, ?_, ⟨r.count, r.last⟩, r.go, r.stop, ?_⟩
  · rw [hP]; split_ifs
    · exact hsm.1
    · exact hc.wf
  · unfold Described
    unfold centreOf at hcen
    split_ifs at hcen ⊢ with h
    · intro j h0 h1; rw [hsite j (by omega)]; exact hc.hi j (by omega) h1
    · intro j h0; rw [hsite j (by omega)]; exact hc.lo j (by omega)
  · rw [r.err, ← distTo_zero, relDist, Real.sqrt_eq_zero (div_nonneg (distTo_nonneg _ _ _) hpos.le), div_eq_zero_iff]
    simp [hq]
  · have := r.dist
    rw [hx] at this
    linarith
  · intro hn; rw [hP, hn, e0]; rfl
  · intro hn
    rw [hn, if_pos rfl] at hP
    have hamp : ∀ s, IsCfg ds s → amp out.P s = ((1 / Real.sqrt out.norm : ℝ) : K) * amp out.P0 s := by
      intro s hs
      rw [amp_of_WF (by rw [hP]; exact hsm.1) (by rintro h; rw [hP] at h; have := congrArg List.length h; simp only [List.length_set, List.length_nil] at this; omega),
        amp_of_WF (by rw [e0]; exact hc.wf) (by rintro h; rw [e0] at h; have := congrArg List.length h; simp only [List.length_nil] at this; omega),
        Finset.mul_sum, hP, e0]
      exact Finset.sum_congr rfl fun u hu => hsm.2 s hs u (Finset.mem_range.1 hu) u
    refine ⟨hamp, fun h0 => ?_⟩
    unfold normSq
    rw [sumCfg_congr (G := fun s => (1 / out.norm) * ‖amp out.P0 s‖ ^ 2) fun s hs => ?_, sumCfg_mul_left]
    · have : sumCfg ds (fun s => ‖amp out.P0 s‖ ^ 2) = out.norm := r.norm.symm
      rw [this]; field_simp
    · have hn0 : 0 ≤ out.norm := by rw [r.norm]; exact normSq_nonneg _ _
      rw [hamp s hs, norm_mul, mul_pow, RCLike.norm_ofReal, sq_abs, div_pow, Real.sq_sqrt hn0, one_pow]
  · intro hD j hj
    have := f4 j hj hD
    unfold Tensor.dim at this ⊢
    rw [hdim]; exact this
  · intro j hj
    have := r.mono j hj
    rwa [hx, sub_zero] at this

/-- the call of the loop in `simplify_obc` -/
theorem simplify_start {svd : Tensor K → SvdRes K} (hg : GoodSvd svd) (eps : ℝ) {dflt : ℝ} (hd0 : 0 < dflt) (single : Bool) (tolerance : ℝ)
    {ds : List Nat} {w : List K} {Q : List (List (Tensor K))} (hne : Q ≠ []) (hQ : ∀ b ∈ Q, WF 1 b ds 1)
    {P : List (Tensor K)} (hP : WF 1 P ds 1) (hN : 0 < ds.length) (sense : Int)
    (hsense : Described ds.length P sense) {sweeps : Nat} (hsw : 0 < sweeps) (normalize : Bool) (Dmax : Nat) {tol : ℝ} (htol : tol ≠ 0)
    (halg : (single = true ∧ Dmax = 0) ∨ 2 ≤ ds.length) :
    ∃ sweep x, simplifyObc svd eps dflt single tolerance P w Q sense sweeps normalize Dmax tol =
        loop sweep normalize tolerance (normSqOf ds (superpose w Q)) (sweeps - 1) 1 x [] ∧ x.P = P ∧ x.lost = 0 ∧ AtStart ds w Q x ∧
      ∀ x, AtStart ds w Q x → ∃ y, sweep x = some y ∧ Swept ds w Q Dmax x y := by
  have hlen := hP.length
  unfold simplifyObc
  rw [if_neg (by omega), hlen]
  have hm : ∀ b ∈ Q, IsMPS ds b := fun b hb => ⟨by
    rintro rfl
    have := (hQ _ hb).length
    simp at this; omega, 1, hQ b hb⟩
  have hnorm : ∀ k, k < ds.length → (LForm.new w Q P k).norm2 = some (Real.sqrt (normSqOf ds (superpose w Q))) := by
    intro k hk
    obtain ⟨h1, -⟩ := LInv.new (weight := w) (fun b hb => (hQ b hb).length) hne hlen hk
    have := C50_norm (f := LForm.new w Q P k) (ds := ds) (by rw [h1.brasEq]; exact hm)
    rw [h1.weightEq, h1.brasEq] at this
    exact this
  have hsweep : ∀ x, AtStart ds w Q x → ∃ y, (if Dmax = 0 ∧ single = true then singleSweep svd eps dflt ds.length
      else twoSweep svd eps dflt Dmax tol ds.length) x = some y ∧ Swept ds w Q Dmax x y := by
    by_cases h : Dmax = 0 ∧ single = true
    · intro x hx
      rw [if_pos h, h.1]; exact single_sweep hg eps hd0 hne hQ hx
    · intro x hx
      rw [if_neg h]
      exact two_sweep hg eps hd0 hne hQ Dmax htol (halg.resolve_left fun hh => h ⟨hh.2, hh.1⟩) hx
  have key : ∀ s : Sweeper, s.k.toNat < ds.length →
      ((LForm.new w Q P s.k.toNat).norm2.bind fun nq => loop (if Dmax = 0 ∧ single = true then singleSweep svd eps dflt ds.length
        else twoSweep svd eps dflt Dmax tol ds.length) normalize tolerance (nq ^ 2) (sweeps - 1) 1 ⟨P, LForm.new w Q P s.k.toNat, s, 0⟩ []) =
      loop (if Dmax = 0 ∧ single = true then singleSweep svd eps dflt ds.length
        else twoSweep svd eps dflt Dmax tol ds.length) normalize tolerance (normSqOf ds (superpose w Q)) (sweeps - 1) 1
        ⟨P, LForm.new w Q P s.k.toNat, s, 0⟩ [] := by
    intro s hs
    rw [hnorm _ hs, Option.bind_some, Real.sq_sqrt (normSqOf_nonneg _ _)]
  have hform : ∀ k, k < ds.length → LGood ds w Q (LForm.new w Q P k) (P.take k, P.drop (k + 1)) := fun k hk =>
    LGood.new (fun b hb => (hQ b hb).length) hne hlen hk
  unfold Described at hsense
  unfold Sweeper.new
  rw [if_pos (by omega)]
  by_cases h : sense < 0
  · rw [if_pos (show -sense > 0 by omega), Option.bind_some]
    rw [if_pos h] at hsense
    refine ⟨_, _, key _ (by simpa using hN), rfl, rfl,
      Or.inl ⟨rfl, ⟨hN, hP, hform 0 hN, fun j hj => by omega, fun j h0 h1 => hsense j h0 h1⟩⟩, hsweep⟩
  · rw [if_neg (show ¬ -sense > 0 by omega), Option.bind_some]
    rw [if_neg h] at hsense
    refine ⟨_, _, key _ (by simp; omega), rfl, rfl,
      Or.inr ⟨rfl, ⟨by omega, hP, ?_, fun j hj => hsense j (by omega), fun j h0 h1 => by omega⟩⟩, hsweep⟩
    have := hform (ds.length - 1) (by omega)
    simp only
    rwa [show (((ds.length : Int) - 1).toNat) = ds.length - 1 by omega]

/-- **C80.**  Every call of `simplify_obc` on a state in the canonical form that `sense` describes returns, and the result is as
promised. -/
theorem C80_simplify_obc {svd : Tensor K → SvdRes K} (hg : GoodSvd svd) (eps : ℝ) {dflt : ℝ} (hd0 : 0 < dflt) (single : Bool) (tolerance : ℝ)
    {ds : List Nat} {w : List K} {Q : List (List (Tensor K))} (hne : Q ≠ []) (hQ : ∀ b ∈ Q, WF 1 b ds 1)
    (hq : ∃ s, IsCfg ds s ∧ superpose w Q s ≠ 0) {P : List (Tensor K)} (hP : WF 1 P ds 1) (hN : 0 < ds.length) (sense : Int)
    (hsense : Described ds.length P sense) {sweeps : Nat} (hsw : 0 < sweeps) (normalize : Bool) (Dmax : Nat) {tol : ℝ} (htol : tol ≠ 0)
    (halg : (single = true ∧ Dmax = 0) ∨ 2 ≤ ds.length) :
    ∃ out, simplifyObc svd eps dflt single tolerance P w Q sense sweeps normalize Dmax tol = some out ∧
      Simplified ds w Q P sweeps normalize Dmax tolerance out := by
  have hq0 : normSqOf ds (superpose w Q) ≠ 0 := by
    intro h
    obtain ⟨s, hs, h1⟩ := hq
    have := sumCfg_eq_zero_nonneg ds (fun s => ‖superpose w Q s‖ ^ 2) (fun _ => sq_nonneg _) h s hs
    exact h1 (norm_eq_zero.1 (pow_eq_zero_iff (two_ne_zero) |>.1 this))
  obtain ⟨n, rfl⟩ : ∃ n, sweeps = n + 1 := ⟨sweeps - 1, by omega⟩
  obtain ⟨sweep, x, h0, rfl, hx, hs, hsweep⟩ := simplify_start hg eps hd0 single tolerance hne hQ (w := w) hP hN sense hsense hsw normalize Dmax htol halg
  rw [h0]
  obtain ⟨out, es, h1, h2, h3⟩ := loop_spec hsweep normalize tolerance hq0 n 1 _ [] hs
  rw [List.nil_append] at h2
  rw [← h2] at h3
  exact ⟨out, h1, simplify_core hx hq0 h3⟩

/-- **C80**, the part that does not need a non-zero target: the result is a state of the same chain, with bonds up to `Dmax` -/
theorem C80_bonds {svd : Tensor K → SvdRes K} (hg : GoodSvd svd) (eps : ℝ) {dflt : ℝ} (hd0 : 0 < dflt) (single : Bool) (tolerance : ℝ)
    {ds : List Nat} {w : List K} {Q : List (List (Tensor K))} (hne : Q ≠ []) (hQ : ∀ b ∈ Q, WF 1 b ds 1)
    {P : List (Tensor K)} (hP : WF 1 P ds 1) (hN : 0 < ds.length) (sense : Int)
    (hsense : Described ds.length P sense) {sweeps : Nat} (hsw : 0 < sweeps) (normalize : Bool) (Dmax : Nat) {tol : ℝ} (htol : tol ≠ 0)
    (halg : (single = true ∧ Dmax = 0) ∨ 2 ≤ ds.length) :
    ∃ out, simplifyObc svd eps dflt single tolerance P w Q sense sweeps normalize Dmax tol = some out ∧ WF 1 out.P ds 1 ∧
      (0 < Dmax → ∀ j, j + 1 < ds.length → (site out.P j).dim 2 ≤ Dmax) := by
  obtain ⟨sweep, x, h0, rfl, hx, hs, hsweep⟩ := simplify_start hg eps hd0 single tolerance hne hQ (w := w) hP hN sense hsense hsw normalize Dmax htol halg
  rw [h0]
  obtain ⟨out, h1, h2, h3⟩ := loop_struct hsweep normalize tolerance (normSqOf ds (superpose w Q)) (sweeps - 1) 1 _ [] hs
  exact ⟨out, h1, h2, fun hD j hj => h3 j hj hD⟩

/-- `simplify_obc(P, Q, ...)` is the same function with one vector and weight one, /repo/src/dmrg/simplify_obc_d.cc:32-40,
/repo/src/dmrg/simplify_obc_z.cc:32-40 -/
theorem superpose_one (Q : List (Tensor K)) : superpose [1] [Q] = amp Q := by
  funext s; simp [superpose]

theorem zeroState_described (sense : Int) : Described 2 zeroState sense := by
  unfold Described
  split_ifs
  · intro j h0 h1
    obtain rfl : j = 1 := by omega
    intro a a' h2 h3
    simp [zeroState, site, dim, nrm] at h2 h3 ⊢
    obtain rfl : a = 0 := by omega
    obtain rfl : a' = 0 := by omega
    simp [Finset.sum_range_succ]
  · intro j h0
    obtain rfl : j = 0 := by omega
    intro a a' h2 h3
    simp [zeroState, site, dim, nrm] at h2 h3 ⊢
    obtain rfl : a = 0 := by omega
    obtain rfl : a' = 0 := by omega
    simp [Finset.sum_range_succ]

/-- the hypotheses can be met: the state `|00⟩ + |11⟩` approximated by product states, starting from `|00⟩` -/
example (svd : Tensor ℝ → SvdRes ℝ) (hg : GoodSvd svd) (sense : Int) :
    ∃ out, simplifyObc svd 0 (1 / 10 ^ 15) false (1 / 10 ^ 10) zeroState [1] [bellState] sense 12 true 1 (-1) = some out ∧
      Simplified [2, 2] [1] [bellState] zeroState 12 true 1 (1 / 10 ^ 10) out :=
  C80_simplify_obc hg 0 (by norm_num) false _ (by simp) (by simpa using bellState_wf)
    ⟨[0, 0], List.Forall₂.cons (by omega) (List.Forall₂.cons (by omega) List.Forall₂.nil), by rw [superpose_one, bellState_amp.1]; simp⟩ zeroState_wf (by simp) sense (zeroState_described sense) (by omega)
    true 1 (by norm_num) (Or.inr (by simp))

example : ∃ svd : Tensor ℝ → SvdRes ℝ, GoodSvd svd := exists_goodSvd

end MPS.Props
