import Verif.SolveLemmas4
import Verif.Props.ObcProps

/-!
# The loop of `solve`
-/

set_option linter.unusedSectionVars false
set_option linter.unusedSimpArgs false

namespace MPS.Solve
open MPS Tensor Form Minim Obc
variable {K : Type} [RCLike K]

/-- a pass of the loop over the sweeps -/
def PassOk (ds : List Nat) (H HH G : List (Tensor K)) (θ : ℝ) (D : Nat) (opt : Prop) (near : List (Tensor K) → Nat → List (Tensor K) → Prop)
    (x : St K) (r : St K × ℝ) : Prop :=
  ∃ y, Swept ds H HH G θ D opt near x y r.2 ∧ r.1 = { y with s := y.s.flip }

theorem single_pass {svd : Tensor K → SvdRes K} (hg : GoodSvd svd) (eps : ℝ) {dflt : ℝ} (hd0 : 0 < dflt) {lin : Tensor K → Tensor K → Tensor K}
    (hl : GoodSolve lin) {ds : List Nat} {H HH G : List (Tensor K)} (hHH : WFO 1 HH ds 1) (hsq : IsSquare ds H HH) (hG : WF 1 G ds 1)
    (hds : ∀ x ∈ ds, 0 < x) {x : St K} {r : St K × ℝ} (hx : AtStart ds HH G x) (hrun : singlePass svd eps dflt lin ds.length x = some r) :
    PassOk ds H HH G 0 0 True NearOne x r := by
  unfold singlePass at hrun
  obtain ⟨y, h1, h2⟩ := Option.map_eq_some_iff.1 hrun
  subst h2
  exact ⟨y, single_sweep hg eps hd0 hl hHH hsq hG hds hx h1, rfl⟩

/-- what the state looks like at the end of a pass, in terms of the flipped sweeper -/
structure AtEnd (ds : List Nat) (HH G : List (Tensor K)) (y : St K) : Prop where
  start : AtStart ds HH G y
  iso : if y.s.dk > 0 then ∀ j, 0 < j → j < ds.length → RightIso (site y.P j) else ∀ j, j + 1 < ds.length → LeftIso (site y.P j)

theorem flip_end {ds : List Nat} {H HH G : List (Tensor K)} {θ : ℝ} {D : Nat} {opt : Prop} {near : List (Tensor K) → Nat → List (Tensor K) → Prop}
    {x y : St K} {nrm : ℝ} (hx : AtStart ds HH G x) (h : Swept ds H HH G θ D opt near x y nrm) :
    AtEnd ds HH G { y with s := y.s.flip } ∧ y.s.flip.k = y.s.k := by
  have h1 := h.s
  have h2 := h.cent
  have h3 := h.iso
  obtain ⟨hs, hc⟩ | ⟨hs, hc⟩ := hx
  · have hk : y.s = ⟨(ds.length : Int) - 1, 0, (ds.length : Int) - 1, 1⟩ := by rw [h1, hs]
    rw [hs] at h3
    rw [hk] at h2 ⊢
    have := hc.lt
    refine ⟨⟨Or.inr ⟨rfl, ?_⟩, ?_⟩, rfl⟩
    · rw [show (((ds.length : Int) - 1).toNat) = ds.length - 1 by omega] at h2
      exact ⟨h2.lt, h2.wf, h2.l, h2.q⟩
    · simpa [Sweeper.flip] using h3
  · have hk : y.s = ⟨0, (ds.length : Int) - 1, 0, -1⟩ := by rw [h1, hs]
    rw [hs] at h3
    rw [hk] at h2 ⊢
    refine ⟨⟨Or.inl ⟨rfl, ⟨h2.lt, h2.wf, h2.l, h2.q⟩⟩, ?_⟩, rfl⟩
    simpa [Sweeper.flip] using h3

/-- what the loop guarantees: `e` is the wave function of the last local problem -/
structure Ran (ds : List Nat) (H HH G : List (Tensor K)) (θ : ℝ) (D : Nat) (opt : Prop) (near : List (Tensor K) → Nat → List (Tensor K) → Prop)
    (normalize : Bool) (tolerance nq : ℝ) (sweeps : Nat) (olderr : ℝ) (x : St K) (es : List ℝ) (out : Out K) : Prop where
  fin : ∃ y, AtEnd ds HH G y ∧ out = finish normalize y out.err out.errs ∧ ∃ e, out.err = value ds H (amp G) nq e ∧
    sumCfg ds (fun s => ‖e s - amp y.P s‖ ^ 2) ≤ θ * (out.lost - x.lost) ∧
    (∀ q, Target ds H (amp G) q → ∀ Z, near y.P y.s.k.toNat Z → resOf ds H q e ≤ residual ds H q Z) ∧
    (0 < D → ∀ j, j + 1 < ds.length → (site y.P j).dim 2 ≤ D)
  last : ∃ es', es = es' ++ [out.err]
  count : es.length ≤ sweeps + 1
  lost : x.lost ≤ out.lost
  closer : opt → ∀ q, Target ds H (amp G) q → out.lost = x.lost → residual ds H q out.P0 ≤ residual ds H q x.P
  mono : opt → ∀ q, Target ds H (amp G) q → nq = normSqOf ds q → out.lost = x.lost →
    es.getD 0 0 ≤ residual ds H q x.P ∧ ∀ j, j + 1 < es.length → es.getD (j + 1) 0 ≤ es.getD j 0
  go : ∀ j, j + 1 < es.length → ¬ StopRule tolerance ((olderr :: es).getD j 0) (es.getD j 0)
  stop : es.length < sweeps + 1 → StopRule tolerance ((olderr :: es).getD (es.length - 1) 0) out.err

theorem eq_of_dist {ds : List Nat} {e f : List Nat → K} {c : ℝ} (hc : c = 0) (h : sumCfg ds (fun s => ‖e s - f s‖ ^ 2) ≤ c) :
    ∀ s, IsCfg ds s → e s = f s := by
  intro s hs
  have h0 : sumCfg ds (fun s => ‖e s - f s‖ ^ 2) = 0 := le_antisymm (by rw [hc] at h; exact h) (sumCfg_nonneg _ _ fun _ _ => sq_nonneg _)
  have := Props.sumCfg_eq_zero_nonneg ds _ (fun _ => sq_nonneg _) h0 s hs
  exact sub_eq_zero.1 (norm_eq_zero.1 (pow_eq_zero_iff (two_ne_zero) |>.1 this))

/-- the error of one pass -/
theorem pass_err {ds : List Nat} {H HH G : List (Tensor K)} {θ : ℝ} {D : Nat} {opt : Prop} {near : List (Tensor K) → Nat → List (Tensor K) → Prop}
    {x y : St K} {nrm nq : ℝ} (h : Swept ds H HH G θ D opt near x y nrm) {q : List Nat → K} (hq : Target ds H (amp G) q) (hnq : nq = normSqOf ds q)
    (h0 : y.lost = x.lost) : nrm + nq - 2 * RCLike.re (tscprod y.vHQ y.vP) = residual ds H q y.P := by
  obtain ⟨e, e1, e2, e3, -⟩ := h.val
  have he := eq_of_dist (by rw [h0]; ring) e3
  rw [residual_eq, ← resOf_congr he, ← value_eq hq, value, e1, e2, hnq]

theorem loop_spec {ds : List Nat} {H HH G : List (Tensor K)} {θ : ℝ} (hθ : 0 ≤ θ) {D : Nat} {opt : Prop} {near : List (Tensor K) → Nat → List (Tensor K) → Prop}
    {pass : St K → Option (St K × ℝ)} (hp : ∀ x, AtStart ds HH G x → ∀ r, pass x = some r → PassOk ds H HH G θ D opt near x r)
    (normalize : Bool) (tolerance nq : ℝ) (sweeps : Nat) (olderr : ℝ) (x : St K) (errs : List ℝ) (hx : AtStart ds HH G x) {out : Out K}
    (hrun : loop pass normalize tolerance nq sweeps olderr x errs = some out) :
    ∃ es, out.errs = errs ++ es ∧ Ran ds H HH G θ D opt near normalize tolerance nq sweeps olderr x es out := by
  induction sweeps generalizing olderr x errs with
  | zero =>
    rw [loop] at hrun
    obtain ⟨r, h1, h2⟩ := Option.bind_eq_some_iff.1 hrun
    obtain ⟨y, hy, hr⟩ := hp x hx r h1
    obtain ⟨f1, f2⟩ := flip_end hx hy
    simp only [ite_self, Option.some.injEq] at h2
    subst h2
    obtain ⟨e, e1, e2, e3, e4⟩ := hy.val
    have hvals : r.1.vHQ = y.vHQ ∧ r.1.vP = y.vP ∧ r.1.P = y.P ∧ r.1.lost = y.lost ∧ r.1.s = y.s.flip := by rw [hr]; exact ⟨rfl, rfl, rfl, rfl, rfl⟩
    obtain ⟨v1, v2, v3, v4, v5⟩ := hvals
    refine ⟨[r.2 + nq - 2 * RCLike.re (tscprod r.1.vHQ r.1.vP)], rfl, ⟨⟨r.1, by rw [hr]; exact f1, rfl, e, ?_, ?_, ?_, by rw [v3]; exact hy.bond⟩, ⟨[], rfl⟩, by simp, ?_, ?_, ?_, by simp, by simp⟩⟩
    · simp only [finish, value]; rw [v1, v2, e1, e2]
    · simp only [finish, v3, v4]; exact e3
    · rw [v3, v5, f2]; exact e4
    · simp only [finish, v4]; exact hy.lost
    · intro ho q hq h0
      simp only [finish, v3, v4] at h0 ⊢
      exact hy.mono ho q hq h0
    · intro ho q hq hnq h0
      simp only [finish, v4] at h0
      refine ⟨?_, by simp⟩
      simp only [List.getD_cons_zero]
      rw [v1, v2, pass_err hy hq hnq h0]
      exact hy.mono ho q hq h0
  | succ sweeps ih =>
    rw [loop] at hrun
    obtain ⟨r, h1, h2⟩ := Option.bind_eq_some_iff.1 hrun
    obtain ⟨y, hy, hr⟩ := hp x hx r h1
    obtain ⟨f1, f2⟩ := flip_end hx hy
    have hvals : r.1.vHQ = y.vHQ ∧ r.1.vP = y.vP ∧ r.1.P = y.P ∧ r.1.lost = y.lost ∧ r.1.s = y.s.flip := by rw [hr]; exact ⟨rfl, rfl, rfl, rfl, rfl⟩
    obtain ⟨v1, v2, v3, v4, v5⟩ := hvals
    simp only at h2
    set er := r.2 + nq - 2 * RCLike.re (tscprod r.1.vHQ r.1.vP) with her
    by_cases hst : StopRule tolerance olderr er
    · rw [if_pos (show olderr ≠ 0 ∧ (olderr - er < 1 / 10 ^ 5 * |olderr| ∨ er < tolerance) from hst), Option.some.injEq] at h2
      subst h2
      obtain ⟨e, e1, e2, e3, e4⟩ := hy.val
      refine ⟨[er], rfl, ⟨⟨r.1, by rw [hr]; exact f1, rfl, e, ?_, ?_, ?_, by rw [v3]; exact hy.bond⟩, ⟨[], rfl⟩, by simp, ?_, ?_, ?_, by simp,
        fun _ => by simp only [List.length_singleton, Nat.sub_self, List.getD_cons_zero]; exact hst⟩⟩
      · simp only [finish, value, her]; rw [v1, v2, e1, e2]
      · simp only [finish, v3, v4]; exact e3
      · rw [v3, v5, f2]; exact e4
      · simp only [finish, v4]; exact hy.lost
      · intro ho q hq h0
        simp only [finish, v3, v4] at h0 ⊢
        exact hy.mono ho q hq h0
      · intro ho q hq hnq h0
        simp only [finish, v4] at h0
        refine ⟨?_, by simp⟩
        simp only [List.getD_cons_zero]
        rw [her, v1, v2, pass_err hy hq hnq h0]
        exact hy.mono ho q hq h0
    · rw [if_neg (show ¬ (olderr ≠ 0 ∧ (olderr - er < 1 / 10 ^ 5 * |olderr| ∨ er < tolerance)) from hst)] at h2
      have hstart : AtStart ds HH G r.1 := by rw [hr]; exact f1.start
      obtain ⟨es, r2, rr⟩ := ih er r.1 (errs ++ [er]) hstart h2
      obtain ⟨es', hes'⟩ := rr.last
      have hl := hy.lost
      have hl' := rr.lost
      rw [v4] at hl'
      have hlen : es.length = es'.length + 1 := by rw [hes']; simp
      refine ⟨er :: es, by rw [r2]; simp, ⟨?_, ⟨er :: es', by rw [hes']; simp⟩, ?_, by linarith, ?_, ?_, ?_, ?_⟩⟩
      · obtain ⟨z, z1, z2, e, z3, z4, z5, z6⟩ := rr.fin
        refine ⟨z, z1, z2, e, z3, le_trans z4 ?_, z5, z6⟩
        rw [v4]
        exact mul_le_mul_of_nonneg_left (by linarith) hθ
      · have := rr.count; simp only [List.length_cons]; omega
      · intro ho q hq h0
        have := rr.closer ho q hq (by rw [v4]; linarith)
        rw [v3] at this
        exact this.trans (hy.mono ho q hq (by linarith))
      · intro ho q hq hnq h0
        have e0 : er = residual ds H q y.P := by rw [her, v1, v2, pass_err hy hq hnq (by linarith)]
        obtain ⟨m1, m2⟩ := rr.mono ho q hq hnq (by rw [v4]; linarith)
        rw [v3, ← e0] at m1
        refine ⟨by rw [List.getD_cons_zero, e0]; exact hy.mono ho q hq (by linarith), fun j hj => ?_⟩
        cases j with
        | zero => rw [List.getD_cons_succ, List.getD_cons_zero]; exact m1
        | succ j => rw [List.getD_cons_succ, List.getD_cons_succ]; exact m2 j (by simpa using hj)
      · intro j hj
        cases j with
        | zero => simpa using hst
        | succ j => rw [List.getD_cons_succ, List.getD_cons_succ]; exact rr.go j (by simpa using hj)
      · intro h
        have := rr.stop (by simpa using h)
        rw [List.length_cons, show es.length + 1 - 1 = (es.length - 1) + 1 by omega, List.getD_cons_succ]
        exact this

theorem loop_returns {pass : St K → Option (St K × ℝ)} {I : St K → Prop} (hp : ∀ x, I x → ∃ r, pass x = some r ∧ I r.1) (normalize : Bool)
    (tolerance nq : ℝ) (sweeps : Nat) (olderr : ℝ) (x : St K) (errs : List ℝ) (hx : I x) :
    ∃ out, loop pass normalize tolerance nq sweeps olderr x errs = some out := by
  induction sweeps generalizing olderr x errs with
  | zero =>
    obtain ⟨r, h1, -⟩ := hp x hx
    rw [loop, h1, Option.bind_some]
    simp only [ite_self]
    exact ⟨_, rfl⟩
  | succ sweeps ih =>
    obtain ⟨r, h1, h2⟩ := hp x hx
    rw [loop, h1, Option.bind_some]
    simp only
    split_ifs
    · exact ⟨_, rfl⟩
    · exact ih _ _ _ h2

theorem frob_at {ds : List Nat} {P : List (Tensor K)} (h : WF 1 P ds 1) {k : Nat} (hk : k < ds.length)
    (hl : ∀ j < k, LeftIso (site P j)) (hr : ∀ j, k < j → j < ds.length → RightIso (site P j)) : frob (site P k) = Real.sqrt (normSq ds P) := by
  obtain ⟨a, b, w1, w2, w3, p1, p2, p3⟩ := WF.around h hk
  rw [normSq_at h hk hl hr, w2, ← Real.sqrt_sq (show 0 ≤ frob (site P k) from Real.sqrt_nonneg _), frob_sq w2]
  congr 1

/-- the shape of the result -/
theorem Ran.shaped {ds : List Nat} {H HH G : List (Tensor K)} {θ : ℝ} {D : Nat} {opt : Prop} {near : List (Tensor K) → Nat → List (Tensor K) → Prop}
    {normalize : Bool} {tolerance nq : ℝ} {n : Nat} {x : St K} {out : Out K} (hx : x.lost = 0)
    (r : Ran ds H HH G θ D opt near normalize tolerance nq n 0 x out.errs out) : Shaped ds (n + 1) normalize tolerance out := by
  obtain ⟨y, f1, f2, -⟩ := r.fin
  have e0 : out.P0 = y.P := by rw [f2]; rfl
  have hlost := r.lost
  rw [hx] at hlost
  obtain ⟨k, hk, hkn, hw, hs, hlo, hhi, hcen⟩ : ∃ k, k < ds.length ∧ y.s.k.toNat = k ∧ WF 1 y.P ds 1 ∧ (out.sense = 1 ∨ out.sense = -1) ∧
      (∀ j < k, LeftIso (site y.P j)) ∧ (∀ j, k < j → j < ds.length → RightIso (site y.P j)) ∧ centreOf ds.length out.sense = k := by
    obtain ⟨hst, hiso⟩ := f1
    obtain ⟨hs, hc⟩ | ⟨hs, hc⟩ := hst
    · have : out.sense = -1 := by rw [f2]; simp [finish, hs]
      rw [hs, if_pos (show (1 : Int) > 0 by decide)] at hiso
      exact ⟨0, hc.lt, by rw [hs]; simp, hc.wf, Or.inr this, by omega, hiso, by simp [centreOf, this]⟩
    · have : out.sense = 1 := by rw [f2]; simp [finish, hs]
      rw [hs, if_neg (show ¬ (-1 : Int) > 0 by decide)] at hiso
      exact ⟨_, hc.lt, by rw [hs]; simp, hc.wf, Or.inl this, fun j hj => hiso j (by omega), by omega, by simp [centreOf, this]⟩
  have hlen := hw.length
  have hfr := frob_at hw hk hlo hhi
  have hP : out.P = if normalize then y.P.set k (smul ((1 / Real.sqrt (normSq ds y.P) : ℝ) : K) (site y.P k)) else y.P := by
    conv_lhs => rw [f2]
    simp only [finish, hkn, hfr]
  have hsm := Props.path_set_smul hw k (by omega) ((1 / Real.sqrt (normSq ds y.P) : ℝ) : K)
  have hsite : ∀ j, j ≠ k → site out.P j = site y.P j := by
    intro j hj
    rw [hP]; split_ifs
    · rw [site_set _ _ _ _ (by omega), if_neg (by omega)]
    · rfl
  have hdesc : ∀ P : List (Tensor K), (∀ j, j ≠ k → site P j = site y.P j) → Described ds.length P out.sense := by
    intro P hsite
    unfold Described
    unfold centreOf at hcen
    split_ifs at hcen ⊢ with h
    · intro j h0 h1; rw [hsite j (by omega)]; exact hhi j (by omega) h1
    · intro j h0; rw [hsite j (by omega)]; exact hlo j (by omega)
  have hamp : normalize = true → ∀ s, IsCfg ds s → amp out.P s = ((1 / Real.sqrt (normSq ds y.P) : ℝ) : K) * amp y.P s := by
    intro hn s hs
    rw [hP, if_pos hn]
    have hne : y.P ≠ [] := by intro h; rw [h] at hlen; simp at hlen; omega
    have hne' : y.P.set k (smul ((1 / Real.sqrt (normSq ds y.P) : ℝ) : K) (site y.P k)) ≠ [] := by simp [hne]
    rw [amp_of_WF hsm.1 hne', amp_of_WF hw hne, Finset.sum_range_one, Finset.sum_range_one, hsm.2 s hs 0 (by omega)]
  refine ⟨⟨?_, by rw [e0]; exact hw⟩, ⟨hs, hdesc _ hsite, by rw [e0]; exact hdesc _ fun _ _ => rfl⟩, ?_, ?_, ⟨r.count, r.last⟩, r.go, r.stop, hlost⟩
  · rw [hP]; split_ifs
    · exact hsm.1
    · exact hw
  · intro hn
    rw [hP, e0, hn]; simp
  · intro hn
    rw [e0]
    refine ⟨hamp hn, fun h0 => ?_⟩
    have hpos : 0 < normSq ds y.P := lt_of_le_of_ne (sumCfg_nonneg _ _ fun _ _ => sq_nonneg _) (Ne.symm h0)
    unfold normSq at hpos ⊢
    rw [sumCfg_congr (G := fun s => (1 / Real.sqrt (normSq ds y.P)) ^ 2 * ‖amp y.P s‖ ^ 2) fun s hs => by
      rw [hamp hn s hs, norm_mul, mul_pow, RCLike.norm_ofReal, sq_abs]]
    rw [sumCfg_mul_left, div_pow, Real.sq_sqrt (show 0 ≤ normSq ds y.P from sumCfg_nonneg _ _ fun _ _ => sq_nonneg _), one_pow]
    unfold normSq
    exact one_div_mul_cancel hpos.ne'

end MPS.Solve
