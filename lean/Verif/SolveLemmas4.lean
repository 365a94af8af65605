import Verif.SolveLemmas3

/-!
# Sweeps of the single-site version of `solve`
-/

set_option linter.unusedSectionVars false
set_option linter.unusedSimpArgs false

namespace MPS.Solve
open MPS Tensor Form Minim Obc
variable {K : Type} [RCLike K]

/-- the number computed after a sweep: `⟨e|H†H|e⟩ + nq - 2 Re ⟨g|e⟩` -/
noncomputable def value (ds : List Nat) (H : List (Tensor K)) (g : List Nat → K) (nq : ℝ) (e : List Nat → K) : ℝ :=
  RCLike.re (MPS.inner ds (act ds H e) (act ds H e)) + nq - 2 * RCLike.re (MPS.inner ds g e)

/-- `⟨g|e⟩ = ⟨q|H e⟩` for all `e` -/
def Target (ds : List Nat) (H : List (Tensor K)) (g q : List Nat → K) : Prop := ∀ e, MPS.inner ds g e = MPS.inner ds q (act ds H e)

theorem value_eq {ds : List Nat} {H : List (Tensor K)} {g q : List Nat → K} (h : Target ds H g q) (e : List Nat → K) :
    value ds H g (normSqOf ds q) e = resOf ds H q e := by
  rw [resOf_expand, value, h]

theorem value_congr {ds : List Nat} {H : List (Tensor K)} {g : List Nat → K} {nq : ℝ} {e e' : List Nat → K} (h : ∀ s, IsCfg ds s → e s = e' s) :
    value ds H g nq e = value ds H g nq e' := by
  have h1 : act ds H e = act ds H e' := by funext s; exact act_congr h s
  have h2 : MPS.inner ds g e = MPS.inner ds g e' := inner_congr (fun _ _ => rfl) h
  rw [value, value, h1, h2]

/-- one pass of the loop over the sites: `x` before, `y` after, `e` the wave function of the solution of the local problem -/
structure Stepped (ds : List Nat) (H HH G : List (Tensor K)) (lin : Tensor K → Tensor K → Tensor K) (x y : St K) (k : Nat) : Prop where
  s : y.s = x.s
  cent : Cent ds HH G y (nextCentre ds.length x.s.dk k)
  lost : x.lost ≤ y.lost
  val : ∃ Z : Tensor K, Z.dims = (site x.P k).dims ∧
    RCLike.re (tscprod y.vP (mmult y.Heff y.vP)) = RCLike.re (MPS.inner ds (act ds H (amp (x.P.set k Z))) (act ds H (amp (x.P.set k Z)))) ∧
    tscprod y.vHQ y.vP = MPS.inner ds (amp G) (amp (x.P.set k Z)) ∧
    (y.lost = x.lost → ∀ s, IsCfg ds s → amp y.P s = amp (x.P.set k Z) s) ∧
    (nextCentre ds.length x.s.dk k = k → y.P = x.P.set k Z ∧ y.lost = x.lost) ∧
    (∀ q, Target ds H (amp G) q → (∀ x ∈ ds, 0 < x) → ∀ Y : Tensor K, Y.dims = (site x.P k).dims →
      residual ds H q (x.P.set k Z) ≤ residual ds H q (x.P.set k Y))
  iso : nextCentre ds.length x.s.dk k ≠ k → if x.s.dk > 0 then LeftIso (site y.P k) else RightIso (site y.P k)
  same : ∀ j, j ≠ k → j ≠ nextCentre ds.length x.s.dk k → site y.P j = site x.P j

theorem single_step {svd : Tensor K → SvdRes K} (hg : GoodSvd svd) (eps : ℝ) {dflt : ℝ} (hd0 : 0 < dflt) {lin : Tensor K → Tensor K → Tensor K}
    (hl : GoodSolve lin) {ds : List Nat} {H HH G : List (Tensor K)} (hHH : WFO 1 HH ds 1) (hsq : IsSquare ds H HH) (hG : WF 1 G ds 1)
    {x y : St K} {k : Nat} (hc : Cent ds HH G x k) (hk : x.s.k.toNat = k) (hrun : singleStep svd eps dflt lin x = some y) :
    Stepped ds H HH G lin x y k := by
  unfold singleStep at hrun
  simp only [hk] at hrun
  by_cases hne : x.qf.singleSiteMatrix.isEmpty = true
  · rw [if_pos hne] at hrun; exact absurd hrun (by simp)
  rw [if_neg hne] at hrun
  simp only [Option.some.injEq] at hrun
  have hloc := hc.single hHH hsq hG (by simpa using hne)
  obtain ⟨hklt, hw, hlf, hqf⟩ := hc
  have hlen := hw.length
  set X := conj x.lf.singleSiteVector with hX
  set M := x.qf.singleSiteMatrix with hM
  set v := lin M (flatten X) with hv
  set d := (site x.P k).dims with hd
  have hXd : X.dims = d := hloc.Xdims
  have hvd : v.dims = [d.prod] := (hl M (flatten X) d.prod hloc.Mdims (flatten_dims hXd)).1
  set Z := reshape v d with hZ
  have hZd : Z.dims = d := rfl
  set φ := x.P.set k Z with hφ
  obtain ⟨a, b, w1, w2, w3, p1, p2, p3⟩ := WF.around hw hklt
  have wφ : WF 1 φ ds 1 := WF.replace hklt hlen w1 w3 (by rw [hZd, hd, w2]) p1 p2 p3
  have hsφ : site φ k = Z := by rw [hφ, site_set _ _ _ _ (by omega), if_pos rfl]
  have hcan : setCanonical svd eps dflt φ k (site φ k) x.s.dk true = setCanonical svd eps dflt x.P k Z x.s.dk true := by
    rw [hsφ]
    have := setCanonical_set svd eps dflt x.P k (by omega) Z x.s.dk true
    rwa [hsφ] at this
  have st := store hg eps hd0 wφ hklt x.s.dk
  rw [hcan] at st
  rw [hXd] at hrun
  set c := setCanonical svd eps dflt x.P k Z x.s.dk true with hcdef
  obtain ⟨s1, s2, s3, s4, s5, s6⟩ := st
  have hsame : ∀ j, j ≠ k → j ≠ nextCentre ds.length x.s.dk k → site c.1 j = site x.P j := fun j h1 h2 => by
    rw [s5 j h1 h2, hφ, site_set _ _ _ _ (by omega), if_neg h1]
  have hnc : nextCentre ds.length x.s.dk k < ds.length := by unfold nextCentre; split_ifs <;> omega
  obtain ⟨e1, e2⟩ := hloc.values hvd
  have hE : (⟨d, (reshape v d).get⟩ : Tensor K) = Z := rfl
  rw [hE, ← hφ] at e1 e2
  subst hrun
  refine ⟨rfl, ⟨hnc, s1, ?_, ?_⟩, ?_, ⟨Z, rfl, ?_, e2, ?_, ?_, ?_⟩, s4, hsame⟩
  · exact move_form (by simp) (by simpa using hG) hklt hlen s1.length x.s.dk hlf hsame
  · exact move_cache hHH hklt hlen s1.length x.s.dk hqf hsame
  · simp only; linarith
  · rw [e1]
  · simp only; intro h0; exact s3 (by linarith)
  · intro h0
    rw [s6 h0]
    exact ⟨rfl, by simp⟩
  · intro q hq hds Y hY
    have := hloc.best hds (fun Y => hq _) hl Y.get
    rw [residual_eq, residual_eq]
    have hY' : (⟨d, Y.get⟩ : Tensor K) = Y := by
      cases Y; simp only at hY; rw [hY]
    rwa [hY'] at this

/-- the start of a sweep -/
def AtStart (ds : List Nat) (HH G : List (Tensor K)) (x : St K) : Prop :=
  (x.s = ⟨0, 0, (ds.length : Int) - 1, 1⟩ ∧ Cent ds HH G x 0) ∨
  (x.s = ⟨(ds.length : Int) - 1, (ds.length : Int) - 1, 0, -1⟩ ∧ Cent ds HH G x (ds.length - 1))

/-- what a sweep achieves: it ends at the last site, `e` is the wave function of the last local problem.  `θ` is `0` if the state
is always `e`, `1` if `e` has been truncated in the end.  `D` bounds the bonds, unless it is zero. -/
structure Swept (ds : List Nat) (H HH G : List (Tensor K)) (θ : ℝ) (D : Nat) (opt : Prop) (near : List (Tensor K) → Nat → List (Tensor K) → Prop)
    (x y : St K) (nrm : ℝ) : Prop where
  s : y.s = { x.s with k := x.s.kN }
  cent : Cent ds HH G y y.s.k.toNat
  lost : x.lost ≤ y.lost
  val : ∃ e, nrm = RCLike.re (MPS.inner ds (act ds H e) (act ds H e)) ∧ tscprod y.vHQ y.vP = MPS.inner ds (amp G) e ∧
    sumCfg ds (fun s => ‖e s - amp y.P s‖ ^ 2) ≤ θ * (y.lost - x.lost) ∧
    (∀ q, Target ds H (amp G) q → ∀ Z, near y.P y.s.k.toNat Z → resOf ds H q e ≤ residual ds H q Z)
  iso : if x.s.dk > 0 then ∀ j, j + 1 < ds.length → LeftIso (site y.P j) else ∀ j, 0 < j → j < ds.length → RightIso (site y.P j)
  mono : opt → ∀ q, Target ds H (amp G) q → y.lost = x.lost → residual ds H q y.P ≤ residual ds H q x.P
  bond : 0 < D → ∀ j, j + 1 < ds.length → (site y.P j).dim 2 ≤ D

/-- another tensor at the site `k` -/
def NearOne (P : List (Tensor K)) (k : Nat) (Z : List (Tensor K)) : Prop := ∃ Y : Tensor K, Y.dims = (site P k).dims ∧ Z = P.set k Y

theorem single_right {svd : Tensor K → SvdRes K} (hg : GoodSvd svd) (eps : ℝ) {dflt : ℝ} (hd0 : 0 < dflt) {lin : Tensor K → Tensor K → Tensor K}
    (hl : GoodSolve lin) {ds : List Nat} {H HH G : List (Tensor K)} (hHH : WFO 1 HH ds 1) (hsq : IsSquare ds H HH) (hG : WF 1 G ds 1)
    (hds : ∀ x ∈ ds, 0 < x) (fuel : Nat) {k : Nat} (hfuel : k + fuel + 1 = ds.length)
    {x y : St K} (hs : x.s = ⟨k, 0, (ds.length : Int) - 1, 1⟩) (hc : Cent ds HH G x k) (hiso : ∀ j < k, LeftIso (site x.P j))
    (hrun : singleSweep svd eps dflt lin (fuel + 1) x = some y) :
    Swept ds H HH G 0 0 True NearOne x y (RCLike.re (tscprod y.vP (mmult y.Heff y.vP))) := by
  induction fuel generalizing k x with
  | zero =>
    have hk : x.s.k.toNat = k := by rw [hs]; simp
    have hdk : x.s.dk = 1 := by rw [hs]
    rw [singleSweep] at hrun
    obtain ⟨z, h1, h2⟩ := Option.bind_eq_some_iff.1 hrun
    have hst := single_step hg eps hd0 hl hHH hsq hG hc hk h1
    have e : nextCentre ds.length x.s.dk k = k := by simp [nextCentre, hdk]; omega
    have hd : z.s.dec = (false, x.s) := by rw [hst.s]; simp only [Sweeper.dec, hs]; rw [if_pos (by omega)]
    simp only [hd, Bool.false_eq_true, if_false, Option.some.injEq] at h2
    subst h2
    obtain ⟨Z, z1, z2, z3, z4, z5, z6⟩ := hst.val
    obtain ⟨z5, z7⟩ := z5 e
    have hcent := hst.cent
    rw [e] at hcent
    have hlen := hc.wf.length
    refine ⟨by rw [hs]; simp; omega, ?_, hst.lost, ⟨amp (x.P.set k Z), z2, z3, ?_, ?_⟩, ?_, ?_, by simp⟩
    · simpa only [hk] using ⟨hcent.lt, hcent.wf, hcent.l, hcent.q⟩
    · simp only [z5]; simp [sumCfg_zero]
    · rintro q hq W ⟨Y, hY, rfl⟩
      simp only [hk, z5] at hY ⊢
      rw [List.set_set]
      rw [site_set _ _ _ _ (by rw [hlen]; exact hc.lt), if_pos rfl, z1] at hY
      exact z6 q hq hds Y hY
    · rw [hdk, if_pos (by decide)]
      intro j hj
      simp only
      rw [hst.same j (by omega) (by omega)]
      exact hiso j (by omega)
    · rintro - q hq -
      have := z6 q hq hds (site x.P k) rfl
      rw [Props.set_site_self x.P k (by have := hc.lt; omega)] at this
      simp only [z5]
      exact this
  | succ fuel ih =>
    have hk : x.s.k.toNat = k := by rw [hs]; simp
    have hdk : x.s.dk = 1 := by rw [hs]
    rw [singleSweep] at hrun
    obtain ⟨z, h1, h2⟩ := Option.bind_eq_some_iff.1 hrun
    have hst := single_step hg eps hd0 hl hHH hsq hG hc hk h1
    have e : nextCentre ds.length x.s.dk k = k + 1 := by simp [nextCentre, hdk]; omega
    have hd : z.s.dec = (true, ⟨((k + 1 : Nat) : Int), 0, (ds.length : Int) - 1, 1⟩) := by
      rw [hst.s]; simp only [Sweeper.dec, hs]; rw [if_neg (by omega)]; simp
    simp only [hd, if_true] at h2
    have hcent := hst.cent
    rw [e] at hcent
    have hi := hst.iso (by rw [e]; omega)
    rw [hdk, if_pos (by decide)] at hi
    have r := ih (k := k + 1) (by omega) (x := { z with s := ⟨((k + 1 : Nat) : Int), 0, (ds.length : Int) - 1, 1⟩ }) rfl
      ⟨hcent.lt, hcent.wf, hcent.l, hcent.q⟩ (by
        intro j hj
        by_cases hjk : j = k
        · rw [hjk]; exact hi
        · simp only; rw [hst.same j hjk (by omega)]; exact hiso j (by omega)) h2
    obtain ⟨r1, r2, r3, ⟨e0, q1, q2, q3, q4⟩, r5, r6, -⟩ := r
    simp only at r1 r3 r5 r6 q3
    refine ⟨by rw [r1, hs], r2, le_trans hst.lost r3, ⟨e0, q1, q2, by simpa using q3, q4⟩, by rw [hdk]; exact r5, ?_, by simp⟩
    intro ho q hq h0
    have l1 := hst.lost
    obtain ⟨Z, z1, z2, z3, z4, z5, z6⟩ := hst.val
    have hz : z.lost = x.lost := by linarith
    have := z6 q hq hds (site x.P k) rfl
    rw [Props.set_site_self x.P k (by have := hc.lt; have := hc.wf.length; omega)] at this
    refine le_trans (r6 ho q hq (by linarith)) (le_trans (le_of_eq ?_) this)
    rw [residual_eq, residual_eq]
    exact resOf_congr (z4 hz)

theorem single_left {svd : Tensor K → SvdRes K} (hg : GoodSvd svd) (eps : ℝ) {dflt : ℝ} (hd0 : 0 < dflt) {lin : Tensor K → Tensor K → Tensor K}
    (hl : GoodSolve lin) {ds : List Nat} {H HH G : List (Tensor K)} (hHH : WFO 1 HH ds 1) (hsq : IsSquare ds H HH) (hG : WF 1 G ds 1)
    (hds : ∀ x ∈ ds, 0 < x) {k : Nat}
    {x y : St K} (hs : x.s = ⟨k, (ds.length : Int) - 1, 0, -1⟩) (hc : Cent ds HH G x k) (hiso : ∀ j, k < j → j < ds.length → RightIso (site x.P j))
    (hrun : singleSweep svd eps dflt lin (k + 1) x = some y) :
    Swept ds H HH G 0 0 True NearOne x y (RCLike.re (tscprod y.vP (mmult y.Heff y.vP))) := by
  induction k generalizing x with
  | zero =>
    have hk : x.s.k.toNat = 0 := by rw [hs]; simp
    have hdk : x.s.dk = -1 := by rw [hs]
    rw [singleSweep] at hrun
    obtain ⟨z, h1, h2⟩ := Option.bind_eq_some_iff.1 hrun
    have hst := single_step hg eps hd0 hl hHH hsq hG hc hk h1
    have e : nextCentre ds.length x.s.dk 0 = 0 := by simp [nextCentre, hdk]
    have hd : z.s.dec = (false, x.s) := by rw [hst.s]; simp only [Sweeper.dec, hs]; rw [if_pos (by omega)]
    simp only [hd, Bool.false_eq_true, if_false, Option.some.injEq] at h2
    subst h2
    obtain ⟨Z, z1, z2, z3, z4, z5, z6⟩ := hst.val
    obtain ⟨z5, z7⟩ := z5 e
    have hcent := hst.cent
    rw [e] at hcent
    have hlen := hc.wf.length
    refine ⟨by rw [hs]; simp, ?_, hst.lost, ⟨amp (x.P.set 0 Z), z2, z3, ?_, ?_⟩, ?_, ?_, by simp⟩
    · simpa only [hk] using ⟨hcent.lt, hcent.wf, hcent.l, hcent.q⟩
    · simp only [z5]; simp [sumCfg_zero]
    · rintro q hq W ⟨Y, hY, rfl⟩
      simp only [hk, z5] at hY ⊢
      rw [List.set_set]
      rw [site_set _ _ _ _ (by rw [hlen]; exact hc.lt), if_pos rfl, z1] at hY
      exact z6 q hq hds Y hY
    · rw [hdk, if_neg (by decide)]
      intro j hj hj2
      simp only
      rw [hst.same j (by omega) (by omega)]
      exact hiso j (by omega) hj2
    · rintro - q hq -
      have := z6 q hq hds (site x.P 0) rfl
      rw [Props.set_site_self x.P 0 (by have := hc.lt; omega)] at this
      simp only [z5]
      exact this
  | succ k ih =>
    have hk : x.s.k.toNat = k + 1 := by rw [hs]; simp only; omega
    have hdk : x.s.dk = -1 := by rw [hs]
    rw [singleSweep] at hrun
    obtain ⟨z, h1, h2⟩ := Option.bind_eq_some_iff.1 hrun
    have hst := single_step hg eps hd0 hl hHH hsq hG hc hk h1
    have e : nextCentre ds.length x.s.dk (k + 1) = k := by simp [nextCentre, hdk]
    have hd : z.s.dec = (true, ⟨(k : Int), (ds.length : Int) - 1, 0, -1⟩) := by
      rw [hst.s]; simp only [Sweeper.dec, hs]; rw [if_neg (by omega)]; simp
    simp only [hd, if_true] at h2
    have hcent := hst.cent
    rw [e] at hcent
    have hi := hst.iso (by rw [e]; omega)
    rw [hdk, if_neg (by decide)] at hi
    have r := ih (x := { z with s := ⟨(k : Int), (ds.length : Int) - 1, 0, -1⟩ }) rfl
      ⟨hcent.lt, hcent.wf, hcent.l, hcent.q⟩ (by
        intro j hj hj2
        by_cases hjk : j = k + 1
        · rw [hjk]; exact hi
        · simp only; rw [hst.same j hjk (by omega)]; exact hiso j (by omega) hj2) h2
    obtain ⟨r1, r2, r3, ⟨e0, q1, q2, q3, q4⟩, r5, r6, -⟩ := r
    simp only at r1 r3 r5 r6 q3
    refine ⟨by rw [r1, hs], r2, le_trans hst.lost r3, ⟨e0, q1, q2, by simpa using q3, q4⟩, by rw [hdk]; exact r5, ?_, by simp⟩
    intro ho q hq h0
    have l1 := hst.lost
    obtain ⟨Z, z1, z2, z3, z4, z5, z6⟩ := hst.val
    have hz : z.lost = x.lost := by linarith
    have := z6 q hq hds (site x.P (k + 1)) rfl
    rw [Props.set_site_self x.P (k + 1) (by have := hc.lt; have := hc.wf.length; omega)] at this
    refine le_trans (r6 ho q hq (by linarith)) (le_trans (le_of_eq ?_) this)
    rw [residual_eq, residual_eq]
    exact resOf_congr (z4 hz)

theorem single_sweep {svd : Tensor K → SvdRes K} (hg : GoodSvd svd) (eps : ℝ) {dflt : ℝ} (hd0 : 0 < dflt) {lin : Tensor K → Tensor K → Tensor K}
    (hl : GoodSolve lin) {ds : List Nat} {H HH G : List (Tensor K)} (hHH : WFO 1 HH ds 1) (hsq : IsSquare ds H HH) (hG : WF 1 G ds 1)
    (hds : ∀ x ∈ ds, 0 < x) {x y : St K} (hx : AtStart ds HH G x) (hrun : singleSweep svd eps dflt lin ds.length x = some y) :
    Swept ds H HH G 0 0 True NearOne x y (RCLike.re (tscprod y.vP (mmult y.Heff y.vP))) := by
  obtain ⟨hs, hc⟩ | ⟨hs, hc⟩ := hx
  · have := hc.lt
    obtain ⟨n, hn⟩ : ∃ n, ds.length = n + 1 := ⟨ds.length - 1, by omega⟩
    exact single_right hg eps hd0 hl hHH hsq hG hds n (k := 0) (by omega) hs hc (by omega) (by rw [← hn]; exact hrun)
  · have := hc.lt
    exact single_left hg eps hd0 hl hHH hsq hG hds (k := ds.length - 1) (by rw [hs]; simp; omega) hc (by omega)
      (by rw [show ds.length - 1 + 1 = ds.length by omega]; exact hrun)

end MPS.Solve
