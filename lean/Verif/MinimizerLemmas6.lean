import Verif.MinimizerLemmas5
import Verif.FormNonempty

/-!
# The minimisation does not abort unless the Hamiltonian vanishes
-/

set_option linter.unusedSectionVars false
set_option linter.unusedSimpArgs false

namespace MPS.Minim
open MPS Tensor Form
variable {K : Type} [RCLike K]

theorem matForm_empty {M : Tensor K} (h : M.isEmpty = true) (e f : List Nat) (Y X : List Nat → K) : matForm M e f Y X = 0 := by
  unfold matForm; simp [h]

theorem basis_norm {dims I : List Nat} (hI : IsCfg dims I) : sumCfg dims (fun J => ‖(basis (K := K) dims I).get J‖ ^ 2) = 1 := by
  rw [sumCfg_congr (G := fun J => if J = I then (1 : ℝ) else 0)]
  · exact sumCfg_if dims (fun _ => (1 : ℝ)) hI
  · intro J _
    unfold basis
    by_cases h : J = I
    · simp [h]
    · simp [h]

theorem zeros_cfg {dims : List Nat} (h : ∀ x ∈ dims, 0 < x) : IsCfg dims (dims.map fun _ => 0) := by
  induction dims with
  | nil => exact .nil
  | cons d ds ih => exact .cons (h d (by simp)) (ih fun x hx => h x (by simp [hx]))

theorem single_nonempty {ψ O : List (Tensor K)} {ds : List Nat} (h : WF 1 ψ ds 1) (hO : WFO 1 O ds 1)
    (hdef : NonZero ds O) {k : Nat} (hk : k < ds.length) {H : QForm K}
    (hg : QGood ds O H ((ψ.take k).map dup, (ψ.drop (k + 1)).map dup)) : (H.applyOneSite (site ψ k)).isEmpty = false := by
  classical
  have hlen := h.length
  obtain ⟨a, b, h1, hd, h2, ha, hd0, hb⟩ := WF.around h hk
  have htl : ((ψ.take k).map dup).length = k := by simp; omega
  obtain ⟨-, -, hform, happ⟩ := Props.form_single (a := a) (b := a) (a' := b) (b' := b) hO hg (by rw [htl, map_dup_fst]; exact h1)
    (by rw [htl, map_dup_fst]; exact h2) (by rw [htl, map_dup_snd]; exact h1) (by rw [htl, map_dup_snd]; exact h2)
  simp only [htl, map_dup_fst, map_dup_snd] at hform happ
  rw [(happ _ hd).1]
  exact Form.single_nonempty (a := a) (b := a) (a' := b) (b' := b) hO hdef hg (by rw [htl, map_dup_fst]; exact h1)
    (by rw [htl, map_dup_fst]; exact h2) (by rw [htl, map_dup_snd]; exact h1) (by rw [htl, map_dup_snd]; exact h2)

theorem pair_nonempty {ψ O : List (Tensor K)} {ds : List Nat} (h : WF 1 ψ ds 1) (hO : WFO 1 O ds 1)
    (hdef : NonZero ds O) {k p : Nat} (hk : k < ds.length) (step : Int) (hp : pairOf step k = p) (hp1 : p + 1 < ds.length) (hk1 : step > 0 ∨ 1 ≤ k)
    {H : QForm K} (hg : QGood ds O H ((ψ.take k).map dup, (ψ.drop (k + 1)).map dup)) :
    ((H.applyTwoSite (fold (site ψ p) (-1) (site ψ (p + 1)) 0) step).getD Tensor.empty).isEmpty = false := by
  classical
  have hlen := h.length
  obtain ⟨a, c, b, h1, k2, k3, h2, q1, q2, k7, q3, q4⟩ := WF.aroundPair h hp1
  obtain ⟨hh1, hh2⟩ := around_pair (ψ := ψ) step hlen hk hp hp1 hk1
  have htl : ((ψ.take p).map dup).length = p := by simp; omega
  obtain ⟨M, hM, hMd, hform, happ, -⟩ := Props.form_two (a := a) (b := a) (a' := b) (b' := b) hO step hg hh1 hh2 (by rw [htl, map_dup_fst]; exact h1)
    (by rw [htl, map_dup_fst]; exact h2) (by rw [htl, map_dup_snd]; exact h1) (by rw [htl, map_dup_snd]; exact h2)
  obtain ⟨M', hM', hne⟩ := Form.pair_nonempty (a := a) (b := a) (a' := b) (b' := b) hO hdef step hg hh1 hh2 (by rw [htl, map_dup_fst]; exact h1)
    (by rw [htl, map_dup_fst]; exact h2) (by rw [htl, map_dup_snd]; exact h1) (by rw [htl, map_dup_snd]; exact h2)
  obtain rfl : M = M' := by rw [hM] at hM'; exact Option.some.inj hM'
  simp only [htl, map_dup_fst, map_dup_snd] at hMd hform happ
  have hPd : (fold (site ψ p) (-1) (site ψ (p + 1)) 0).dims = [a, ds.getD p 0, ds.getD (p + 1) 0, b] := by simp [fold, k2, k3]
  obtain ⟨V, e1, e2, -⟩ := happ _ hPd
  rw [e1, Option.getD_some, e2, hne]

theorem single_step_runs (svd : Tensor K → SvdRes K) (eps dflt : ℝ) {eigs : Eigs K}
    (hk : ∀ A n P, (eigs A n P).ok = true) {ds : List Nat} {O : List (Tensor K)} (hO : WFO 1 O ds 1) (hdef : NonZero ds O) {m : Minz K} {k : Nat}
    (hc : Cent ds O m k) (ho : m.ortho = []) (hsite : m.site = k) :
    ∃ m' E, singleSiteStep svd eps dflt eigs m = some (m', E) ∧ m'.converged = true := by
  have hne := single_nonempty hc.wf hO hdef hc.lt hc.q
  unfold singleSiteStep
  rw [projectors_nil ho, Option.bind_some, hsite]
  simp only [hne, hk, if_true, Bool.false_eq_true, if_false]
  exact ⟨_, _, rfl, rfl⟩

theorem two_step_runs {svd : Tensor K → SvdRes K} (hg : GoodSvd svd) (eps : ℝ) {dflt : ℝ} (hd0 : 0 ≤ dflt) {eigs : Eigs K}
    (he : GoodEigs eigs) (hok : ∀ A n P, (eigs A n P).ok = true) {ds : List Nat} {O : List (Tensor K)} (hO : WFO 1 O ds 1)
    (hherm : Hermitian ds O) (hdef : NonZero ds O) (o : Opts) {m : Minz K} {k p : Nat}
    (hc : Cent ds O m k) (ho : m.ortho = []) (hN : m.N = none) (hsite : m.site = k) (hp : pairOf m.step k = p) (hp1 : p + 1 < ds.length)
    (hk1 : m.step > 0 ∨ 1 ≤ k) : ∃ m' E, twoSiteStep svd eps dflt eigs o m = some (m', E) ∧ m'.converged = true := by
  obtain ⟨hk, hw, hq, hlo, hhi⟩ := hc
  have hlen := hw.length
  obtain ⟨a, c, b, k1, k2, k3, k4, k5, k6, k7, k8, k9⟩ := WF.aroundPair hw hp1
  set d := ds.getD p 0 with hd
  set d' := ds.getD (p + 1) 0 with hd'
  have hP12 : (if m.step > 0 then fold (MPS.site m.psi m.site) (-1) (MPS.site m.psi (m.site + 1)) 0
      else fold (MPS.site m.psi (m.site - 1)) (-1) (MPS.site m.psi m.site) 0) = fold (site m.psi p) (-1) (site m.psi (p + 1)) 0 := by
    rw [hsite]
    unfold pairOf at hp
    split_ifs at hp ⊢ with hs
    · rw [← hp]
    · rw [← hp, show k - 1 + 1 = k by omega]
  set P12 := fold (site m.psi p) (-1) (site m.psi (p + 1)) 0 with hP
  have hPd : P12.dims = [a, d, d', b] := by simp [hP, fold, k2, k3]
  have hlo' : ∀ j < p, LeftIso (site m.psi j) := by
    intro j hj
    refine hlo j ?_
    unfold pairOf at hp; split_ifs at hp <;> omega
  have hhi' : ∀ j, p + 1 < j → j < ds.length → RightIso (site m.psi j) := by
    intro j hj hj2
    refine hhi j ?_ hj2
    unfold pairOf at hp; split_ifs at hp <;> omega
  have hne := pair_nonempty hw hO hdef hk m.step hp hp1 hk1 hq
  unfold twoSiteStep
  simp only [hP12]
  rw [projectors_nil ho, Option.bind_some, if_neg (by rw [hne]; simp)]
  unfold twoSiteSolve
  simp only [hN]
  rw [Option.bind_some]
  simp only [hok, if_true]
  set r := eigs (applyQform2 m.step P12.dims m.H []) P12.size (reshape P12 [P12.size]) with hr
  have sol := solve_pair he hw hO hherm hk m.step hp hp1 hk1 hlo' hhi' hq k1 k4 ⟨k5, k6, k8, k9⟩ hPd (by simpa using hne) _ (hok _ _ (reshape P12 [P12.size]))
  simp only [← hr] at sol
  set T := reshape r.P P12.dims with hT
  have hnz : ∃ idx, InB T.dims idx ∧ T.get idx ≠ 0 := by
    by_contra hh
    push Not at hh
    have := sol.norm
    rw [← sol.dims] at this
    rw [sumCfg_congr (F := fun I => ‖T.get I‖ ^ 2) (G := fun _ => (0 : ℝ)) (fun I hI => by rw [hh I hI]; simp), sumCfg_zero] at this
    exact zero_ne_one this
  have hfs : Props.firstSite (m.site : Int) m.step = p := by
    unfold Props.firstSite
    unfold pairOf at hp
    rw [hsite]
    split_ifs at hp ⊢ <;> omega
  obtain ⟨Q, lost, s1, -⟩ := Props.C17_store hg eps hd0 hw T m.site m.step p hfs hp1
    (by rw [sol.dims, dim0_of k2, dim2_of k3]) o.Dmax o.svdTolerance (Or.inr (Or.inr hnz))
  rw [s1, Option.map_some]
  exact ⟨_, _, rfl, rfl⟩

theorem single_right_runs {svd : Tensor K → SvdRes K} (hg : GoodSvd svd) (eps : ℝ) {dflt : ℝ} (hd0 : 0 ≤ dflt) {eigs : Eigs K}
    (he : GoodEigs eigs) (hok : ∀ A n P, (eigs A n P).ok = true) {ds : List Nat} {O : List (Tensor K)} (hO : WFO 1 O ds 1)
    (hherm : Hermitian ds O) (hdef : NonZero ds O) (fuel : Nat) {k : Nat} (hfuel : k + fuel = ds.length) {m : Minz K}
    (hc : k < ds.length → Cent ds O m k) (ho : m.ortho = []) (hs : m.step > 0) (hm : m.converged = true) (E0 : ℝ) :
    ∃ m' E, singleRight svd eps dflt eigs fuel k m E0 = some (m', E) ∧ m'.converged = true := by
  induction fuel generalizing k m E0 with
  | zero => exact ⟨m, E0, rfl, hm⟩
  | succ fuel ih =>
    have hc := hc (by omega)
    obtain ⟨m1, E1, h1, h2⟩ := single_step_runs svd eps dflt hok hO hdef (m := { m with site := k }) ⟨hc.lt, hc.wf, hc.q, hc.lo, hc.hi⟩ ho rfl
    obtain ⟨a1, a2, a3, -⟩ := single_step hg eps hd0 he hO hherm (m := { m with site := k }) ⟨hc.lt, hc.wf, hc.q, hc.lo, hc.hi⟩ ho rfl h1 h2
    rw [singleRight, if_pos hm, h1, Option.bind_some]
    refine ih (by omega) (fun hlt => ?_) a2 (by rw [a3]; exact hs) h2 E1
    have e : nextCentre ds.length m.step k = k + 1 := by
      unfold nextCentre; rw [if_pos hs, if_neg (by omega)]
    simpa only [e] using a1

theorem single_left_runs {svd : Tensor K → SvdRes K} (hg : GoodSvd svd) (eps : ℝ) {dflt : ℝ} (hd0 : 0 ≤ dflt) {eigs : Eigs K}
    (he : GoodEigs eigs) (hok : ∀ A n P, (eigs A n P).ok = true) {ds : List Nat} {O : List (Tensor K)} (hO : WFO 1 O ds 1)
    (hherm : Hermitian ds O) (hdef : NonZero ds O) (k : Nat) {m : Minz K}
    (hc : 0 < k → Cent ds O m (k - 1)) (ho : m.ortho = []) (hs : ¬ m.step > 0) (hm : m.converged = true) (E0 : ℝ) :
    ∃ m' E, singleLeft svd eps dflt eigs k m E0 = some (m', E) ∧ m'.converged = true := by
  induction k generalizing m E0 with
  | zero => exact ⟨m, E0, rfl, hm⟩
  | succ k ih =>
    have hc : Cent ds O m k := hc (by omega)
    obtain ⟨m1, E1, h1, h2⟩ := single_step_runs svd eps dflt hok hO hdef (m := { m with site := k }) ⟨hc.lt, hc.wf, hc.q, hc.lo, hc.hi⟩ ho rfl
    obtain ⟨a1, a2, a3, -⟩ := single_step hg eps hd0 he hO hherm (m := { m with site := k }) ⟨hc.lt, hc.wf, hc.q, hc.lo, hc.hi⟩ ho rfl h1 h2
    rw [singleLeft, if_pos hm, h1, Option.bind_some]
    refine ih (fun hlt => ?_) a2 (by rw [a3]; exact hs) h2 E1
    have e : nextCentre ds.length m.step k = k - 1 := by
      unfold nextCentre; rw [if_neg hs]
    simpa only [e] using a1

theorem two_right_runs {svd : Tensor K → SvdRes K} (hg : GoodSvd svd) (eps : ℝ) {dflt : ℝ} (hd0 : 0 ≤ dflt) {eigs : Eigs K}
    (he : GoodEigs eigs) (hok : ∀ A n P, (eigs A n P).ok = true) {ds : List Nat} {O : List (Tensor K)} (hO : WFO 1 O ds 1)
    (hherm : Hermitian ds O) (hdef : NonZero ds O) (o : Opts) (fuel : Nat) {k : Nat} (hfuel : k + fuel + 1 = ds.length) {m : Minz K}
    (hc : Cent ds O m k) (ho : m.ortho = []) (hN : m.N = none) (hs : m.step > 0) (hm : m.converged = true) (E0 : ℝ) :
    ∃ m' E, twoRight svd eps dflt eigs o fuel k m E0 = some (m', E) ∧ m'.converged = true := by
  induction fuel generalizing k m E0 with
  | zero => exact ⟨m, E0, rfl, hm⟩
  | succ fuel ih =>
    have hp : pairOf m.step k = k := by simp [pairOf, hs]
    obtain ⟨m1, E1, h1, h2⟩ := two_step_runs hg eps hd0 he hok hO hherm hdef o (m := { m with site := k }) ⟨hc.lt, hc.wf, hc.q, hc.lo, hc.hi⟩ ho hN rfl hp
      (by omega) (Or.inl hs)
    obtain ⟨a1, a2, a3, a4, -⟩ := two_step hg eps hd0 he hO hherm o (m := { m with site := k }) ⟨hc.lt, hc.wf, hc.q, hc.lo, hc.hi⟩ ho hN rfl hp
      (by omega) (Or.inl hs) h1 h2
    rw [twoRight, if_pos hm, h1, Option.bind_some]
    have e : nextCentre ds.length m.step k = k + 1 := by
      unfold nextCentre; rw [if_pos hs, if_neg (by omega)]
    exact ih (by omega) (by simpa only [e] using a1) a2 a3 (by rw [a4]; exact hs) h2 E1

theorem two_left_runs {svd : Tensor K → SvdRes K} (hg : GoodSvd svd) (eps : ℝ) {dflt : ℝ} (hd0 : 0 ≤ dflt) {eigs : Eigs K}
    (he : GoodEigs eigs) (hok : ∀ A n P, (eigs A n P).ok = true) {ds : List Nat} {O : List (Tensor K)} (hO : WFO 1 O ds 1)
    (hherm : Hermitian ds O) (hdef : NonZero ds O) (o : Opts) (k : Nat) {m : Minz K}
    (hc : Cent ds O m k) (ho : m.ortho = []) (hN : m.N = none) (hs : ¬ m.step > 0) (hm : m.converged = true) (E0 : ℝ) :
    ∃ m' E, twoLeft svd eps dflt eigs o k m E0 = some (m', E) ∧ m'.converged = true := by
  have hlt := hc.lt
  induction k generalizing m E0 with
  | zero => exact ⟨m, E0, rfl, hm⟩
  | succ k ih =>
    have hp : pairOf m.step (k + 1) = k := by simp [pairOf, hs]
    obtain ⟨m1, E1, h1, h2⟩ := two_step_runs hg eps hd0 he hok hO hherm hdef o (m := { m with site := k + 1 }) ⟨hc.lt, hc.wf, hc.q, hc.lo, hc.hi⟩ ho hN rfl hp
      (by omega) (Or.inr (by omega))
    obtain ⟨a1, a2, a3, a4, -⟩ := two_step hg eps hd0 he hO hherm o (m := { m with site := k + 1 }) ⟨hc.lt, hc.wf, hc.q, hc.lo, hc.hi⟩ ho hN rfl hp
      (by omega) (Or.inr (by omega)) h1 h2
    rw [twoLeft, if_pos hm, h1, Option.bind_some]
    have e : nextCentre ds.length m.step (k + 1) = k := by
      unfold nextCentre; rw [if_neg hs]; omega
    exact ih (by simpa only [e] using a1) a2 a3 (by rw [a4]; exact hs) h2 E1 (by omega)

theorem single_sweep_runs {svd : Tensor K → SvdRes K} (hg : GoodSvd svd) (eps : ℝ) {dflt : ℝ} (hd0 : 0 ≤ dflt) {eigs : Eigs K}
    (he : GoodEigs eigs) (hok : ∀ A n P, (eigs A n P).ok = true) {ds : List Nat} {O : List (Tensor K)} (hO : WFO 1 O ds 1)
    (hherm : Hermitian ds O) (hdef : NonZero ds O)
    {m : Minz K} (hc : Cent ds O m (endOf ds.length m.step)) (ho : m.ortho = []) (hm : m.converged = true) :
    ∃ m' E, singleSweep svd eps dflt eigs m = some (m', E) ∧ m'.converged = true := by
  have hlen := hc.wf.length
  have hpos := hc.lt
  unfold singleSweep
  by_cases hs : m.step > 0
  · simp only [if_pos hs]
    simp only [endOf, if_pos hs] at hc
    obtain ⟨m1, E1, h1, h2⟩ := single_right_runs hg eps hd0 he hok hO hherm hdef m.psi.length (k := 0) (by omega) (fun _ => hc) ho hs hm 0
    rw [h1, Option.map_some]
    exact ⟨_, _, rfl, h2⟩
  · simp only [if_neg hs]
    simp only [endOf, if_neg hs] at hc
    obtain ⟨m1, E1, h1, h2⟩ := single_left_runs hg eps hd0 he hok hO hherm hdef m.psi.length (fun _ => by rw [hlen]; exact hc) ho hs hm 0
    rw [h1, Option.map_some]
    exact ⟨_, _, rfl, h2⟩

theorem two_sweep_runs {svd : Tensor K → SvdRes K} (hg : GoodSvd svd) (eps : ℝ) {dflt : ℝ} (hd0 : 0 ≤ dflt) {eigs : Eigs K}
    (he : GoodEigs eigs) (hok : ∀ A n P, (eigs A n P).ok = true) {ds : List Nat} {O : List (Tensor K)} (hO : WFO 1 O ds 1)
    (hherm : Hermitian ds O) (hdef : NonZero ds O) (o : Opts) (h2 : 2 ≤ ds.length)
    {m : Minz K} (hc : Cent ds O m (endOf ds.length m.step)) (ho : m.ortho = []) (hN : m.N = none) (hm : m.converged = true) :
    ∃ m' E, twoSweep svd eps dflt eigs o m = some (m', E) ∧ m'.converged = true := by
  have hlen := hc.wf.length
  unfold twoSweep
  rw [if_neg (by omega)]
  by_cases hs : m.step > 0
  · simp only [if_pos hs]
    simp only [endOf, if_pos hs] at hc
    obtain ⟨m1, E1, h1, h2⟩ := two_right_runs hg eps hd0 he hok hO hherm hdef o (m.psi.length - 1) (k := 0) (by omega) hc ho hN hs hm 0
    rw [h1, Option.map_some]
    exact ⟨_, _, rfl, h2⟩
  · simp only [if_neg hs]
    simp only [endOf, if_neg hs] at hc
    obtain ⟨m1, E1, h1, h2⟩ := two_left_runs hg eps hd0 he hok hO hherm hdef o (m.psi.length - 1) (by rw [hlen]; exact hc) ho hN hs hm 0
    rw [h1, Option.map_some]
    exact ⟨_, _, rfl, h2⟩

/-- if an invariant makes every sweep succeed and is preserved, then the loop of `full_sweep` returns -/
theorem loop_runs {sweep : Minz K → Option (Minz K × ℝ)} (Inv : Minz K → Prop)
    (hstep : ∀ m, Inv m → ∃ m' E, sweep m = some (m', E) ∧ m'.converged = true ∧ Inv m') (o : Opts) (fuel i : Nat) (failures : Int) (E : ℝ)
    (m : Minz K) (es : List ℝ) (h : Inv m) : ∃ out, sweepLoop sweep o fuel i failures E m es = some out ∧ out.converged = true := by
  induction fuel generalizing i failures E m es with
  | zero => exact ⟨_, rfl, rfl⟩
  | succ fuel ih =>
    obtain ⟨m', E', h1, h2, h3⟩ := hstep m h
    rw [sweepLoop, h1, Option.bind_some]
    simp only [h2, Bool.true_eq_false, if_false]
    split_ifs
    · exact ⟨_, rfl, rfl⟩
    · exact ⟨_, rfl, rfl⟩
    · exact ih _ _ _ _ _ h3
    · exact ih _ _ _ _ _ h3

end MPS.Minim
