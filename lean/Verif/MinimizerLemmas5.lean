import Verif.MinimizerLemmas4

set_option linter.unusedSectionVars false
set_option linter.unusedSimpArgs false

namespace MPS.Minim
open MPS Tensor Form
variable {K : Type} [RCLike K]

theorem WF_right {a b b' : Nat} {ψ : List (Tensor K)} {ds ds' : List Nat} (h : WF a ψ ds b) (h' : WF a ψ ds' b') : b = b' := by
  induction h generalizing ds' with
  | nil => cases h'; rfl
  | cons h1 _ _ _ _ ih =>
    cases h' with
    | cons k1 _ _ _ k5 =>
      rw [h1] at k1
      simp only [List.cons.injEq, and_true, true_and] at k1
      obtain ⟨rfl, rfl⟩ := k1
      exact ih k5

theorem WF_left {a a' b : Nat} {ψ : List (Tensor K)} {ds ds' : List Nat} (h : WF a ψ ds b) (h' : WF a' ψ ds' b) : a = a' := by
  cases h with
  | nil => cases h'; rfl
  | cons h1 _ _ _ _ =>
    cases h' with
    | cons k1 _ _ _ _ =>
      rw [h1] at k1
      simp only [List.cons.injEq, and_true] at k1
      exact k1.1

theorem distSq_zero {ds : List Nat} {φ ψ : List (Tensor K)} (h : distSq ds φ ψ = 0) : ∀ s, IsCfg ds s → amp ψ s = amp φ s := by
  have key : ∀ (ds : List Nat) (F : List Nat → ℝ), (∀ s, 0 ≤ F s) → sumCfg ds F = 0 → ∀ s, IsCfg ds s → F s = 0 := by
    intro ds
    induction ds with
    | nil => intro F _ h0 s hs; cases hs; simpa using h0
    | cons d ds ih =>
      intro F hF h0 s hs
      cases hs with
      | @cons i _ s _ hi hs =>
      rw [sumCfg_cons] at h0
      have := (Finset.sum_eq_zero_iff_of_nonneg (fun j _ => sumCfg_nonneg _ _ fun s _ => hF (j :: s))).1 h0 i (Finset.mem_range.2 hi)
      exact ih (fun s => F (i :: s)) (fun s => hF _) this s hs
  intro s hs
  have := key ds _ (fun s => by positivity) h s hs
  have h2 : ‖amp φ s - amp ψ s‖ = 0 := by simpa using this
  exact (sub_eq_zero.1 (norm_eq_zero.1 h2)).symm

/-- what a successful two-site step achieves: before truncation the state was `φ` -/
structure Improved2 (svd : Tensor K → SvdRes K) (eps dflt : ℝ) (o : Opts) (ds : List Nat) (O ψ ψ' : List (Tensor K)) (E lost : ℝ) (p : Nat) : Prop where
  before : ∃ φ, WF 1 φ ds 1 ∧ normSq ds φ = 1 ∧ expect ds φ O φ = (E : K) ∧ distSq ds φ ψ' = lost
  best : ∀ φ : List (Tensor K), WF 1 φ ds 1 → (∀ j, j ≠ p → j ≠ p + 1 → site φ j = site ψ j) → E * normSq ds φ ≤ energyOf ds O φ
  others : ∀ j, j ≠ p → j ≠ p + 1 → site ψ' j = site ψ j
  call : ∃ (T : Tensor K) (k sense : Int) (a b : Nat), Props.firstSite k sense = p ∧ p + 1 < ds.length ∧ T.dims = [a, ds.getD p 0, ds.getD (p + 1) 0, b] ∧
    (site ψ p).dim 0 = a ∧ (site ψ (p + 1)).dim 2 = b ∧ (∀ j < p, LeftIso (site ψ j)) ∧ (∀ j, p + 1 < j → j < ds.length → RightIso (site ψ j)) ∧
    setCanonical2 svd eps dflt ψ T k sense o.Dmax o.svdTolerance false = some (ψ', lost, 0) ∧
    let φ := setPair ψ p (factL a (ds.getD p 0) (ds.getD (p + 1) 0) b T.get) (factR (ds.getD (p + 1) 0) b)
    WF 1 φ ds 1 ∧ normSq ds φ = 1 ∧ expect ds φ O φ = (E : K)

/-- with nothing lost the energy is that of the state, and no state that differs at the pair has a smaller energy -/
theorem Improved2.exact {svd : Tensor K → SvdRes K} {eps dflt : ℝ} {o : Opts} {ds : List Nat} {O ψ ψ' : List (Tensor K)} {E : ℝ} {p : Nat} (hw : WF 1 ψ ds 1)
    (h : Improved2 svd eps dflt o ds O ψ ψ' E 0 p) : Improved ds O ψ ψ' E := by
  obtain ⟨φ, h1, h2, h3, h4⟩ := h.before
  have := distSq_zero h4
  exact ⟨by rw [normSq_congr this]; exact h2, by rw [expect_congr this]; exact h3, h.best ψ hw fun _ _ _ => rfl⟩

theorem chain_dims {φ ψ : List (Tensor K)} {ds : List Nat} (h : WF 1 φ ds 1) (h' : WF 1 ψ ds 1) {p : Nat} (hp : p + 1 < ds.length)
    (hs : ∀ j, j ≠ p → j ≠ p + 1 → site φ j = site ψ j) {a b : Nat} (h1 : WF 1 (ψ.take p) (ds.take p) a)
    (h2 : WF b (ψ.drop (p + 2)) (ds.drop (p + 2)) 1) :
    ∃ c, (site φ p).dims = [a, ds.getD p 0, c] ∧ (site φ (p + 1)).dims = [c, ds.getD (p + 1) 0, b] ∧ 0 < c ∧
      φ = setPair ψ p (site φ p) (site φ (p + 1)) := by
  have hl := h.length
  have hl' := h'.length
  obtain ⟨a', c, b', k1, k2, k3, k4, k5, k6, k7, k8, k9⟩ := WF.aroundPair h hp
  have e1 : φ.take p = ψ.take p := take_ext (by omega) (by omega) fun j hj => hs j (by omega) (by omega)
  have e2 : φ.drop (p + 2) = ψ.drop (p + 2) := drop_ext (by omega) fun j hj hj2 => hs j (by omega) (by omega)
  rw [e1] at k1
  rw [e2] at k4
  have ea : a' = a := WF_right k1 h1
  have eb : b' = b := WF_left k4 h2
  subst ea eb
  refine ⟨c, k2, k3, k7, ?_⟩
  rw [setPair_eq (by omega), ← e1, ← e2]
  conv_lhs => rw [← List.take_append_drop p φ, drop_site (by omega), drop_site (by omega)]

theorem two_step {svd : Tensor K → SvdRes K} (hg : GoodSvd svd) (eps : ℝ) {dflt : ℝ} (hd0 : 0 ≤ dflt) {eigs : Eigs K}
    (he : GoodEigs eigs) {ds : List Nat} {O : List (Tensor K)} (hO : WFO 1 O ds 1) (hherm : Hermitian ds O) (o : Opts) {m : Minz K} {k p : Nat}
    (hc : Cent ds O m k) (ho : m.ortho = []) (hN : m.N = none) (hsite : m.site = k) (hp : pairOf m.step k = p) (hp1 : p + 1 < ds.length)
    (hk1 : m.step > 0 ∨ 1 ≤ k) {m' : Minz K} {E : ℝ}
    (hrun : twoSiteStep svd eps dflt eigs o m = some (m', E)) (hconv : m'.converged = true) :
    Cent ds O m' (nextCentre ds.length m.step k) ∧ m'.ortho = [] ∧ m'.N = none ∧ m'.step = m.step ∧
    Improved2 svd eps dflt o ds O m.psi m'.psi E m'.lost p ∧ (0 < o.Dmax → (site m'.psi p).dim 2 ≤ o.Dmax) := by
  obtain ⟨hk, hw, hq, hlo, hhi⟩ := hc
  have hlen := hw.length
  obtain ⟨a, c, b, k1, k2, k3, k4, k5, k6, k7, k8, k9⟩ := WF.aroundPair hw hp1
  set d := ds.getD p 0 with hd
  set d' := ds.getD (p + 1) 0 with hd'
  have hP12 : (if m.step > 0 then fold (MPS.site m.psi m.site) (-1) (MPS.site m.psi (m.site + 1)) 0
      else fold (MPS.site m.psi (m.site - 1)) (-1) (MPS.site m.psi m.site) 0) = fold (site m.psi p) (-1) (site m.psi (p + 1)) 0 := by
    rw [hsite]
    unfold pairOf at hp
    split_ifs at hp ⊢ with hs
    · rw [← hp]
    · rw [← hp, show k - 1 + 1 = k by omega]
  set P12 := fold (site m.psi p) (-1) (site m.psi (p + 1)) 0 with hP
  have hPd : P12.dims = [a, d, d', b] := by simp [hP, fold, k2, k3]
  have hlo' : ∀ j < p, LeftIso (site m.psi j) := by
    intro j hj
    refine hlo j ?_
    unfold pairOf at hp; split_ifs at hp <;> omega
  have hhi' : ∀ j, p + 1 < j → j < ds.length → RightIso (site m.psi j) := by
    intro j hj hj2
    refine hhi j ?_ hj2
    unfold pairOf at hp; split_ifs at hp <;> omega
  unfold twoSiteStep at hrun
  simp only [hP12] at hrun
  rw [projectors_nil ho, Option.bind_some] at hrun
  by_cases hne : ((m.H.applyTwoSite P12 m.step).getD Tensor.empty).isEmpty = true
  · rw [if_pos hne] at hrun; exact absurd hrun (by simp)
  rw [if_neg hne] at hrun
  unfold twoSiteSolve at hrun
  simp only [hN] at hrun
  set r := eigs (applyQform2 m.step P12.dims m.H []) P12.size (reshape P12 [P12.size]) with hr
  rw [Option.bind_some] at hrun
  simp only at hrun
  by_cases hok : r.ok = true
  swap
  · rw [if_neg hok] at hrun
    simp only [Option.some.injEq, Prod.mk.injEq] at hrun
    rw [← hrun.1] at hconv
    exact absurd hconv (by simp [propagate])
  rw [if_pos hok] at hrun
  have sol := solve_pair he hw hO hherm hk m.step hp hp1 hk1 hlo' hhi' hq k1 k4 ⟨k5, k6, k8, k9⟩ hPd (by simpa using hne) _ hok
  simp only [← hr] at sol
  set T := reshape r.P P12.dims with hT
  have hnz : ∃ idx, InB T.dims idx ∧ T.get idx ≠ 0 := by
    by_contra hh
    push Not at hh
    have := sol.norm
    rw [← sol.dims] at this
    rw [sumCfg_congr (F := fun I => ‖T.get I‖ ^ 2) (G := fun _ => (0 : ℝ)) (fun I hI => by rw [hh I hI]; simp), sumCfg_zero] at this
    exact zero_ne_one this
  have hfs : Props.firstSite (m.site : Int) m.step = p := by
    unfold Props.firstSite
    unfold pairOf at hp
    rw [hsite]
    split_ifs at hp ⊢ <;> omega
  obtain ⟨Q, lost, s1, s2, s3, s4, s5, s6, -⟩ := Props.C17_store hg eps hd0 hw T m.site m.step p hfs hp1
    (by rw [sol.dims, dim0_of k2, dim2_of k3]) o.Dmax o.svdTolerance (Or.inr (Or.inr hnz))
  rw [s1, Option.map_some] at hrun
  simp only [Option.some.injEq, Prod.mk.injEq] at hrun
  obtain ⟨rfl, rfl⟩ := hrun
  have hQl := s2.length
  obtain ⟨g, g1, g2, g3, g4⟩ := chain_dims s2 hw hp1 s3 k1 k4
  have hnc : nextCentre ds.length m.step k = (if m.step > 0 then k + 1 else k - 1) := by
    unfold nextCentre pairOf at *
    split_ifs at hp ⊢ <;> omega
  have hst : ∀ j, j ≠ k → j ≠ nextCentre ds.length m.step k → site Q j = site m.psi j := by
    intro j h1 h2
    rw [hnc] at h2
    apply s3
    · unfold pairOf at hp; split_ifs at hp h2 <;> omega
    · unfold pairOf at hp; split_ifs at hp h2 <;> omega
  refine ⟨⟨by rw [hnc]; unfold pairOf at hp; split_ifs at hp ⊢ <;> omega, s2, ?_, ?_, ?_⟩, by simp [propagate, ho], by simp [propagate, hN], rfl, ?_, ?_⟩
  · have := move_cache hO (χ := Q) hk hlen s2.length m.step hq hst
    simpa [propagate, hsite] using this
  · intro j hj
    show LeftIso (site Q j)
    rw [hnc] at hj
    unfold pairOf at hp
    by_cases hs : m.step > 0
    · rw [if_pos hs] at hj s5 hp
      subst hp
      by_cases hjk : j = k
      · rw [hjk]; exact s5
      · rw [s3 j hjk (by omega)]; exact hlo j (by omega)
    · rw [if_neg hs] at hj hp
      rw [s3 j (by omega) (by omega)]; exact hlo j (by omega)
  · intro j hj hj2
    show RightIso (site Q j)
    rw [hnc] at hj
    unfold pairOf at hp
    by_cases hs : m.step > 0
    · rw [if_pos hs] at hj hp
      rw [s3 j (by omega) (by omega)]; exact hhi j (by omega) hj2
    · rw [if_neg hs] at hj s5 hp
      by_cases hjk : j = k
      · rw [hjk, show k = p + 1 by omega]; exact s5
      · rw [s3 j (by omega) (by omega)]; exact hhi j (by omega) hj2
  · have f1 : WF 1 (setPair m.psi p (factL a d d' b T.get) (factR d' b)) ds 1 :=
      WF.setPair hp1 hlen k1 k4 rfl rfl ⟨k5, k6, Nat.mul_pos k8 k9, k8, k9⟩
    have f2 : normSq ds (setPair m.psi p (factL a d d' b T.get) (factR d' b)) = 1 := by
      have := pair_norm (A := factL a d d' b T.get) (B := factR d' b) k1 rfl rfl ⟨k5, k6, Nat.mul_pos k8 k9, k8, k9⟩ k4 (iso_take hlo')
        (iso_drop fun j hj hj2 => hhi' j (by omega) (by omega))
      rw [← ds_pair hp1, ← setPair_eq (by omega)] at this
      unfold normSq
      rw [this, ← sol.norm]
      exact sumCfg_congr fun I hI => by rw [joined_fact _ hI]
    have f3 := sol.energy (factL a d d' b T.get) (factR d' b) (d' * b) (Nat.mul_pos k8 k9) rfl rfl fun I hI => joined_fact _ hI
    refine ⟨⟨setPair m.psi p (factL a d d' b T.get) (factR d' b), f1, f2, f3, ?_⟩, ?_, s3, T, m.site, m.step, a, b, hfs, hp1, sol.dims, dim0_of k2, dim2_of k3,
      hlo', fun j hj hj2 => hhi' j (by omega) (by omega), s1, f1, f2, f3⟩
    · have := pair_dist (A := factL a d d' b T.get) (B := factR d' b) (A' := site Q p) (B' := site Q (p + 1)) k1 rfl rfl g1 g2
        ⟨k5, k6, Nat.mul_pos k8 k9, g3, k8, k9⟩ k4 (iso_take hlo')
        (iso_drop fun j hj hj2 => hhi' j (by omega) (by omega))
      rw [← ds_pair hp1, ← setPair_eq (by omega), ← setPair_eq (by omega), ← g4] at this
      show distSq ds _ Q = lost
      unfold distSq
      rw [this, ← s6]
      simp only [sumCfg_cons, sumCfg_nil, dim0_of k2, dim2_of k3]
      refine Finset.sum_congr rfl fun x hx => Finset.sum_congr rfl fun i hi => Finset.sum_congr rfl fun j hj => Finset.sum_congr rfl fun y hy => ?_
      rw [joined_fact _ (.cons (Finset.mem_range.1 hx) (.cons (Finset.mem_range.1 hi) (.cons (Finset.mem_range.1 hj) (.cons (Finset.mem_range.1 hy) .nil))))]
      unfold Props.pairProduct joined
      rw [dim2_of g1]
      rfl
    · intro φ hφ hs
      obtain ⟨n, e1, e2, e3, e4⟩ := chain_dims hφ hw hp1 hs k1 k4
      rw [e4]
      exact sol.best _ _ n e3 e1 e2
  · intro hD
    have := s4 (by exact_mod_cast hD)
    exact_mod_cast this

/-- the cut-off for the bonds: none if `Dmax` is zero -/
def BondOk (D : Nat) (A : Tensor K) : Prop := 0 < D → A.dim 2 ≤ D

theorem two_right {svd : Tensor K → SvdRes K} (hg : GoodSvd svd) (eps : ℝ) {dflt : ℝ} (hd0 : 0 ≤ dflt) {eigs : Eigs K}
    (he : GoodEigs eigs) {ds : List Nat} {O : List (Tensor K)} (hO : WFO 1 O ds 1) (hherm : Hermitian ds O) (o : Opts) (fuel : Nat) {k : Nat}
    (hfuel : k + fuel + 2 = ds.length) {m : Minz K} (hc : Cent ds O m k) (ho : m.ortho = []) (hN : m.N = none) (hs : m.step > 0)
    (hm : m.converged = true) (hb : ∀ j < k, BondOk o.Dmax (site m.psi j)) {E0 : ℝ}
    {m' : Minz K} {E : ℝ} (hrun : twoRight svd eps dflt eigs o (fuel + 1) k m E0 = some (m', E)) (hconv : m'.converged = true) :
    Cent ds O m' (ds.length - 1) ∧ m'.ortho = [] ∧ m'.N = none ∧ (∀ j, j + 1 < ds.length → BondOk o.Dmax (site m'.psi j)) ∧
    ∃ ψ0, WF 1 ψ0 ds 1 ∧ Improved2 svd eps dflt o ds O ψ0 m'.psi E m'.lost (ds.length - 2) := by
  induction fuel generalizing k m E0 with
  | zero =>
    rw [twoRight, if_pos hm] at hrun
    obtain ⟨⟨m1, E1⟩, h1, h2⟩ := Option.bind_eq_some_iff.1 hrun
    simp only [twoRight, Option.some.injEq, Prod.mk.injEq] at h2
    obtain ⟨rfl, rfl⟩ := h2
    have hp : pairOf m.step k = k := by simp [pairOf, hs]
    obtain ⟨a1, a2, a3, a4, a5, a6⟩ := two_step hg eps hd0 he hO hherm o (m := { m with site := k }) ⟨hc.lt, hc.wf, hc.q, hc.lo, hc.hi⟩ ho hN rfl hp
      (by omega) (Or.inl hs) h1 hconv
    have e : nextCentre ds.length m.step k = ds.length - 1 := by
      unfold nextCentre; rw [if_pos hs, if_neg (by omega)]; omega
    have ek : k = ds.length - 2 := by omega
    simp only [e] at a1
    refine ⟨a1, a2, a3, fun j hj => ?_, m.psi, hc.wf, by rw [← ek]; exact a5⟩
    by_cases hjk : j = k
    · rw [hjk]; exact a6
    · rw [a5.others j hjk (by omega)]; exact hb j (by omega)
  | succ fuel ih =>
    rw [twoRight, if_pos hm] at hrun
    obtain ⟨⟨m1, E1⟩, h1, h2⟩ := Option.bind_eq_some_iff.1 hrun
    simp only at h2
    have hm1 : m1.converged = true := by
      by_contra hh
      rw [twoRight, if_neg hh] at h2
      simp only [Option.some.injEq, Prod.mk.injEq] at h2
      rw [← h2.1] at hconv; exact hh hconv
    have hp : pairOf m.step k = k := by simp [pairOf, hs]
    obtain ⟨a1, a2, a3, a4, a5, a6⟩ := two_step hg eps hd0 he hO hherm o (m := { m with site := k }) ⟨hc.lt, hc.wf, hc.q, hc.lo, hc.hi⟩ ho hN rfl hp
      (by omega) (Or.inl hs) h1 hm1
    have e : nextCentre ds.length m.step k = k + 1 := by
      unfold nextCentre; rw [if_pos hs, if_neg (by omega)]
    simp only [e] at a1
    refine ih (by omega) a1 a2 a3 (by rw [a4]; exact hs) hm1 (fun j hj => ?_) h2
    by_cases hjk : j = k
    · rw [hjk]; exact a6
    · rw [a5.others j hjk (by omega)]; exact hb j (by omega)

theorem two_left {svd : Tensor K → SvdRes K} (hg : GoodSvd svd) (eps : ℝ) {dflt : ℝ} (hd0 : 0 ≤ dflt) {eigs : Eigs K}
    (he : GoodEigs eigs) {ds : List Nat} {O : List (Tensor K)} (hO : WFO 1 O ds 1) (hherm : Hermitian ds O) (o : Opts) {k : Nat}
    {m : Minz K} (hc : Cent ds O m (k + 1)) (ho : m.ortho = []) (hN : m.N = none) (hs : ¬ m.step > 0)
    (hm : m.converged = true) (hb : ∀ j, k < j → j + 1 < ds.length → BondOk o.Dmax (site m.psi j)) {E0 : ℝ}
    {m' : Minz K} {E : ℝ} (hrun : twoLeft svd eps dflt eigs o (k + 1) m E0 = some (m', E)) (hconv : m'.converged = true) :
    Cent ds O m' 0 ∧ m'.ortho = [] ∧ m'.N = none ∧ (∀ j, j + 1 < ds.length → BondOk o.Dmax (site m'.psi j)) ∧
    ∃ ψ0, WF 1 ψ0 ds 1 ∧ Improved2 svd eps dflt o ds O ψ0 m'.psi E m'.lost 0 := by
  have hlt := hc.lt
  have hlen := hc.wf.length
  induction k generalizing m E0 with
  | zero =>
    rw [twoLeft, if_pos hm] at hrun
    obtain ⟨⟨m1, E1⟩, h1, h2⟩ := Option.bind_eq_some_iff.1 hrun
    simp only [twoLeft, Option.some.injEq, Prod.mk.injEq] at h2
    obtain ⟨rfl, rfl⟩ := h2
    have hp : pairOf m.step (0 + 1) = 0 := by simp [pairOf, hs]
    obtain ⟨a1, a2, a3, a4, a5, a6⟩ := two_step hg eps hd0 he hO hherm o (m := { m with site := 0 + 1 }) ⟨hc.lt, hc.wf, hc.q, hc.lo, hc.hi⟩ ho hN rfl hp
      (by omega) (Or.inr (by omega)) h1 hconv
    have e : nextCentre ds.length m.step (0 + 1) = 0 := by simp [nextCentre, hs]
    simp only [e] at a1
    refine ⟨a1, a2, a3, fun j hj => ?_, m.psi, hc.wf, a5⟩
    by_cases hjk : j = 0
    · rw [hjk]; exact a6
    · by_cases hj1 : j = 0 + 1
      · rw [hj1]
        obtain ⟨g, g1, g2, g3, g4⟩ := chain_dims a1.wf hc.wf (p := 0) (by omega) a5.others
          (a := 1) (b := (site m.psi 1).dim 2) (by simpa using WF.nil 1) (by
            obtain ⟨a, c, b, k1, k2, k3, k4, -⟩ := WF.aroundPair hc.wf (p := 0) (by omega)
            rw [show (site m.psi 1).dim 2 = b from dim2_of k3]; exact k4)
        have := hb 1 (by omega) (by omega)
        intro hD
        rw [show (site m1.psi (0 + 1)).dim 2 = (site m.psi 1).dim 2 from dim2_of g2]
        exact this hD
      · rw [a5.others j hjk (by omega)]; exact hb j (by omega) hj
  | succ k ih =>
    rw [twoLeft, if_pos hm] at hrun
    obtain ⟨⟨m1, E1⟩, h1, h2⟩ := Option.bind_eq_some_iff.1 hrun
    simp only at h2
    have hm1 : m1.converged = true := by
      by_contra hh
      rw [twoLeft, if_neg hh] at h2
      simp only [Option.some.injEq, Prod.mk.injEq] at h2
      rw [← h2.1] at hconv; exact hh hconv
    have hp : pairOf m.step (k + 1 + 1) = k + 1 := by simp [pairOf, hs]
    obtain ⟨a1, a2, a3, a4, a5, a6⟩ := two_step hg eps hd0 he hO hherm o (m := { m with site := k + 1 + 1 }) ⟨hc.lt, hc.wf, hc.q, hc.lo, hc.hi⟩ ho hN rfl hp
      (by omega) (Or.inr (by omega)) h1 hm1
    have e : nextCentre ds.length m.step (k + 1 + 1) = k + 1 := by
      unfold nextCentre; rw [if_neg hs]; omega
    simp only [e] at a1
    refine ih a1 a2 a3 (by rw [a4]; exact hs) hm1 (fun j hj hj2 => ?_) h2 a1.lt a1.wf.length
    by_cases hjk : j = k + 1
    · rw [hjk]; exact a6
    · by_cases hj1 : j = k + 1 + 1
      · obtain ⟨a, c, b, k1, k2, k3, k4, -⟩ := WF.aroundPair hc.wf (p := k + 1) (by omega)
        obtain ⟨g, g1, g2, g3, g4⟩ := chain_dims a1.wf hc.wf (p := k + 1) (by omega) a5.others k1 k4
        have := hb j (by omega) hj2
        intro hD
        rw [hj1, dim2_of g2, ← dim2_of k3, ← hj1]
        exact this hD
      · rw [a5.others j hjk (by omega)]; exact hb j (by omega) hj2

theorem two_sweep {svd : Tensor K → SvdRes K} (hg : GoodSvd svd) (eps : ℝ) {dflt : ℝ} (hd0 : 0 ≤ dflt) {eigs : Eigs K}
    (he : GoodEigs eigs) {ds : List Nat} {O : List (Tensor K)} (hO : WFO 1 O ds 1) (hherm : Hermitian ds O) (o : Opts)
    {m : Minz K} (hc : Cent ds O m (endOf ds.length m.step)) (ho : m.ortho = []) (hN : m.N = none) (hm : m.converged = true)
    {m' : Minz K} {E : ℝ} (hrun : twoSweep svd eps dflt eigs o m = some (m', E)) (hconv : m'.converged = true) :
    Cent ds O m' (endOf ds.length m'.step) ∧ m'.ortho = [] ∧ m'.N = none ∧ (∀ j, j + 1 < ds.length → BondOk o.Dmax (site m'.psi j)) ∧
    ∃ ψ0 p, (p = 0 ∨ p + 2 = ds.length) ∧ WF 1 ψ0 ds 1 ∧ Improved2 svd eps dflt o ds O ψ0 m'.psi E m'.lost p := by
  have hlen := hc.wf.length
  unfold twoSweep at hrun
  by_cases hl : m.psi.length < 2
  · rw [if_pos hl] at hrun; exact absurd hrun (by simp)
  rw [if_neg hl] at hrun
  obtain ⟨n, hn⟩ : ∃ n, ds.length = n + 2 := ⟨ds.length - 2, by omega⟩
  by_cases hs : m.step > 0
  · simp only [if_pos hs] at hrun
    obtain ⟨⟨m1, E1⟩, h1, h2⟩ := Option.map_eq_some_iff.1 hrun
    simp only [Prod.mk.injEq] at h2
    obtain ⟨rfl, rfl⟩ := h2
    simp only [endOf, if_pos hs] at hc
    rw [hlen, show ds.length - 1 = n + 1 by omega] at h1
    obtain ⟨a1, a2, a3, a4, ψ0, a5, a6⟩ := two_right hg eps hd0 he hO hherm o n (by omega) hc ho hN hs hm (fun j hj => by omega) h1 hconv
    simp only [endOf, if_neg (show ¬ (-1 : Int) > 0 by decide)]
    exact ⟨⟨a1.lt, a1.wf, a1.q, a1.lo, a1.hi⟩, a2, a3, a4, ψ0, _, Or.inr (by omega), a5, a6⟩
  · simp only [if_neg hs] at hrun
    obtain ⟨⟨m1, E1⟩, h1, h2⟩ := Option.map_eq_some_iff.1 hrun
    simp only [Prod.mk.injEq] at h2
    obtain ⟨rfl, rfl⟩ := h2
    simp only [endOf, if_neg hs] at hc
    rw [hlen, show ds.length - 1 = n + 1 by omega] at h1
    rw [show ds.length - 1 = n + 1 by omega] at hc
    obtain ⟨a1, a2, a3, a4, ψ0, a5, a6⟩ := two_left hg eps hd0 he hO hherm o hc ho hN hs hm (fun j hj hj2 => by omega) h1 hconv
    simp only [endOf, if_pos (show (1 : Int) > 0 by decide)]
    exact ⟨⟨a1.lt, a1.wf, a1.q, a1.lo, a1.hi⟩, a2, a3, a4, ψ0, _, Or.inl rfl, a5, a6⟩

theorem two_sweeps {svd : Tensor K → SvdRes K} (hg : GoodSvd svd) (eps : ℝ) {dflt : ℝ} (hd0 : 0 ≤ dflt) {eigs : Eigs K}
    (he : GoodEigs eigs) {ds : List Nat} {O : List (Tensor K)} (hO : WFO 1 O ds 1) (hherm : Hermitian ds O) (o : Opts)
    {m : Minz K} (hc : Cent ds O m (endOf ds.length m.step)) (ho : m.ortho = []) (hN : m.N = none) (hm : m.converged = true) {es : List ℝ} {m' : Minz K}
    (h : Sweeps (twoSweep svd eps dflt eigs o) m es m') :
    (Cent ds O m' (endOf ds.length m'.step) ∧ m'.ortho = [] ∧ m'.N = none) ∧
    ∀ es' E, es = es' ++ [E] → (∀ j, j + 1 < ds.length → BondOk o.Dmax (site m'.psi j)) ∧
      ∃ ψ0 p, (p = 0 ∨ p + 2 = ds.length) ∧ WF 1 ψ0 ds 1 ∧ Improved2 svd eps dflt o ds O ψ0 m'.psi E m'.lost p := by
  induction h with
  | nil => exact ⟨⟨hc, ho, hN⟩, fun es' E h => by simp at h⟩
  | @snoc es m1 m2 E h1 h2 h3 ih =>
    obtain ⟨⟨i1, i2, i3⟩, -⟩ := ih
    obtain ⟨a1, a2, a3, a4, a5⟩ := two_sweep hg eps hd0 he hO hherm o i1 i2 i3 (h1.converged hm) h2 h3
    refine ⟨⟨a1, a2, a3⟩, fun es' E' hh => ?_⟩
    obtain ⟨rfl, hE⟩ := List.append_inj' hh rfl
    simp only [List.cons.injEq, and_true] at hE
    subst hE
    exact ⟨a4, a5⟩

end MPS.Minim
