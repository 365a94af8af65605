import Verif.ConstraintLemmas3

set_option linter.unusedSectionVars false
set_option linter.unusedSimpArgs false

namespace MPS.Minim
open MPS Tensor Form
variable {K : Type} [RCLike K]

/-- what a successful two-site step with a constraint achieves -/
structure Improved2N (ds : List Nat) (O N : List (Tensor K)) (v : K) (ψ ψ' : List (Tensor K)) (E lost : ℝ) (p : Nat) : Prop where
  before : ∃ φ c, WF 1 φ ds 1 ∧ normSq ds φ = 1 ∧ expect ds φ O φ = (E : K) ∧ distSq ds φ ψ' = lost ∧
    IsCombination ds ψ' p c φ ∧ AllowedCoef ds N ψ' p v c
  best : ∀ φ c, IsCombination ds ψ' p c φ → AllowedCoef ds N ψ' p v c → E * normSq ds φ ≤ energyOf ds O φ
  gram : ∀ φ c, IsCombination ds ψ' p c φ → normSq ds φ = sumCfg (pairDims ψ' p) fun I => ‖c I‖ ^ 2
  others : ∀ j, j ≠ p → j ≠ p + 1 → site ψ' j = site ψ j

/-- the form of the constraint belongs to the state -/
def NGood (ds : List Nat) (N : List (Tensor K)) (v : K) (m : Minz K) (k : Nat) : Prop :=
  ∃ F, m.N = some (F, v) ∧ QGood ds N F ((m.psi.take k).map dup, (m.psi.drop (k + 1)).map dup)

theorem pairDims_of {ψ : List (Tensor K)} {p a d d' b c : Nat} (h1 : (site ψ p).dims = [a, d, c]) (h2 : (site ψ (p + 1)).dims = [c, d', b]) :
    pairDims ψ p = [a, d, d', b] := by
  unfold pairDims; rw [dim0_of h1, dim1_of h1, dim1_of h2, dim2_of h2]

theorem blockState_of {ψ : List (Tensor K)} {p a d d' b c : Nat} (h1 : (site ψ p).dims = [a, d, c]) (h2 : (site ψ (p + 1)).dims = [c, d', b]) (I : List Nat) :
    blockState ψ p I = setPair ψ p (unitTensor [a, d, 1] [I.getD 0 0, I.getD 1 0, 0]) (unitTensor [1, d', b] [0, I.getD 2 0, I.getD 3 0]) := by
  unfold blockState setPair; rw [dim0_of h1, dim1_of h1, dim1_of h2, dim2_of h2]

theorem setPair_ext {φ ψ : List (Tensor K)} {p : Nat} (hl : φ.length = ψ.length) (hp : p + 1 < ψ.length)
    (hs : ∀ j, j ≠ p → j ≠ p + 1 → site φ j = site ψ j) (A B : Tensor K) : setPair φ p A B = setPair ψ p A B := by
  rw [setPair_eq (by omega), setPair_eq (by omega), take_ext (l := φ) (l' := ψ) (by omega) (by omega) fun j hj => hs j (by omega) (by omega),
    drop_ext (l := φ) (l' := ψ) (by omega) fun j hj hj2 => hs j (by omega) (by omega)]

/-- the state with given coefficients -/
theorem combination_pair {ψ : List (Tensor K)} {ds : List Nat} (hlen : ψ.length = ds.length) {p a d d' b c : Nat} (hp1 : p + 1 < ds.length)
    (hd : d = ds.getD p 0) (hd' : d' = ds.getD (p + 1) 0)
    (k1 : WF 1 (ψ.take p) (ds.take p) a) (k4 : WF b (ψ.drop (p + 2)) (ds.drop (p + 2)) 1) (h1 : (site ψ p).dims = [a, d, c])
    (h2 : (site ψ (p + 1)).dims = [c, d', b]) (hpos : 0 < a ∧ 0 < d ∧ 0 < d' ∧ 0 < b) (f : List Nat → K) :
    IsCombination ds ψ p f (setPair ψ p (factL a d d' b f) (factR d' b)) := by
  obtain ⟨q1, q2, q3, q4⟩ := hpos
  intro s hs
  rw [pairDims_of h1 h2, setPair_eq (by omega)]
  rw [ds_pair hp1, ← hd, ← hd'] at hs
  rw [expand_blocks (n := d' * b) k1 rfl rfl ⟨q1, q2, Nat.mul_pos q3 q4, q3, q4⟩ k4 hs]
  refine sumCfg_congr fun I hI => ?_
  rw [joined_fact _ hI, blockState_of h1 h2, setPair_eq (by omega)]

theorem two_step_N {svd : Tensor K → SvdRes K} (hg : GoodSvd svd) (eps : ℝ) {dflt : ℝ} (hd0 : 0 ≤ dflt) {eigs : Eigs K}
    (he : GoodEigs eigs) {ds : List Nat} {O : List (Tensor K)} (hO : WFO 1 O ds 1) (hherm : Hermitian ds O)
    {N : List (Tensor K)} (hNO : WFO 1 N ds 1) {v : K} (o : Opts) {m : Minz K} {k p : Nat}
    (hc : Cent ds O m k) (ho : m.ortho = []) (hN : NGood ds N v m k) (hsite : m.site = k) (hp : pairOf m.step k = p) (hp1 : p + 1 < ds.length)
    (hk1 : m.step > 0 ∨ 1 ≤ k) {m' : Minz K} {E : ℝ}
    (hrun : twoSiteStep svd eps dflt eigs o m = some (m', E)) (hconv : m'.converged = true) :
    Cent ds O m' (nextCentre ds.length m.step k) ∧ m'.ortho = [] ∧ NGood ds N v m' (nextCentre ds.length m.step k) ∧ m'.step = m.step ∧
    Improved2N ds O N v m.psi m'.psi E m'.lost p ∧ (0 < o.Dmax → (site m'.psi p).dim 2 ≤ o.Dmax) := by
  obtain ⟨hk, hw, hq, hlo, hhi⟩ := hc
  obtain ⟨F, hN, hF⟩ := hN
  have hlen := hw.length
  obtain ⟨a, c, b, k1, k2, k3, k4, k5, k6, k7, k8, k9⟩ := WF.aroundPair hw hp1
  set d := ds.getD p 0 with hd
  set d' := ds.getD (p + 1) 0 with hd'
  have hP12 : (if m.step > 0 then fold (MPS.site m.psi m.site) (-1) (MPS.site m.psi (m.site + 1)) 0
      else fold (MPS.site m.psi (m.site - 1)) (-1) (MPS.site m.psi m.site) 0) = fold (site m.psi p) (-1) (site m.psi (p + 1)) 0 := by
    rw [hsite]
    unfold pairOf at hp
    split_ifs at hp ⊢ with hs
    · rw [← hp]
    · rw [← hp, show k - 1 + 1 = k by omega]
  set P12 := fold (site m.psi p) (-1) (site m.psi (p + 1)) 0 with hP
  have hPd : P12.dims = [a, d, d', b] := by simp [hP, fold, k2, k3]
  have hlo' : ∀ j < p, LeftIso (site m.psi j) := by
    intro j hj
    refine hlo j ?_
    unfold pairOf at hp; split_ifs at hp <;> omega
  have hhi' : ∀ j, p + 1 < j → j < ds.length → RightIso (site m.psi j) := by
    intro j hj hj2
    refine hhi j ?_ hj2
    unfold pairOf at hp; split_ifs at hp <;> omega
  unfold twoSiteStep at hrun
  simp only [hP12] at hrun
  rw [projectors_nil ho, Option.bind_some] at hrun
  by_cases hne : ((m.H.applyTwoSite P12 m.step).getD Tensor.empty).isEmpty = true
  · rw [if_pos hne] at hrun; exact absurd hrun (by simp)
  rw [if_neg hne] at hrun
  unfold twoSiteSolve at hrun
  simp only [hN] at hrun
  obtain ⟨D, hD, -⟩ := diag_expect hw hNO hk m.step hp hp1 hk1 hF k1 k4 k2 k3 ⟨k5, k6, k8, k9⟩
  rw [hD, Option.map_some, Option.bind_some] at hrun
  by_cases hsub : (subspaceOf D v).length = 0
  · rw [if_pos hsub] at hrun
    simp only [Option.some.injEq, Prod.mk.injEq] at hrun
    rw [← hrun.1] at hconv
    exact absurd hconv (by simp)
  rw [if_neg hsub] at hrun
  set r := eigs (applyQform2Sub m.step P12.dims m.H (subspaceOf D v) []) (subspaceOf D v).length (takeSub (subspaceOf D v) P12) with hr
  simp only at hrun
  by_cases hok : r.ok = true
  swap
  · rw [if_neg hok] at hrun
    simp only [Option.some.injEq, Prod.mk.injEq] at hrun
    rw [← hrun.1] at hconv
    exact absurd hconv (by simp [propagate])
  rw [if_pos hok] at hrun
  have sol := solve_pair_sub he hw hO hherm hNO hk m.step hp hp1 hk1 hlo' hhi' hq hF k1 k4 k2 k3 ⟨k5, k6, k8, k9⟩ hPd (by simpa using hne) v hD hsub _ hok
  simp only [← hr] at sol
  set T := embedSub P12.dims (subspaceOf D v) r.P with hT
  have hnz : ∃ idx, InB T.dims idx ∧ T.get idx ≠ 0 := by
    by_contra hh
    push Not at hh
    have := sol.norm
    rw [← sol.dims] at this
    rw [sumCfg_congr (F := fun I => ‖T.get I‖ ^ 2) (G := fun _ => (0 : ℝ)) (fun I hI => by rw [hh I hI]; simp), sumCfg_zero] at this
    exact zero_ne_one this
  have hfs : Props.firstSite (m.site : Int) m.step = p := by
    unfold Props.firstSite
    unfold pairOf at hp
    rw [hsite]
    split_ifs at hp ⊢ <;> omega
  obtain ⟨Q, lost, s1, s2, s3, s4, s5, s6, -⟩ := Props.C17_store hg eps hd0 hw T m.site m.step p hfs hp1
    (by rw [sol.dims, dim0_of k2, dim2_of k3]) o.Dmax o.svdTolerance (Or.inr (Or.inr hnz))
  rw [s1, Option.map_some] at hrun
  simp only [Option.some.injEq, Prod.mk.injEq] at hrun
  obtain ⟨rfl, rfl⟩ := hrun
  have hQl := s2.length
  obtain ⟨g, g1, g2, g3, g4⟩ := chain_dims s2 hw hp1 s3 k1 k4
  have hnc : nextCentre ds.length m.step k = (if m.step > 0 then k + 1 else k - 1) := by
    unfold nextCentre pairOf at *
    split_ifs at hp ⊢ <;> omega
  have hst : ∀ j, j ≠ k → j ≠ nextCentre ds.length m.step k → site Q j = site m.psi j := by
    intro j h1 h2
    rw [hnc] at h2
    apply s3
    · unfold pairOf at hp; split_ifs at hp h2 <;> omega
    · unfold pairOf at hp; split_ifs at hp h2 <;> omega
  refine ⟨⟨by rw [hnc]; unfold pairOf at hp; split_ifs at hp ⊢ <;> omega, s2, ?_, ?_, ?_⟩, by simp [propagate, ho], ⟨F.propagate (site Q k) (site Q k) m.step, by simp [propagate, hN, hsite], ?_⟩, rfl, ?_, ?_⟩
  · have := move_cache hO (χ := Q) hk hlen s2.length m.step hq hst
    simpa [propagate, hsite] using this
  · intro j hj
    show LeftIso (site Q j)
    rw [hnc] at hj
    unfold pairOf at hp
    by_cases hs : m.step > 0
    · rw [if_pos hs] at hj s5 hp
      subst hp
      by_cases hjk : j = k
      · rw [hjk]; exact s5
      · rw [s3 j hjk (by omega)]; exact hlo j (by omega)
    · rw [if_neg hs] at hj hp
      rw [s3 j (by omega) (by omega)]; exact hlo j (by omega)
  · intro j hj hj2
    show RightIso (site Q j)
    rw [hnc] at hj
    unfold pairOf at hp
    by_cases hs : m.step > 0
    · rw [if_pos hs] at hj hp
      rw [s3 j (by omega) (by omega)]; exact hhi j (by omega) hj2
    · rw [if_neg hs] at hj s5 hp
      by_cases hjk : j = k
      · rw [hjk, show k = p + 1 by omega]; exact s5
      · rw [s3 j (by omega) (by omega)]; exact hhi j (by omega) hj2
  · have := move_cache hNO (χ := Q) hk hlen s2.length m.step hF hst
    simpa [propagate] using this
  · have hdims : pairDims Q p = [a, d, d', b] := pairDims_of g1 g2
    have hblk : ∀ I, blockState Q p I = blockState m.psi p I := fun I => by
      rw [blockState_of g1 g2, blockState_of k2 k3, setPair_ext (by omega) (by omega) s3]
    have hall : ∀ I, Allowed ds N Q p v I ↔ Allowed ds N m.psi p v I := fun I => by unfold Allowed; rw [hblk]
    have hcomb : ∀ c χ, IsCombination ds Q p c χ ↔ IsCombination ds m.psi p c χ := fun c χ => by
      unfold IsCombination; simp only [hblk, hdims, pairDims_of k2 k3]
    have hcp := combination_pair hlen hp1 hd hd' k1 k4 k2 k3 ⟨k5, k6, k8, k9⟩
    have hjf : ∀ (c : List Nat → K) I, IsCfg [a, d, d', b] I → joined (d' * b) (factL a d d' b c) (factR d' b) I = c I := fun c I hI => joined_fact _ hI
    have hsame : ∀ c χ, IsCombination ds Q p c χ → ∀ s, IsCfg ds s → amp χ s = amp (setPair m.psi p (factL a d d' b c) (factR d' b)) s := by
      intro c χ hχ s hs
      rw [(hcomb c χ).1 hχ s hs, hcp c s hs]
    have hnorm : ∀ c : List Nat → K, normSq ds (setPair m.psi p (factL a d d' b c) (factR d' b)) = sumCfg [a, d, d', b] fun I => ‖c I‖ ^ 2 := by
      intro c
      have := pair_norm (A := factL a d d' b c) (B := factR d' b) k1 rfl rfl ⟨k5, k6, Nat.mul_pos k8 k9, k8, k9⟩ k4 (iso_take hlo')
        (iso_drop fun j hj hj2 => hhi' j (by omega) (by omega))
      rw [← ds_pair hp1, ← setPair_eq (by omega)] at this
      unfold normSq
      rw [this]
      exact sumCfg_congr fun I hI => by rw [joined_fact _ hI]
    refine ⟨⟨setPair m.psi p (factL a d d' b T.get) (factR d' b), T.get, ?_, ?_, ?_, ?_, ?_, ?_⟩, ?_, ?_, s3⟩
    · exact WF.setPair hp1 hlen k1 k4 rfl rfl ⟨k5, k6, Nat.mul_pos k8 k9, k8, k9⟩
    · rw [hnorm]; exact sol.norm
    · exact sol.energy _ _ (d' * b) (Nat.mul_pos k8 k9) rfl rfl fun I hI => joined_fact _ hI
    · have := pair_dist (A := factL a d d' b T.get) (B := factR d' b) (A' := site Q p) (B' := site Q (p + 1)) k1 rfl rfl g1 g2
        ⟨k5, k6, Nat.mul_pos k8 k9, g3, k8, k9⟩ k4 (iso_take hlo')
        (iso_drop fun j hj hj2 => hhi' j (by omega) (by omega))
      rw [← ds_pair hp1, ← setPair_eq (by omega), ← setPair_eq (by omega), ← g4] at this
      show distSq ds _ Q = lost
      unfold distSq
      rw [this, ← s6]
      simp only [sumCfg_cons, sumCfg_nil, dim0_of k2, dim2_of k3]
      refine Finset.sum_congr rfl fun x hx => Finset.sum_congr rfl fun i hi => Finset.sum_congr rfl fun j hj => Finset.sum_congr rfl fun y hy => ?_
      rw [joined_fact _ (.cons (Finset.mem_range.1 hx) (.cons (Finset.mem_range.1 hi) (.cons (Finset.mem_range.1 hj) (.cons (Finset.mem_range.1 hy) .nil))))]
      unfold Props.pairProduct joined
      rw [dim2_of g1]
      rfl
    · exact (hcomb _ _).2 (hcp _)
    · intro I hI hne
      replace hI : IsCfg (pairDims Q p) I := hI
      show Allowed ds N Q p v I
      rw [hdims] at hI
      rw [hall]
      by_contra hh
      exact hne (sol.support I hI hh)
    · intro φ c hc hA
      have e := hsame c φ hc
      rw [normSq_congr e]
      unfold energyOf
      rw [expect_congr e]
      refine sol.best _ _ (d' * b) (Nat.mul_pos k8 k9) rfl rfl fun I hI hh => ?_
      rw [hjf c I hI]
      by_contra h0
      exact hh ((hall I).1 (hA I (show IsCfg (pairDims Q p) I by rw [hdims]; exact hI) h0))
    · intro φ c hc
      rw [normSq_congr (hsame c φ hc), hnorm]
      show _ = sumCfg (pairDims Q p) _
      rw [hdims]
  · intro hD
    have := s4 (by exact_mod_cast hD)
    exact_mod_cast this

theorem two_right_N {svd : Tensor K → SvdRes K} (hg : GoodSvd svd) (eps : ℝ) {dflt : ℝ} (hd0 : 0 ≤ dflt) {eigs : Eigs K}
    (he : GoodEigs eigs) {ds : List Nat} {O : List (Tensor K)} (hO : WFO 1 O ds 1) (hherm : Hermitian ds O)
    {N : List (Tensor K)} (hNO : WFO 1 N ds 1) {v : K} (o : Opts) (fuel : Nat) {k : Nat}
    (hfuel : k + fuel + 2 = ds.length) {m : Minz K} (hc : Cent ds O m k) (ho : m.ortho = []) (hN : NGood ds N v m k) (hs : m.step > 0)
    (hm : m.converged = true) (hb : ∀ j < k, BondOk o.Dmax (site m.psi j)) {E0 : ℝ}
    {m' : Minz K} {E : ℝ} (hrun : twoRight svd eps dflt eigs o (fuel + 1) k m E0 = some (m', E)) (hconv : m'.converged = true) :
    Cent ds O m' (ds.length - 1) ∧ m'.ortho = [] ∧ NGood ds N v m' (ds.length - 1) ∧ (∀ j, j + 1 < ds.length → BondOk o.Dmax (site m'.psi j)) ∧
    ∃ ψ0, WF 1 ψ0 ds 1 ∧ Improved2N ds O N v ψ0 m'.psi E m'.lost (ds.length - 2) := by
  induction fuel generalizing k m E0 with
  | zero =>
    rw [twoRight, if_pos hm] at hrun
    obtain ⟨⟨m1, E1⟩, h1, h2⟩ := Option.bind_eq_some_iff.1 hrun
    simp only [twoRight, Option.some.injEq, Prod.mk.injEq] at h2
    obtain ⟨rfl, rfl⟩ := h2
    have hp : pairOf m.step k = k := by simp [pairOf, hs]
    obtain ⟨a1, a2, a3, a4, a5, a6⟩ := two_step_N hg eps hd0 he hO hherm hNO o (m := { m with site := k }) ⟨hc.lt, hc.wf, hc.q, hc.lo, hc.hi⟩ ho hN rfl hp
      (by omega) (Or.inl hs) h1 hconv
    have e : nextCentre ds.length m.step k = ds.length - 1 := by
      unfold nextCentre; rw [if_pos hs, if_neg (by omega)]; omega
    have ek : k = ds.length - 2 := by omega
    simp only [e] at a1 a3
    refine ⟨a1, a2, a3, fun j hj => ?_, m.psi, hc.wf, by rw [← ek]; exact a5⟩
    by_cases hjk : j = k
    · rw [hjk]; exact a6
    · rw [a5.others j hjk (by omega)]; exact hb j (by omega)
  | succ fuel ih =>
    rw [twoRight, if_pos hm] at hrun
    obtain ⟨⟨m1, E1⟩, h1, h2⟩ := Option.bind_eq_some_iff.1 hrun
    simp only at h2
    have hm1 : m1.converged = true := by
      by_contra hh
      rw [twoRight, if_neg hh] at h2
      simp only [Option.some.injEq, Prod.mk.injEq] at h2
      rw [← h2.1] at hconv; exact hh hconv
    have hp : pairOf m.step k = k := by simp [pairOf, hs]
    obtain ⟨a1, a2, a3, a4, a5, a6⟩ := two_step_N hg eps hd0 he hO hherm hNO o (m := { m with site := k }) ⟨hc.lt, hc.wf, hc.q, hc.lo, hc.hi⟩ ho hN rfl hp
      (by omega) (Or.inl hs) h1 hm1
    have e : nextCentre ds.length m.step k = k + 1 := by
      unfold nextCentre; rw [if_pos hs, if_neg (by omega)]
    simp only [e] at a1 a3
    refine ih (by omega) a1 a2 a3 (by rw [a4]; exact hs) hm1 (fun j hj => ?_) h2
    by_cases hjk : j = k
    · rw [hjk]; exact a6
    · rw [a5.others j hjk (by omega)]; exact hb j (by omega)

theorem two_left_N {svd : Tensor K → SvdRes K} (hg : GoodSvd svd) (eps : ℝ) {dflt : ℝ} (hd0 : 0 ≤ dflt) {eigs : Eigs K}
    (he : GoodEigs eigs) {ds : List Nat} {O : List (Tensor K)} (hO : WFO 1 O ds 1) (hherm : Hermitian ds O)
    {N : List (Tensor K)} (hNO : WFO 1 N ds 1) {v : K} (o : Opts) {k : Nat}
    {m : Minz K} (hc : Cent ds O m (k + 1)) (ho : m.ortho = []) (hN : NGood ds N v m (k + 1)) (hs : ¬ m.step > 0)
    (hm : m.converged = true) (hb : ∀ j, k < j → j + 1 < ds.length → BondOk o.Dmax (site m.psi j)) {E0 : ℝ}
    {m' : Minz K} {E : ℝ} (hrun : twoLeft svd eps dflt eigs o (k + 1) m E0 = some (m', E)) (hconv : m'.converged = true) :
    Cent ds O m' 0 ∧ m'.ortho = [] ∧ NGood ds N v m' 0 ∧ (∀ j, j + 1 < ds.length → BondOk o.Dmax (site m'.psi j)) ∧
    ∃ ψ0, WF 1 ψ0 ds 1 ∧ Improved2N ds O N v ψ0 m'.psi E m'.lost 0 := by
  have hlt := hc.lt
  have hlen := hc.wf.length
  induction k generalizing m E0 with
  | zero =>
    rw [twoLeft, if_pos hm] at hrun
    obtain ⟨⟨m1, E1⟩, h1, h2⟩ := Option.bind_eq_some_iff.1 hrun
    simp only [twoLeft, Option.some.injEq, Prod.mk.injEq] at h2
    obtain ⟨rfl, rfl⟩ := h2
    have hp : pairOf m.step (0 + 1) = 0 := by simp [pairOf, hs]
    obtain ⟨a1, a2, a3, a4, a5, a6⟩ := two_step_N hg eps hd0 he hO hherm hNO o (m := { m with site := 0 + 1 }) ⟨hc.lt, hc.wf, hc.q, hc.lo, hc.hi⟩ ho hN rfl hp
      (by omega) (Or.inr (by omega)) h1 hconv
    have e : nextCentre ds.length m.step (0 + 1) = 0 := by simp [nextCentre, hs]
    simp only [e] at a1 a3
    refine ⟨a1, a2, a3, fun j hj => ?_, m.psi, hc.wf, a5⟩
    by_cases hjk : j = 0
    · rw [hjk]; exact a6
    · by_cases hj1 : j = 0 + 1
      · rw [hj1]
        obtain ⟨g, g1, g2, g3, g4⟩ := chain_dims a1.wf hc.wf (p := 0) (by omega) a5.others
          (a := 1) (b := (site m.psi 1).dim 2) (by simpa using WF.nil 1) (by
            obtain ⟨a, c, b, k1, k2, k3, k4, -⟩ := WF.aroundPair hc.wf (p := 0) (by omega)
            rw [show (site m.psi 1).dim 2 = b from dim2_of k3]; exact k4)
        have := hb 1 (by omega) (by omega)
        intro hD
        rw [show (site m1.psi (0 + 1)).dim 2 = (site m.psi 1).dim 2 from dim2_of g2]
        exact this hD
      · rw [a5.others j hjk (by omega)]; exact hb j (by omega) hj
  | succ k ih =>
    rw [twoLeft, if_pos hm] at hrun
    obtain ⟨⟨m1, E1⟩, h1, h2⟩ := Option.bind_eq_some_iff.1 hrun
    simp only at h2
    have hm1 : m1.converged = true := by
      by_contra hh
      rw [twoLeft, if_neg hh] at h2
      simp only [Option.some.injEq, Prod.mk.injEq] at h2
      rw [← h2.1] at hconv; exact hh hconv
    have hp : pairOf m.step (k + 1 + 1) = k + 1 := by simp [pairOf, hs]
    obtain ⟨a1, a2, a3, a4, a5, a6⟩ := two_step_N hg eps hd0 he hO hherm hNO o (m := { m with site := k + 1 + 1 }) ⟨hc.lt, hc.wf, hc.q, hc.lo, hc.hi⟩ ho hN rfl hp
      (by omega) (Or.inr (by omega)) h1 hm1
    have e : nextCentre ds.length m.step (k + 1 + 1) = k + 1 := by
      unfold nextCentre; rw [if_neg hs]; omega
    simp only [e] at a1 a3
    refine ih a1 a2 a3 (by rw [a4]; exact hs) hm1 (fun j hj hj2 => ?_) h2 a1.lt a1.wf.length
    by_cases hjk : j = k + 1
    · rw [hjk]; exact a6
    · by_cases hj1 : j = k + 1 + 1
      · obtain ⟨a, c, b, k1, k2, k3, k4, -⟩ := WF.aroundPair hc.wf (p := k + 1) (by omega)
        obtain ⟨g, g1, g2, g3, g4⟩ := chain_dims a1.wf hc.wf (p := k + 1) (by omega) a5.others k1 k4
        have := hb j (by omega) hj2
        intro hD
        rw [hj1, dim2_of g2, ← dim2_of k3, ← hj1]
        exact this hD
      · rw [a5.others j hjk (by omega)]; exact hb j (by omega) hj2

theorem two_sweep_N {svd : Tensor K → SvdRes K} (hg : GoodSvd svd) (eps : ℝ) {dflt : ℝ} (hd0 : 0 ≤ dflt) {eigs : Eigs K}
    (he : GoodEigs eigs) {ds : List Nat} {O : List (Tensor K)} (hO : WFO 1 O ds 1) (hherm : Hermitian ds O)
    {N : List (Tensor K)} (hNO : WFO 1 N ds 1) {v : K} (o : Opts)
    {m : Minz K} (hc : Cent ds O m (endOf ds.length m.step)) (ho : m.ortho = []) (hN : NGood ds N v m (endOf ds.length m.step)) (hm : m.converged = true)
    {m' : Minz K} {E : ℝ} (hrun : twoSweep svd eps dflt eigs o m = some (m', E)) (hconv : m'.converged = true) :
    Cent ds O m' (endOf ds.length m'.step) ∧ m'.ortho = [] ∧ NGood ds N v m' (endOf ds.length m'.step) ∧ (∀ j, j + 1 < ds.length → BondOk o.Dmax (site m'.psi j)) ∧
    ∃ ψ0 p, (p = 0 ∨ p + 2 = ds.length) ∧ WF 1 ψ0 ds 1 ∧ Improved2N ds O N v ψ0 m'.psi E m'.lost p := by
  have hlen := hc.wf.length
  unfold twoSweep at hrun
  by_cases hl : m.psi.length < 2
  · rw [if_pos hl] at hrun; exact absurd hrun (by simp)
  rw [if_neg hl] at hrun
  obtain ⟨n, hn⟩ : ∃ n, ds.length = n + 2 := ⟨ds.length - 2, by omega⟩
  by_cases hs : m.step > 0
  · simp only [if_pos hs] at hrun
    obtain ⟨⟨m1, E1⟩, h1, h2⟩ := Option.map_eq_some_iff.1 hrun
    simp only [Prod.mk.injEq] at h2
    obtain ⟨rfl, rfl⟩ := h2
    simp only [endOf, if_pos hs] at hc hN
    rw [hlen, show ds.length - 1 = n + 1 by omega] at h1
    obtain ⟨a1, a2, a3, a4, ψ0, a5, a6⟩ := two_right_N hg eps hd0 he hO hherm hNO o n (by omega) hc ho hN hs hm (fun j hj => by omega) h1 hconv
    simp only [endOf, if_neg (show ¬ (-1 : Int) > 0 by decide)]
    exact ⟨⟨a1.lt, a1.wf, a1.q, a1.lo, a1.hi⟩, a2, a3, a4, ψ0, _, Or.inr (by omega), a5, a6⟩
  · simp only [if_neg hs] at hrun
    obtain ⟨⟨m1, E1⟩, h1, h2⟩ := Option.map_eq_some_iff.1 hrun
    simp only [Prod.mk.injEq] at h2
    obtain ⟨rfl, rfl⟩ := h2
    simp only [endOf, if_neg hs] at hc hN
    rw [hlen, show ds.length - 1 = n + 1 by omega] at h1
    rw [show ds.length - 1 = n + 1 by omega] at hc hN
    obtain ⟨a1, a2, a3, a4, ψ0, a5, a6⟩ := two_left_N hg eps hd0 he hO hherm hNO o hc ho hN hs hm (fun j hj hj2 => by omega) h1 hconv
    simp only [endOf, if_pos (show (1 : Int) > 0 by decide)]
    exact ⟨⟨a1.lt, a1.wf, a1.q, a1.lo, a1.hi⟩, a2, a3, a4, ψ0, _, Or.inl rfl, a5, a6⟩

theorem two_sweeps_N {svd : Tensor K → SvdRes K} (hg : GoodSvd svd) (eps : ℝ) {dflt : ℝ} (hd0 : 0 ≤ dflt) {eigs : Eigs K}
    (he : GoodEigs eigs) {ds : List Nat} {O : List (Tensor K)} (hO : WFO 1 O ds 1) (hherm : Hermitian ds O)
    {N : List (Tensor K)} (hNO : WFO 1 N ds 1) {v : K} (o : Opts)
    {m : Minz K} (hc : Cent ds O m (endOf ds.length m.step)) (ho : m.ortho = []) (hN : NGood ds N v m (endOf ds.length m.step)) (hm : m.converged = true) {es : List ℝ} {m' : Minz K}
    (h : Sweeps (twoSweep svd eps dflt eigs o) m es m') :
    (Cent ds O m' (endOf ds.length m'.step) ∧ m'.ortho = [] ∧ NGood ds N v m' (endOf ds.length m'.step)) ∧
    ∀ es' E, es = es' ++ [E] → (∀ j, j + 1 < ds.length → BondOk o.Dmax (site m'.psi j)) ∧
      ∃ ψ0 p, (p = 0 ∨ p + 2 = ds.length) ∧ WF 1 ψ0 ds 1 ∧ Improved2N ds O N v ψ0 m'.psi E m'.lost p := by
  induction h with
  | nil => exact ⟨⟨hc, ho, hN⟩, fun es' E h => by simp at h⟩
  | @snoc es m1 m2 E h1 h2 h3 ih =>
    obtain ⟨⟨i1, i2, i3⟩, -⟩ := ih
    obtain ⟨a1, a2, a3, a4, a5⟩ := two_sweep_N hg eps hd0 he hO hherm hNO o i1 i2 i3 (h1.converged hm) h2 h3
    refine ⟨⟨a1, a2, a3⟩, fun es' E' hh => ?_⟩
    obtain ⟨rfl, hE⟩ := List.append_inj' hh rfl
    simp only [List.cons.injEq, and_true] at hE
    subst hE
    exact ⟨a4, a5⟩

end MPS.Minim
