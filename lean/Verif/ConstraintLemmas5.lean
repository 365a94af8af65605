import Verif.ConstraintLemmas4

set_option linter.unusedSectionVars false
set_option linter.unusedSimpArgs false

namespace MPS.Minim
open MPS Tensor Form
variable {K : Type} [RCLike K]

section
variable {ψ N : List (Tensor K)} {ds : List Nat} (h : WF 1 ψ ds 1) (hO : WFO 1 N ds 1)
    {k p : Nat} (hk : k < ds.length) (step : Int) (hp : pairOf step k = p) (hp1 : p + 1 < ds.length) (hk1 : step > 0 ∨ 1 ≤ k)
    {F : QForm K} (hg : QGood ds N F ((ψ.take k).map dup, (ψ.drop (k + 1)).map dup)) {a b c : Nat}
    (h1 : WF 1 (ψ.take p) (ds.take p) a) (h2 : WF b (ψ.drop (p + 2)) (ds.drop (p + 2)) 1)
    (hd1 : (site ψ p).dims = [a, ds.getD p 0, c]) (hd2 : (site ψ (p + 1)).dims = [c, ds.getD (p + 1) 0, b])
    (hpos : 0 < a ∧ 0 < ds.getD p 0 ∧ 0 < ds.getD (p + 1) 0 ∧ 0 < b) {D : Tensor K} (hD : F.twoDiag step = some D) {v : K}
include h hO hk hp hp1 hk1 hg h1 h2 hd1 hd2 hpos hD

theorem sub_length (hnz : NonZero ds N) (hall : ∃ I, IsCfg (pairDims ψ p) I ∧ Allowed ds N ψ p v I) : (subspaceOf D v).length ≠ 0 := by
  classical
  obtain ⟨D', hD', hDd⟩ := diag_expect h hO hk step hp hp1 hk1 hg h1 h2 hd1 hd2 hpos
  obtain rfl : D = D' := by rw [hD] at hD'; exact Option.some.inj hD'
  obtain ⟨I, hI, hA⟩ := hall
  rw [pairDims_of hd1 hd2] at hI
  rcases hDd with ⟨-, h0⟩ | ⟨e1, e2⟩
  · exact absurd hnz h0
  · have : flat [a, ds.getD p 0, ds.getD (p + 1) 0, b] I ∈ subspaceOf D v := by
      unfold subspaceOf
      rw [List.mem_filter]
      refine ⟨List.mem_range.2 ?_, ?_⟩
      · simpa [Tensor.size, e1] using flat_lt hI
      · rw [lin_one e1 (flat_lt hI), e2 I hI]
        simpa [Allowed, Ntol] using hA
    intro h0
    rw [List.length_eq_zero_iff.1 h0] at this
    simp at this

theorem sub_length_zero (hall : ∀ I, IsCfg (pairDims ψ p) I → ¬ Allowed ds N ψ p v I) : (subspaceOf D v).length = 0 := by
  classical
  obtain ⟨D', hD', hDd⟩ := diag_expect h hO hk step hp hp1 hk1 hg h1 h2 hd1 hd2 hpos
  obtain rfl : D = D' := by rw [hD] at hD'; exact Option.some.inj hD'
  rcases hDd with ⟨h0, -⟩ | ⟨e1, e2⟩
  · simp [subspaceOf, h0]
  · by_contra hne
    obtain ⟨n, hn⟩ := List.exists_mem_of_length_pos (Nat.pos_of_ne_zero hne)
    unfold subspaceOf at hn
    rw [List.mem_filter, List.mem_range] at hn
    have hlt : n < [a, ds.getD p 0, ds.getD (p + 1) 0, b].prod := by simpa [Tensor.size, e1] using hn.1
    obtain ⟨I, hI, rfl⟩ := flat_surj hlt
    have h3 := hn.2
    rw [lin_one e1 (flat_lt hI), e2 I hI] at h3
    exact hall I (by rw [pairDims_of hd1 hd2]; exact hI) (by simpa [Allowed, Ntol] using h3)

end

theorem two_step_runs_N {svd : Tensor K → SvdRes K} (hg : GoodSvd svd) (eps : ℝ) {dflt : ℝ} (hd0 : 0 ≤ dflt) {eigs : Eigs K}
    (he : GoodEigs eigs) (hok : ∀ A n P, (eigs A n P).ok = true) {ds : List Nat} {O : List (Tensor K)} (hO : WFO 1 O ds 1)
    (hherm : Hermitian ds O) (hdef : NonZero ds O)
    {N : List (Tensor K)} (hNO : WFO 1 N ds 1) (hNz : NonZero ds N) {v : K} (o : Opts) {m : Minz K} {k p : Nat}
    (hc : Cent ds O m k) (ho : m.ortho = []) (hN : NGood ds N v m k) (hsite : m.site = k) (hp : pairOf m.step k = p) (hp1 : p + 1 < ds.length)
    (hk1 : m.step > 0 ∨ 1 ≤ k) (hall : ∃ I, IsCfg (pairDims m.psi p) I ∧ Allowed ds N m.psi p v I) : ∃ m' E, twoSiteStep svd eps dflt eigs o m = some (m', E) ∧ m'.converged = true := by
  obtain ⟨hk, hw, hq, hlo, hhi⟩ := hc
  obtain ⟨F, hN, hF⟩ := hN
  have hlen := hw.length
  obtain ⟨a, c, b, k1, k2, k3, k4, k5, k6, k7, k8, k9⟩ := WF.aroundPair hw hp1
  set d := ds.getD p 0 with hd
  set d' := ds.getD (p + 1) 0 with hd'
  have hP12 : (if m.step > 0 then fold (MPS.site m.psi m.site) (-1) (MPS.site m.psi (m.site + 1)) 0
      else fold (MPS.site m.psi (m.site - 1)) (-1) (MPS.site m.psi m.site) 0) = fold (site m.psi p) (-1) (site m.psi (p + 1)) 0 := by
    rw [hsite]
    unfold pairOf at hp
    split_ifs at hp ⊢ with hs
    · rw [← hp]
    · rw [← hp, show k - 1 + 1 = k by omega]
  set P12 := fold (site m.psi p) (-1) (site m.psi (p + 1)) 0 with hP
  have hPd : P12.dims = [a, d, d', b] := by simp [hP, fold, k2, k3]
  have hlo' : ∀ j < p, LeftIso (site m.psi j) := by
    intro j hj
    refine hlo j ?_
    unfold pairOf at hp; split_ifs at hp <;> omega
  have hhi' : ∀ j, p + 1 < j → j < ds.length → RightIso (site m.psi j) := by
    intro j hj hj2
    refine hhi j ?_ hj2
    unfold pairOf at hp; split_ifs at hp <;> omega
  have hne := pair_nonempty hw hO hdef hk m.step hp hp1 hk1 hq
  unfold twoSiteStep
  simp only [hP12]
  rw [projectors_nil ho, Option.bind_some, if_neg (by rw [hne]; simp)]
  unfold twoSiteSolve
  simp only [hN]
  obtain ⟨D, hD, hDd⟩ := diag_expect hw hNO hk m.step hp hp1 hk1 hF k1 k4 k2 k3 ⟨k5, k6, k8, k9⟩
  have hsub := sub_length hw hNO hk m.step hp hp1 hk1 hF k1 k4 k2 k3 ⟨k5, k6, k8, k9⟩ hD hNz hall
  rw [hD, Option.map_some, Option.bind_some, if_neg hsub]
  simp only [hok, if_true]
  set r := eigs (applyQform2Sub m.step P12.dims m.H (subspaceOf D v) []) (subspaceOf D v).length (takeSub (subspaceOf D v) P12) with hr
  have sol := solve_pair_sub he hw hO hherm hNO hk m.step hp hp1 hk1 hlo' hhi' hq hF k1 k4 k2 k3 ⟨k5, k6, k8, k9⟩ hPd (by simpa using hne) v hD hsub _ (hok _ _ (takeSub (subspaceOf D v) P12))
  simp only [← hr] at sol
  set T := embedSub P12.dims (subspaceOf D v) r.P with hT
  have hnz : ∃ idx, InB T.dims idx ∧ T.get idx ≠ 0 := by
    by_contra hh
    push Not at hh
    have := sol.norm
    rw [← sol.dims] at this
    rw [sumCfg_congr (F := fun I => ‖T.get I‖ ^ 2) (G := fun _ => (0 : ℝ)) (fun I hI => by rw [hh I hI]; simp), sumCfg_zero] at this
    exact zero_ne_one this
  have hfs : Props.firstSite (m.site : Int) m.step = p := by
    unfold Props.firstSite
    unfold pairOf at hp
    rw [hsite]
    split_ifs at hp ⊢ <;> omega
  obtain ⟨Q, lost, s1, -⟩ := Props.C17_store hg eps hd0 hw T m.site m.step p hfs hp1
    (by rw [sol.dims, dim0_of k2, dim2_of k3]) o.Dmax o.svdTolerance (Or.inr (Or.inr hnz))
  rw [s1, Option.map_some]
  exact ⟨_, _, rfl, rfl⟩

/-- without an allowed block state the step fails -/
theorem two_step_fails (svd : Tensor K → SvdRes K) (eps dflt : ℝ) (eigs : Eigs K)
    {ds : List Nat} {O : List (Tensor K)} (hO : WFO 1 O ds 1) (hdef : NonZero ds O)
    {N : List (Tensor K)} (hNO : WFO 1 N ds 1) {v : K} (o : Opts) {m : Minz K} {k p : Nat}
    (hc : Cent ds O m k) (ho : m.ortho = []) (hN : NGood ds N v m k) (hsite : m.site = k) (hp : pairOf m.step k = p) (hp1 : p + 1 < ds.length)
    (hk1 : m.step > 0 ∨ 1 ≤ k) (hall : ∀ I, IsCfg (pairDims m.psi p) I → ¬ Allowed ds N m.psi p v I) :
    twoSiteStep svd eps dflt eigs o m = some ({ m with converged := false }, 0) := by
  obtain ⟨hk, hw, hq, hlo, hhi⟩ := hc
  obtain ⟨F, hN, hF⟩ := hN
  have hlen := hw.length
  obtain ⟨a, c, b, k1, k2, k3, k4, k5, k6, k7, k8, k9⟩ := WF.aroundPair hw hp1
  set d := ds.getD p 0 with hd
  set d' := ds.getD (p + 1) 0 with hd'
  have hP12 : (if m.step > 0 then fold (MPS.site m.psi m.site) (-1) (MPS.site m.psi (m.site + 1)) 0
      else fold (MPS.site m.psi (m.site - 1)) (-1) (MPS.site m.psi m.site) 0) = fold (site m.psi p) (-1) (site m.psi (p + 1)) 0 := by
    rw [hsite]
    unfold pairOf at hp
    split_ifs at hp ⊢ with hs
    · rw [← hp]
    · rw [← hp, show k - 1 + 1 = k by omega]
  set P12 := fold (site m.psi p) (-1) (site m.psi (p + 1)) 0 with hP
  have hPd : P12.dims = [a, d, d', b] := by simp [hP, fold, k2, k3]
  have hne := pair_nonempty hw hO hdef hk m.step hp hp1 hk1 hq
  unfold twoSiteStep
  simp only [hP12]
  rw [projectors_nil ho, Option.bind_some, if_neg (by rw [hne]; simp)]
  unfold twoSiteSolve
  simp only [hN]
  obtain ⟨D, hD, hDd⟩ := diag_expect hw hNO hk m.step hp hp1 hk1 hF k1 k4 k2 k3 ⟨k5, k6, k8, k9⟩
  have hsub := sub_length_zero hw hNO hk m.step hp hp1 hk1 hF k1 k4 k2 k3 ⟨k5, k6, k8, k9⟩ hD hall
  rw [hD, Option.map_some, Option.bind_some, if_pos hsub]

/-! ## A chain of two sites -/

/-- for a chain of two sites the block states are the states of the basis -/
theorem block_two {ψ : List (Tensor K)} {d d' : Nat} (h : WF 1 ψ [d, d'] 1) : pairDims ψ 0 = [1, d, d', 1] ∧ 0 < d ∧ 0 < d' ∧
    ∀ i j k l, i < d → j < d' → k < d → l < d' → amp (blockState ψ 0 [0, i, j, 0]) [k, l] = if k = i ∧ l = j then 1 else 0 := by
  cases h with
  | @cons _ _ c _ A As _ h1 _ p1 p2 h =>
  cases h with
  | @cons _ _ c' _ B Bs _ g1 _ p3 _ h =>
  cases h
  have e1 : site [A, B] 0 = A := rfl
  have e2 : site [A, B] 1 = B := rfl
  refine ⟨pairDims_of (c := c) h1 g1, p1, p3, fun i j k l hi hj hk hl => ?_⟩
  rw [blockState_of (ψ := [A, B]) (p := 0) (c := c) h1 g1]
  simp only [setPair, List.set_cons_zero, List.set_cons_succ, List.getD_cons_zero, List.getD_cons_succ]
  simp [amp, path, unitTensor, dim]
  by_cases h3 : k = i <;> by_cases h4 : l = j <;> simp [h3, h4]

theorem cfg_two {d d' : Nat} {s : List Nat} (h : IsCfg [d, d'] s) : ∃ i j, i < d ∧ j < d' ∧ s = [i, j] := by
  cases h with
  | cons h1 h => cases h with
    | cons h2 h => cases h; exact ⟨_, _, h1, h2, rfl⟩

/-- the expected value of an operator in a state of the basis -/
theorem expect_unit {ds : List Nat} {O χ : List (Tensor K)} {s : List Nat} (hs : IsCfg ds s)
    (h : ∀ t, IsCfg ds t → amp χ t = if t = s then 1 else 0) : expect ds χ O χ = opElt O s s := by
  unfold expect MPS.inner actOp
  rw [sumCfg_congr (G := fun t => if t = s then opElt O s s else 0)]
  · exact sumCfg_if ds (fun _ => opElt O s s) hs
  · intro t ht
    rw [h t ht]
    by_cases e : t = s
    · subst e
      rw [if_pos rfl, if_pos rfl, star_one, one_mul, sumCfg_congr (G := fun u => if u = t then opElt O t t else 0)]
      · exact sumCfg_if ds (fun _ => opElt O t t) hs
      · intro u hu
        rw [h u hu]
        by_cases e : u = t
        · subst e; simp
        · simp [e]
    · simp [e]

theorem allowed_two {ψ N : List (Tensor K)} {d d' : Nat} (h : WF 1 ψ [d, d'] 1) (v : K) {i j : Nat} (hi : i < d) (hj : j < d') :
    Allowed [d, d'] N ψ 0 v [0, i, j, 0] ↔ ‖opElt N [i, j] [i, j] - v‖ < 1 / 10 ^ 6 := by
  obtain ⟨-, -, -, hb⟩ := block_two h
  unfold Allowed
  rw [expect_unit (s := [i, j]) (.cons hi (.cons hj .nil))]
  intro t ht
  obtain ⟨k, l, hk, hl, rfl⟩ := cfg_two ht
  rw [hb i j k l hi hj hk hl]
  simp

theorem combination_two {ψ φ : List (Tensor K)} {d d' : Nat} (h : WF 1 ψ [d, d'] 1) (c : List Nat → K) :
    IsCombination [d, d'] ψ 0 c φ ↔ ∀ i j, i < d → j < d' → amp φ [i, j] = c [0, i, j, 0] := by
  obtain ⟨hp, -, -, hb⟩ := block_two h
  have key : ∀ i j, i < d → j < d' → sumCfg (pairDims ψ 0) (fun I => c I * amp (blockState ψ 0 I) [i, j]) = c [0, i, j, 0] := by
    intro i j hi hj
    rw [hp]
    simp only [sumCfg_cons, sumCfg_nil, Finset.sum_range_one]
    rw [Finset.sum_eq_single_of_mem i (Finset.mem_range.2 hi), Finset.sum_eq_single_of_mem j (Finset.mem_range.2 hj)]
    · rw [hb i j i j hi hj hi hj]; simp
    · intro j' hj' hne
      rw [hb i j' i j hi (Finset.mem_range.1 hj') hi hj, if_neg (by tauto), mul_zero]
    · intro i' hi' hne
      refine Finset.sum_eq_zero fun j' hj' => ?_
      rw [hb i' j' i j (Finset.mem_range.1 hi') (Finset.mem_range.1 hj') hi hj, if_neg (by tauto), mul_zero]
  constructor
  · intro hc i j hi hj
    rw [hc [i, j] (.cons hi (.cons hj .nil)), key i j hi hj]
  · intro hc s hs
    obtain ⟨i, j, hi, hj, rfl⟩ := cfg_two hs
    rw [hc i j hi hj, key i j hi hj]

end MPS.Minim
