import Verif.DmrgManyLemmas2

/-! A step of single-site DMRG with several eigenvalues; the algorithm returns if the solver does. -/

set_option linter.unusedSectionVars false
set_option linter.unusedSimpArgs false

namespace MPS.Dmrg
open MPS Tensor Form Minim
variable {K : Type} [RCLike K]

/-- `m` orthonormal states which differ only in the tensor of one site, without matrix elements of `H` between them; `vals` are their
energies, in ascending order -/
structure Ritz (ds : List Nat) (H : Ham K) (m : Nat) (vals : List ℝ) (φ : Nat → List (Tensor K)) : Prop where
  wf : ∀ p < m, WF 1 (φ p) ds 1
  same : ∃ k < ds.length, ∀ p q, p < m → q < m → ∃ X, φ q = (φ p).set k X
  orth : ∀ p q, p < m → q < m → MPS.inner ds (amp (φ p)) (amp (φ q)) = if p = q then 1 else 0
  diag : ∀ p q, p < m → q < m → hamExp ds H (φ p) (φ q) = if p = q then ((vals.getD p 0 : ℝ) : K) else 0
  asc : ∀ p, p + 1 < m → vals.getD p 0 ≤ vals.getD (p + 1) 0

theorem Ritz.le {ds : List Nat} {H : Ham K} {m : Nat} {vals : List ℝ} {φ : Nat → List (Tensor K)} (h : Ritz ds H m vals φ) {p q : Nat}
    (hpq : p ≤ q) (hq : q < m) : vals.getD p 0 ≤ vals.getD q 0 := by
  induction q with
  | zero => rw [Nat.le_zero.1 hpq]
  | succ q ih =>
    rcases Nat.lt_or_ge q p with h1 | h1
    · rw [show p = q + 1 by omega]
    · exact (ih h1 (by omega)).trans (h.asc q hq)

theorem getD_re (l : List K) (p : Nat) : (l.map RCLike.re).getD p 0 = RCLike.re (l.getD p 0) := by
  induction l generalizing p with
  | nil => simp
  | cons x l ih => cases p with
    | zero => simp
    | succ p => simpa using ih p

/-- the weight dropped when a tensor is stored is the distance of the two states -/
theorem store_dist {svd : Tensor K → SvdRes K} (hg : GoodSvd svd) (eps : ℝ) {dflt : ℝ} (hd0 : 0 < dflt) {ds : List Nat} {P : List (Tensor K)}
    (hw : WF 1 P ds 1) {k a b : Nat} (hk : k < ds.length) (hd : (site P k).dims = [a, ds.getD k 0, b]) (hlo : ∀ j < k, LeftIso (site P j))
    (hhi : ∀ j, k < j → j < ds.length → RightIso (site P j)) {X : Tensor K} (hXd : X.dims = [a, ds.getD k 0, b]) (dk : Int) :
    distSq ds (P.set k X) (setCanonical svd eps dflt P k X dk true).1 = (setCanonical svd eps dflt P k X dk true).2 := by
  have hlen := hw.length
  obtain ⟨a', b', h1, hd', h2, ha, hdp, hb⟩ := WF.around hw hk
  rw [hd] at hd'
  simp only [List.cons.injEq, and_true, true_and] at hd'
  obtain ⟨rfl, rfl⟩ := hd'
  have w1 : WF 1 (P.set k X) ds 1 := WF.replace hk hlen h1 h2 hXd ha hdp hb
  set φ := P.set k X with hφ
  have hsX : site φ k = X := by rw [hφ, site_set _ _ _ _ (by omega), if_pos rfl]
  have hso : ∀ j, j ≠ k → site φ j = site P j := fun j hj => by rw [hφ, site_set _ _ _ _ (by omega), if_neg hj]
  obtain ⟨s1, ⟨Z, z1, z2, z3⟩, s3, s4, s5, s6⟩ := Obc.store_trunc hg eps hd0 w1 hk dk (fun j hj => by rw [hso j (by omega)]; exact hlo j hj)
    (fun j hj hj2 => by rw [hso j (by omega)]; exact hhi j hj hj2)
  have hcan : setCanonical svd eps dflt φ k (site φ k) dk true = setCanonical svd eps dflt P k X dk true := by
    exact setCanonical_set svd eps dflt P k (by omega) X dk true
  rw [hcan] at s1 z2 z3 s3 s4 s5 s6
  set c := setCanonical svd eps dflt P k X dk true with hc
  rw [hsX] at z1 z2
  rw [hXd] at z1
  have hWd : (⟨[a, ds.getD k 0, b], fun I => X.get I - Z.get I⟩ : Tensor K).dims = [a, ds.getD k 0, b] := rfl
  set W : Tensor K := ⟨[a, ds.getD k 0, b], fun I => X.get I - Z.get I⟩ with hWdef
  have hw3 : WF 1 (P.set k W) ds 1 := WF.replace hk hlen h1 h2 hWd ha hdp hb
  have e : distSq ds φ c.1 = normSq ds (P.set k W) := by
    unfold distSq normSq
    refine sumCfg_congr fun s hs => ?_
    rw [z3 s hs, hφ, List.set_set, ← amp_set_sub hlen hk h1 h2 ha hdp hb hXd z1 hWd (fun I _ => rfl) hs]
  rw [e, normSq_at hw3 hk, site_set _ _ _ _ (by omega), if_pos rfl, hWd, ← z2, z1]
  · intro j hj; rw [site_set _ _ _ _ (by omega), if_neg (by omega)]; exact hlo j hj
  · intro j hj hj2; rw [site_set _ _ _ _ (by omega), if_neg (by omega)]; exact hhi j hj hj2

/-- the amplitudes depend on the entries of a tensor only -/
theorem amp_set_congr {ds : List Nat} {P : List (Tensor K)} (hw : WF 1 P ds 1) {k a b : Nat} (hk : k < ds.length)
    (hd : (site P k).dims = [a, ds.getD k 0, b]) {X Y : Tensor K} (hX : X.dims = [a, ds.getD k 0, b]) (hY : Y.dims = [a, ds.getD k 0, b])
    (h : ∀ I, IsCfg [a, ds.getD k 0, b] I → X.get I = Y.get I) {s : List Nat} (hs : IsCfg ds s) : amp (P.set k X) s = amp (P.set k Y) s := by
  obtain ⟨a', b', h1, hd', h2, ha, hdp, hb⟩ := WF.around hw hk
  rw [hd] at hd'
  simp only [List.cons.injEq, and_true, true_and] at hd'
  obtain ⟨rfl, rfl⟩ := hd'
  set W : Tensor K := ⟨[a, ds.getD k 0, b], fun _ => 0⟩ with hW
  have hWd : W.dims = [a, ds.getD k 0, b] := rfl
  have e1 := amp_set_sub hw.length hk h1 h2 ha hdp hb hX hY hWd (fun I hI => by rw [h I hI]; simp [hW]) hs
  have e2 := amp_set_sub hw.length hk h1 h2 ha hdp hb hX hX hWd (fun I hI => by simp [hW]) hs
  rw [e2, sub_self] at e1
  exact (sub_eq_zero.1 e1.symm)

theorem firstOf_get {eigs : ManyEigs K} {neigenvalues : Int} {A : Tensor K → Tensor K} {n : Nat} {P : Tensor K}
    (g2 : (eigs A n (neig neigenvalues) P).P.dims = [n, neig neigenvalues]) :
    (firstOf eigs neigenvalues A n P).P.dims = [n] ∧
    ∀ i < n, (firstOf eigs neigenvalues A n P).P.get [i] = (eigs A n (neig neigenvalues) P).P.get [i, 0] := by
  have hm := neig_pos neigenvalues
  simp only [firstOf]
  split_ifs with h1
  · refine ⟨by simp [column0, Tensor.dim, g2], fun i hi => by simp [column0]⟩
  · refine ⟨rfl, fun i hi => ?_⟩
    apply reshape_get
    · rw [g2]; exact .cons hi (.cons hm .nil)
    · rw [g2]; simp [flat]

/-- one step -/
theorem step_many {svd : Tensor K → SvdRes K} (hg : GoodSvd svd) (eps : ℝ) {dflt : ℝ} (hd0 : 0 < dflt) {eigs : ManyEigs K} (he : GoodManyEigs eigs) (neigenvalues : Int)
    {ds : List Nat} {H : Ham K} (hH : HamOk ds H) (P0 : List (List (Tensor K))) {d : St K} {k : Nat} (hc : Cent ds H d k) {dk : Int}
    {d' : St K} {E : ℝ} (hrun : singleSite svd eps dflt (firstOf eigs neigenvalues) H P0 d k dk = some (d', E)) :
    d'.vals.length = neig neigenvalues ∧ d'.vals.getD 0 0 = E ∧ ∃ φ, Ritz ds H (neig neigenvalues) d'.vals φ ∧ distSq ds (φ 0) d'.P = d'.lost := by
  obtain ⟨hk, hw, hA, hlo, hhi, hlg, hrg⟩ := hc
  have hlen := hw.length
  obtain ⟨a, b, h1, hd, h2, ha, hdp, hb⟩ := WF.around hw hk
  have hsz : (site d.P k).size = [a, ds.getD k 0, b].prod := by simp only [Tensor.size, hd]
  unfold singleSite at hrun
  simp only [dim0_of hd, dim1_of hd, dim2_of hd, hsz] at hrun
  by_cases hloc : (H.loc k).isEmpty = true
  · rw [if_pos hloc] at hrun; exact absurd hrun (by simp)
  rw [if_neg hloc] at hrun
  set eg := firstOf eigs neigenvalues with heg
  obtain ⟨mul, hmul, hr⟩ : ∃ mul, (mul = denseMul (opLeft H d.P d.A k dk) (opRight H d.P d.A k dk) a b ∨
      mul = arpackMul (opLeft H d.P d.A k dk) (opRight H d.P d.A k dk) a (ds.getD k 0) b) ∧
      (if a * ds.getD k 0 * b ≤ 10 then eg (denseMul (opLeft H d.P d.A k dk) (opRight H d.P d.A k dk) a b) [a, ds.getD k 0, b].prod
        (reshape (site d.P k) [[a, ds.getD k 0, b].prod]) else eg (arpackMul (opLeft H d.P d.A k dk) (opRight H d.P d.A k dk) a (ds.getD k 0) b)
        [a, ds.getD k 0, b].prod (reshape (site d.P k) [[a, ds.getD k 0, b].prod])) =
      eg mul [a, ds.getD k 0, b].prod (reshape (site d.P k) [[a, ds.getD k 0, b].prod]) := by
    by_cases hs : a * ds.getD k 0 * b ≤ 10
    · exact ⟨_, Or.inl rfl, if_pos hs⟩
    · exact ⟨_, Or.inr rfl, if_neg hs⟩
  simp only [hr] at hrun
  by_cases hok : (eg mul [a, ds.getD k 0, b].prod (reshape (site d.P k) [[a, ds.getD k 0, b].prod])).ok = true
  swap
  · rw [if_neg hok] at hrun; exact absurd hrun (by simp)
  rw [if_pos hok] at hrun
  simp only [Option.some.injEq, Prod.mk.injEq] at hrun
  obtain ⟨hd', hE⟩ := hrun
  obtain ⟨w1, w0, w2, w3, w4, w5⟩ := solve_many he hw hH hk hd hlo hhi (fun hk0 => hlg _ (by omega)) (fun hk1 => hrg _ (by omega) hk1) dk _ hmul
    (neig_pos neigenvalues) hok
  have hv : d'.vals = (eigs mul [a, ds.getD k 0, b].prod (neig neigenvalues) (reshape (site d.P k) [[a, ds.getD k 0, b].prod])).aux.map RCLike.re := by
    rw [← hd']; split_ifs <;> rfl
  refine ⟨by rw [hv, List.length_map]; exact w1, ?_, ?_⟩
  · rw [hv, ← hE, heg]
    simp only [firstOf, RCLike.ofReal_re]
  · refine ⟨_, ⟨fun p _ => w2 p, ⟨k, hk, fun p q _ _ => ⟨columnTensor (eigs mul [a, ds.getD k 0, b].prod (neig neigenvalues)
      (reshape (site d.P k) [[a, ds.getD k 0, b].prod])).P [a, ds.getD k 0, b] q, ?_⟩⟩, w3, fun p q hp hq => ?_, fun p hp => ?_⟩, ?_⟩
    · rw [List.set_set]
    · rw [w4 p q hp hq, hv, getD_re]
    · rw [hv, getD_re, getD_re]; exact w5 p hp
    · have hl : d'.lost = (setCanonical svd eps dflt d.P k (reshape (eg mul [a, ds.getD k 0, b].prod
          (reshape (site d.P k) [[a, ds.getD k 0, b].prod])).P [a, ds.getD k 0, b]) dk true).2 := by
        rw [← hd']; split_ifs <;> rfl
      have hP' : d'.P = (setCanonical svd eps dflt d.P k (reshape (eg mul [a, ds.getD k 0, b].prod
          (reshape (site d.P k) [[a, ds.getD k 0, b].prod])).P [a, ds.getD k 0, b]) dk true).1 := by
        rw [← hd']; split_ifs <;> rfl
      rw [hl, hP', ← store_dist hg eps hd0 hw hk hd hlo hhi (show (reshape (eg mul [a, ds.getD k 0, b].prod
          (reshape (site d.P k) [[a, ds.getD k 0, b].prod])).P [a, ds.getD k 0, b]).dims = _ from rfl) dk]
      unfold distSq
      refine sumCfg_congr fun s hs => ?_
      rw [amp_set_congr hw hk hd (Y := reshape (eg mul [a, ds.getD k 0, b].prod
          (reshape (site d.P k) [[a, ds.getD k 0, b].prod])).P [a, ds.getD k 0, b]) rfl rfl ?_ hs]
      intro I hI
      have hpos : ∀ n ∈ [a, ds.getD k 0, b], 0 < n := by intro n hn; simp at hn; rcases hn with rfl | rfl | rfl <;> assumption
      have hfl : flat [a, ds.getD k 0, b] I < [a, ds.getD k 0, b].prod := flat_lt hI
      have hm := neig_pos neigenvalues
      obtain ⟨q1, q2⟩ := firstOf_get (n := [a, ds.getD k 0, b].prod) (A := mul) (P := reshape (site d.P k) [[a, ds.getD k 0, b].prod]) w0
      symm
      change _ = (eigs mul [a, ds.getD k 0, b].prod (neig neigenvalues) (reshape (site d.P k) [[a, ds.getD k 0, b].prod])).P.get [flat [a, ds.getD k 0, b] I, 0]
      rw [← q2 _ hfl]
      apply reshape_get
      · rw [q1]; exact .cons hfl .nil
      · rw [q1]; simp [flat]

/-- the solver finds `neigenvalues` eigenvalues in every space which is large enough -/
def Succeeds (eigs : ManyEigs K) : Prop := ∀ A n m P, m ≤ n → (eigs A n m P).ok = true

theorem step_returns {svd : Tensor K → SvdRes K} (hg : GoodSvd svd) (eps : ℝ) {dflt : ℝ} (hd0 : 0 < dflt) {eigs : ManyEigs K} (he : GoodManyEigs eigs)
    (hs : Succeeds eigs) {neigenvalues : Int} {ds : List Nat} (hm : ∀ d ∈ ds, neig neigenvalues ≤ d)
    {H : Ham K} (hH : HamOk ds H) (P0 : List (List (Tensor K))) {d : St K} {k : Nat} (hc : Cent ds H d k) {dk : Int} (hdk : k = 0 → dk > 0)
    (hl : (H.loc k).isEmpty = false) :
    ∃ d' E, singleSite svd eps dflt (firstOf eigs neigenvalues) H P0 d k dk = some (d', E) ∧ Cent ds H d' (nextCentre ds.length dk k) := by
  have hc' := hc
  obtain ⟨hk, hw, hA, hlo, hhi, hlg, hrg⟩ := hc'
  obtain ⟨a, b, h1, hd, h2, ha, hdp, hb⟩ := WF.around hw hk
  have hsz : neig neigenvalues ≤ (site d.P k).size := by
    simp only [Tensor.size, hd, List.prod_cons, List.prod_nil, mul_one]
    have h1 : neig neigenvalues ≤ ds.getD k 0 := by
      rw [List.getD_eq_getElem _ _ hk]; exact hm _ (List.getElem_mem hk)
    calc neig neigenvalues ≤ 1 * (ds.getD k 0 * 1) := by omega
      _ ≤ a * (ds.getD k 0 * b) := Nat.mul_le_mul ha (Nat.mul_le_mul le_rfl hb)
  have : ∃ r, singleSite svd eps dflt (firstOf eigs neigenvalues) H P0 d k dk = some r := by
    unfold singleSite
    simp only [hl]
    rw [if_neg (by simp), if_pos]
    · exact ⟨_, rfl⟩
    · split_ifs <;> exact hs _ _ _ _ hsz
  obtain ⟨⟨d', E⟩, hr⟩ := this
  exact ⟨d', E, hr, (single_swept hg eps hd0 (firstOf_good he _) hH P0 hc hdk hr).1⟩

theorem right_returns {svd : Tensor K → SvdRes K} (hg : GoodSvd svd) (eps : ℝ) {dflt : ℝ} (hd0 : 0 < dflt) {eigs : ManyEigs K} (he : GoodManyEigs eigs)
    (hs : Succeeds eigs) {neigenvalues : Int} {ds : List Nat} (hm : ∀ d ∈ ds, neig neigenvalues ≤ d)
    {H : Ham K} (hH : HamOk ds H) (P0 : List (List (Tensor K))) (hl : ∀ j < ds.length, (H.loc j).isEmpty = false)
    (fuel : Nat) {k : Nat} (hfuel : k + fuel = ds.length) {d : St K} (hc : 0 < fuel → Cent ds H d k) (E : ℝ) :
    ∃ r, singleRight svd eps dflt (firstOf eigs neigenvalues) H P0 fuel k d E = some r := by
  induction fuel generalizing k d E with
  | zero => exact ⟨_, rfl⟩
  | succ fuel ih =>
    obtain ⟨d1, E1, h1, h2⟩ := step_returns hg eps hd0 he hs hm hH P0 (hc (by omega)) (dk := 1) (fun _ => by decide) (hl k (by omega))
    rw [singleRight, h1, Option.bind_some]
    refine ih (by omega) (fun hf => ?_) _
    have e : nextCentre ds.length 1 k = k + 1 := by unfold nextCentre; rw [if_pos (by decide), if_neg (by omega)]
    rwa [e] at h2

theorem left_returns {svd : Tensor K → SvdRes K} (hg : GoodSvd svd) (eps : ℝ) {dflt : ℝ} (hd0 : 0 < dflt) {eigs : ManyEigs K} (he : GoodManyEigs eigs)
    (hs : Succeeds eigs) {neigenvalues : Int} {ds : List Nat} (hm : ∀ d ∈ ds, neig neigenvalues ≤ d)
    {H : Ham K} (hH : HamOk ds H) (P0 : List (List (Tensor K))) (hl : ∀ j < ds.length, (H.loc j).isEmpty = false)
    {k : Nat} (hk : k < ds.length) {d : St K} (hc : Cent ds H d k) (E : ℝ) :
    ∃ r, singleLeft svd eps dflt (firstOf eigs neigenvalues) H P0 k d E = some r := by
  induction k generalizing d E with
  | zero => exact ⟨_, rfl⟩
  | succ k ih =>
    obtain ⟨d1, E1, h1, h2⟩ := step_returns hg eps hd0 he hs hm hH P0 hc (dk := -1) (fun h => by omega) (hl (k + 1) hk)
    rw [singleLeft, h1, Option.bind_some]
    have e : nextCentre ds.length (-1) (k + 1) = k := by simp [nextCentre]
    rw [e] at h2
    exact ih (by omega) h2 _

theorem iteration_returns {svd : Tensor K → SvdRes K} (hg : GoodSvd svd) (eps : ℝ) {dflt : ℝ} (hd0 : 0 < dflt) {eigs : ManyEigs K} (he : GoodManyEigs eigs)
    (hs : Succeeds eigs) {neigenvalues : Int} {ds : List Nat} (hm : ∀ d ∈ ds, neig neigenvalues ≤ d) (solve : Solve K) (svdTol : ℝ)
    {H : Ham K} (hH : HamOk ds H) (P0 : List (List (Tensor K))) (hl : ∀ j < ds.length, (H.loc j).isEmpty = false) {d : St K} {dk : Int}
    (hc : Cent ds H d (endOf ds.length dk)) : ∃ r, iteration svd eps dflt (firstOf eigs neigenvalues) solve svdTol H P0 0 dk d = some r := by
  have h2 := hH.two
  unfold iteration
  rw [if_neg (by simp), hH.size]
  by_cases h : dk > 0
  · rw [if_pos h]
    simp only [endOf, if_pos h] at hc
    exact right_returns hg eps hd0 he hs hm hH P0 hl _ (by omega) (fun _ => hc) _
  · rw [if_neg h]
    simp only [endOf, if_neg h] at hc
    exact left_returns hg eps hd0 he hs hm hH P0 hl (by omega) hc _

theorem loop_returns {iter : Int → St K → Option (Iter (St K))} {fail : List (Tensor K) → List (Tensor K)} {o : Opts} {d0 : St K}
    (hdone : ∀ es d, Run iter d0 es d → ∃ d' E, iter ((-1) ^ es.length) d = some (.done d' E))
    (fuel i : Nat) (failures : Int) (E : ℝ) (d : St K) (es : List ℝ) (hi : es.length = i) (htr : Run iter d0 es d) :
    ∃ out, loop iter fail o fuel i ((-1) ^ i) failures E d es = some out := by
  induction fuel generalizing i failures E d es with
  | zero => exact ⟨_, rfl⟩
  | succ fuel ih =>
    obtain ⟨d1, E1, h1⟩ := hdone es d htr
    have htr1 : Run iter d0 (es ++ [E1]) d1 := htr.snoc h1
    rw [hi] at h1
    rw [loop, h1, Option.bind_some]
    have hneg : -((-1 : Int) ^ i) = (-1) ^ (i + 1) := by rw [pow_succ]; ring
    simp only [hneg]
    split_ifs
    · exact ⟨_, rfl⟩
    · exact ⟨_, rfl⟩
    · exact ih _ _ _ _ _ (by simp [hi]) htr1
    · exact ih _ _ _ _ _ (by simp [hi]) htr1

end MPS.Dmrg
