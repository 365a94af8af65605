import Verif.EnergyLine
import Verif.Props.PairOptProps
import Verif.Props.MinimizerProps2
import Verif.SvdSorted

/-!
# C128: truncation and energy in the two-site minimizer

`normSq`, `energyOf` (`MinimizerSpec`): squared norm and `Re ⟨ψ|H|ψ⟩`.  `opEnergy`: the same for a wave function.  `SchmidtRank` (`SchmidtSpec`).
-/

set_option linter.unusedSectionVars false
set_option linter.unusedSimpArgs false

namespace MPS.Props
open MPS Tensor Trotter Minim Form

variable {K : Type} [RCLike K]

/-- a chain with the tensors of a pair replaced -/
theorem amp_setPair {ds : List Nat} {ψ : List (Tensor K)} (hw : WF 1 ψ ds 1) {p : Nat} (hp : p + 1 < ds.length) {a b g : Nat}
    (ha : (site ψ p).dim 0 = a) (hb : (site ψ (p + 1)).dim 2 = b) {A B : Tensor K} (hA : A.dims = [a, ds.getD p 0, g])
    (hB : B.dims = [g, ds.getD (p + 1) 0, b]) (hg : 0 < g) (T : Tensor K)
    (hT : ∀ I, IsCfg [a, ds.getD p 0, ds.getD (p + 1) 0, b] I → joined g A B I = T.get I) :
    WF 1 (setPair ψ p A B) ds 1 ∧ ∀ s, IsCfg ds s → amp (setPair ψ p A B) s = pairState ψ p T s := by
  have hlen := hw.length
  obtain ⟨a', c, b', k1, k2, k3, k4, k5, k6, k7, k8, k9⟩ := WF.aroundPair hw hp
  obtain rfl : a' = a := by rw [← ha, dim0_of k2]
  obtain rfl : b' = b := by rw [← hb, dim2_of k3]
  have hwp := WF.setPair (A := A) (B := B) hp hlen k1 k4 hA hB ⟨k5, k6, hg, k8, k9⟩
  refine ⟨hwp, fun s hs => ?_⟩
  rw [amp_of_WF hwp (by
    intro h
    have := hwp.length
    rw [h] at this; simp at this; omega), Finset.sum_range_one]
  rw [ds_pair hp] at hs
  obtain ⟨s1, s2, rfl, hs1, hs2⟩ := isCfg_split hs
  cases hs2 with
  | @cons i _ s2 _ hi hs2 =>
  cases hs2 with
  | @cons j _ s3 _ hj hs3 =>
  rw [setPair_eq (by omega), path_pair_expand k1 hA hB ⟨k5, k6, hg, k8, k9⟩ k4 hs1 i j (by omega)]
  have hψ : ψ = ψ.take p ++ site ψ p :: site ψ (p + 1) :: ψ.drop (p + 2) := by
    conv_lhs => rw [← List.take_append_drop p ψ, drop_site (by omega), drop_site (by omega)]
  have hl : (ψ.take p).length = p := by simp; omega
  have := pairState_split (pre := ψ.take p) (post := ψ.drop (p + 2)) k2 k3 T
    (l := s1) (r := s3) (by rw [hs1.length, k1.length]) i j
  rw [← hψ, hl] at this
  rw [this]
  refine Finset.sum_congr rfl fun x hx => ?_
  congr 1
  refine Finset.sum_congr rfl fun y hy => ?_
  congr 1
  exact hT _ (.cons (Finset.mem_range.1 hx) (.cons hi (.cons hj (.cons (Finset.mem_range.1 hy) .nil))))

theorem pairState_line (ψ : List (Tensor K)) (p : Nat) (X Z : Tensor K) (t : K) (ds : List Nat) (s : List Nat) :
    pairState ψ p ⟨ds, fun I => X.get I + t * (X.get I - Z.get I)⟩ s = pairState ψ p X s + t * (pairState ψ p X s - pairState ψ p Z s) := by
  unfold pairState
  simp only [← Finset.sum_sub_distrib, Finset.mul_sum, ← Finset.sum_add_distrib]
  exact Finset.sum_congr rfl fun _ _ => Finset.sum_congr rfl fun _ _ => by ring

/-- what the truncation at the end of a two-site step does to norm and energy -/
theorem trunc_energy {svd : Tensor K → SvdRes K} (hg : GoodSvd svd) {eps dflt : ℝ} (hd0 : 0 < dflt) {o : Opts} (htol : o.svdTolerance < 0 ∨ 0 < o.svdTolerance)
    {ds : List Nat} {O ψ ψ' : List (Tensor K)} {E lost : ℝ} {p : Nat} (hw : WF 1 ψ ds 1) (h : Improved2 svd eps dflt o ds O ψ ψ' E lost p) :
    ∃ φ, WF 1 φ ds 1 ∧ normSq ds φ = 1 ∧ expect ds φ O φ = (E : K) ∧ distSq ds φ ψ' = lost ∧ normSq ds ψ' = 1 - lost ∧
      energyOf ds O ψ' - E * normSq ds ψ' = opEnergy ds (opElt O) (fun s => amp φ s - amp ψ' s) - E * lost ∧
      ∃ s : List ℝ, lost = discarded s (whereToTruncate eps dflt s o.svdTolerance o.Dmax) ∧ discarded s 0 ≤ 1 ∧
        (SortedSvd svd → ∀ (D : Nat) χ, SchmidtRank ds (p + 1) D χ → discarded s D ≤ sumCfg ds fun s => ‖amp φ s - χ s‖ ^ 2) := by
  obtain ⟨T, k, sense, a, b, c1, c2, c3, c4, c5, c6, c7, c8, c9, c10, c11⟩ := h.call
  obtain ⟨Q, lost', q1, q2, -, q4, q5, s, q6, q7, q8⟩ := pair_core hg eps hd0 hw T k sense p c1 c2 (by rw [c3, c4, c5]) ⟨c6, c7⟩ o.svdTolerance htol o.Dmax
  rw [c8] at q1
  simp only [Option.some.injEq, Prod.mk.injEq, and_true] at q1
  obtain ⟨rfl, rfl⟩ := q1
  obtain ⟨a', c, b', k1, k2, k3, k4, k5, k6, k7, k8, k9⟩ := WF.aroundPair hw c2
  obtain rfl : a' = a := by rw [← c4, dim0_of k2]
  obtain rfl : b' = b := by rw [← c5, dim2_of k3]
  have hφ := fun (T : Tensor K) => amp_setPair hw c2 c4 c5 (A := factL a' (ds.getD p 0) (ds.getD (p + 1) 0) b' T.get) (B := factR (ds.getD (p + 1) 0) b') rfl rfl
    (Nat.mul_pos k8 k9) T fun I hI => joined_fact _ hI
  obtain ⟨g, g1, g2, g3, g4⟩ := chain_dims q2 hw c2 h.others k1 k4
  obtain ⟨-, hQ⟩ := amp_setPair hw c2 c4 c5 g1 g2 g3 ⟨[a', ds.getD p 0, ds.getD (p + 1) 0, b'], joined g (site ψ' p) (site ψ' (p + 1))⟩ fun _ _ => rfl
  rw [← g4] at hQ
  set φ := setPair ψ p (factL a' (ds.getD p 0) (ds.getD (p + 1) 0) b' T.get) (factR (ds.getD (p + 1) 0) b') with hφd
  set Z : Tensor K := ⟨[a', ds.getD p 0, ds.getD (p + 1) 0, b'], joined g (site ψ' p) (site ψ' (p + 1))⟩ with hZ
  have hφa := (hφ T).2
  have n1 : (sumCfg ds fun s => ‖pairState ψ p T s‖ ^ 2) = 1 := by
    rw [← c10]; unfold normSq; exact sumCfg_congr fun s hs => by rw [hφa s hs]
  have hd : distSq ds φ ψ' = lost := by
    rw [← q4]; unfold distSq; exact sumCfg_congr fun s hs => by rw [hφa s hs]
  rw [n1] at q5 q7
  refine ⟨φ, c9, c10, c11, hd, q5, ?_, s, q6, q7, fun hsort D χ hχ => (q8 hsort D χ hχ).trans (le_of_eq ?_)⟩
  · have hline := op_min_line ds (opElt O) (amp φ) (fun s => amp φ s - amp ψ' s) (E := E) (by
        have e1 : opEnergy ds (opElt O) (amp φ) = E := by
          show RCLike.re (expect ds φ O φ) = E
          rw [c11, RCLike.ofReal_re]
        have e2 : (sumCfg ds fun s => ‖amp φ s‖ ^ 2) = 1 := c10
        rw [e1, e2, mul_one]) (by
      intro t
      obtain ⟨w1, w2⟩ := hφ ⟨[a', ds.getD p 0, ds.getD (p + 1) 0, b'], fun I => T.get I + (t : K) * (T.get I - Z.get I)⟩
      have hamp : ∀ s, IsCfg ds s → amp (setPair ψ p (factL a' (ds.getD p 0) (ds.getD (p + 1) 0) b' fun I => T.get I + (t : K) * (T.get I - Z.get I))
          (factR (ds.getD (p + 1) 0) b')) s = amp φ s + (t : K) * (amp φ s - amp ψ' s) := fun s hs => by
        rw [w2 s hs, pairState_line, ← hφa s hs, ← hQ s hs]
      have := h.best _ w1 (fun j h1 h2 => by
        have hlen := hw.length
        unfold setPair
        rw [site_set _ _ _ _ (by simp; omega), if_neg h2, site_set _ _ _ _ (by omega), if_neg h1])
      have e3 : energyOf ds O (setPair ψ p (factL a' (ds.getD p 0) (ds.getD (p + 1) 0) b' fun I => T.get I + (t : K) * (T.get I - Z.get I))
          (factR (ds.getD (p + 1) 0) b')) = opEnergy ds (opElt O) fun s => amp φ s + (t : K) * (amp φ s - amp ψ' s) := opEnergy_congr hamp
      rw [← e3]
      refine le_trans (le_of_eq ?_) this
      congr 1
      unfold normSq
      exact sumCfg_congr fun s hs => by rw [hamp s hs])
    have e4 : (fun s => amp φ s - (amp φ s - amp ψ' s)) = amp ψ' := by funext s; exact sub_sub_cancel _ _
    have e5 : ∀ s, amp φ s - (amp φ s - amp ψ' s) = amp ψ' s := fun s => sub_sub_cancel _ _
    rw [e4] at hline
    simp only [e5] at hline
    rw [← hd]
    exact hline
  · exact sumCfg_congr fun s hs => by rw [hφa s hs]

/-- the last step of a run -/
theorem two_last {svd : Tensor K → SvdRes K} (hg : GoodSvd svd) (eps dflt : ℝ) {eigs : Eigs K} (he : GoodEigs eigs)
    {ds : List Nat} {H ψ : List (Tensor K)} (hH : WFO 1 H ds 1) (hherm : Hermitian ds H) (hw : WF 1 ψ ds 1) (hd : 0 < ds.length)
    (ht : TolOk dflt ds ψ) (o : Opts) (hD : 0 < o.Dmax) (hs : 0 < o.sweeps) {out : Minim.Out K}
    (h : minimize svd eps dflt eigs H ψ o = some out) (hok : out.converged = true) :
    WF 1 out.psi ds 1 ∧ ∃ ψ0 p, (p = 0 ∨ p + 2 = ds.length) ∧ WF 1 ψ0 ds 1 ∧ Improved2 svd eps dflt o ds H ψ0 out.psi out.E out.lost p := by
  have hd0 : 0 ≤ dflt := by rcases ht with h | h; exact h.le; exact h.1.ge
  obtain ⟨m, m1, m2, m3, m4, m5, m6, m7, m8⟩ := new_spec hg eps dflt hH hw hd ht
  unfold minimize at h
  rw [m1, Option.bind_some] at h
  unfold fullSweep at h
  rw [if_neg (by omega)] at h
  have sp := loop_spec h
  obtain ⟨m', r1, r2, r3⟩ := sp.ran hok
  obtain ⟨⟨c1, -, -⟩, c4⟩ := two_sweeps hg eps hd0 he hH hherm o (by rw [m5]; simpa [endOf] using m2) m3 m4 m6 r1
  have hne : out.energies ≠ [] := by
    intro hh
    have hlt : out.energies.length < o.sweeps := by rw [hh]; exact hs
    obtain ⟨es, E, E', h1, -⟩ := sp.stop hok hlt
    rw [hh] at h1
    simp at h1
  have hE := sp.energy hok
  have hlast : out.energies.getLast hne = out.E := by
    rw [hE, List.getLastD_eq_getLast?, List.getLast?_eq_some_getLast hne]; rfl
  obtain ⟨d1, ψ0, p, dp, d2, d3⟩ := c4 out.energies.dropLast out.E (by rw [← hlast]; exact (List.dropLast_append_getLast hne).symm)
  rw [← r2] at d1 d3
  rw [← r3] at d3
  exact ⟨by rw [r2]; exact c1.wf, ψ0, p, dp, d2, d3⟩

/-- all expectation values of the operator with matrix elements `e` are between `-M` and `M` -/
def OpBound (ds : List Nat) (e : List Nat → List Nat → K) (M : ℝ) : Prop := ∀ ψ : List Nat → K, |opEnergy ds e ψ| ≤ M * sumCfg ds (fun s => ‖ψ s‖ ^ 2)

/-- every operator has a bound -/
theorem exists_opBound (ds : List Nat) (e : List Nat → List Nat → K) : ∃ M, 0 ≤ M ∧ OpBound ds e M := by
  refine ⟨sumCfg ds fun s => sumCfg ds fun t => ‖e s t‖, sumCfg_nonneg _ _ fun _ _ => sumCfg_nonneg _ _ fun _ _ => norm_nonneg _, fun ψ => ?_⟩
  have hle : ∀ s, IsCfg ds s → ‖ψ s‖ ^ 2 ≤ sumCfg ds fun s => ‖ψ s‖ ^ 2 := fun s hs =>
    Dmrg.term_le_sumCfg ds (fun s => ‖ψ s‖ ^ 2) (fun _ => by positivity) s hs
  set N := sumCfg ds fun s => ‖ψ s‖ ^ 2 with hN
  unfold opEnergy MPS.inner actOp
  refine (RCLike.abs_re_le_norm _).trans ?_
  rw [← sumCfg_mul_right]
  refine Dmrg.norm_sumCfg_le _ _ _ fun s hs => ?_
  rw [norm_mul, ← sumCfg_mul_right, norm_star]
  refine (mul_le_mul_of_nonneg_left (Dmrg.norm_sumCfg_le ds _ (fun t => ‖e s t‖ * ‖ψ t‖) fun t _ => by rw [norm_mul]) (norm_nonneg _)).trans ?_
  rw [← sumCfg_mul_left]
  refine Trotter.sumCfg_le fun t ht => ?_
  have h1 := hle s hs
  have h2 := hle t ht
  have h3 : ‖ψ s‖ * ‖ψ t‖ ≤ N := by nlinarith [pow_two_nonneg (‖ψ s‖ - ‖ψ t‖)]
  calc ‖ψ s‖ * (‖e s t‖ * ‖ψ t‖) = ‖e s t‖ * (‖ψ s‖ * ‖ψ t‖) := by ring
    _ ≤ ‖e s t‖ * N := mul_le_mul_of_nonneg_left h3 (norm_nonneg _)

/-- **C128.**  `minimize(H, &psi, opt)` with `opt.Dmax > 0`: the squared norm of `psi` is one minus the weight dropped in the last step; if all the
energies of normalised states are between `-M` and `M`, then the energy of `psi`, divided by its squared norm, is between the value returned and
this value plus `2 M lost / (1 - lost)`. -/
theorem C128_energy {svd : Tensor K → SvdRes K} (hg : GoodSvd svd) (eps : ℝ) {dflt : ℝ} (hd0 : 0 < dflt) {eigs : Eigs K} (he : GoodEigs eigs)
    {ds : List Nat} {H ψ : List (Tensor K)} (hH : WFO 1 H ds 1) (hherm : Hermitian ds H) (hw : WF 1 ψ ds 1) (hd : 0 < ds.length)
    (o : Opts) (htol : o.svdTolerance < 0 ∨ 0 < o.svdTolerance) (hD : 0 < o.Dmax) (hs : 0 < o.sweeps) {out : Minim.Out K}
    (h : minimize svd eps dflt eigs H ψ o = some out) (hok : out.converged = true) {M : ℝ} (hM : OpBound ds (opElt H) M) :
    normSq ds out.psi = 1 - out.lost ∧ out.E * normSq ds out.psi ≤ energyOf ds H out.psi ∧
      energyOf ds H out.psi ≤ out.E * normSq ds out.psi + 2 * M * out.lost ∧
      (out.lost < 1 → out.E ≤ energyOf ds H out.psi / normSq ds out.psi ∧
        energyOf ds H out.psi / normSq ds out.psi ≤ out.E + 2 * M * out.lost / (1 - out.lost)) := by
  obtain ⟨w, ψ0, p, -, d2, d3⟩ := two_last hg eps dflt he hH hherm hw hd (Or.inl hd0) o hD hs h hok
  obtain ⟨φ, f1, f2, f3, f4, f5, f6, -⟩ := trunc_energy hg hd0 htol d2 d3
  have hlo := d3.best out.psi w d3.others
  have hE : |out.E| ≤ M := by
    have := hM (amp φ)
    have e1 : opEnergy ds (opElt H) (amp φ) = out.E := by
      show RCLike.re (expect ds φ H φ) = _
      rw [f3, RCLike.ofReal_re]
    have e2 : (sumCfg ds fun s => ‖amp φ s‖ ^ 2) = 1 := f2
    rwa [e1, e2, mul_one] at this
  have hl0 : 0 ≤ out.lost := by rw [← f4]; exact sumCfg_nonneg _ _ fun _ _ => by positivity
  have hw2 : opEnergy ds (opElt H) (fun s => amp φ s - amp out.psi s) ≤ M * out.lost := by
    refine (le_abs_self _).trans ((hM _).trans (le_of_eq ?_))
    rw [← f4]; rfl
  have hE2 : -out.E * out.lost ≤ M * out.lost := mul_le_mul_of_nonneg_right ((neg_le_abs _).trans hE) hl0
  have hup : energyOf ds H out.psi ≤ out.E * normSq ds out.psi + 2 * M * out.lost := by linarith
  refine ⟨f5, hlo, hup, fun h1 => ?_⟩
  have hn : 0 < normSq ds out.psi := by rw [f5]; linarith
  refine ⟨by rwa [le_div_iff₀ hn], ?_⟩
  rw [div_le_iff₀ hn, add_mul, ← f5, div_mul_cancel₀ _ hn.ne']
  exact hup

/-- **C128.**  The last truncation is the best possible: `psi` is as close to the normalised state `φ` found by the eigenvalue solver as any wave function of
Schmidt rank `Dmax` at the bond concerned, unless the distance is below the tolerance. -/
theorem C128_best {svd : Tensor K → SvdRes K} (hg : GoodSvd svd) (hsort : SortedSvd svd) (eps : ℝ) {dflt : ℝ} (hd0 : 0 < dflt) {eigs : Eigs K} (he : GoodEigs eigs)
    {ds : List Nat} {H ψ : List (Tensor K)} (hH : WFO 1 H ds 1) (hherm : Hermitian ds H) (hw : WF 1 ψ ds 1) (hd : 0 < ds.length)
    (o : Opts) (htol : o.svdTolerance < 0 ∨ 0 < o.svdTolerance) (hD : 0 < o.Dmax) (hs : 0 < o.sweeps) {out : Minim.Out K}
    (h : minimize svd eps dflt eigs H ψ o = some out) (hok : out.converged = true) :
    ∃ φ p, (p = 0 ∨ p + 2 = ds.length) ∧ WF 1 φ ds 1 ∧ normSq ds φ = 1 ∧ expect ds φ H φ = (out.E : K) ∧ distSq ds φ out.psi = out.lost ∧
      ∀ χ, SchmidtRank ds (p + 1) o.Dmax χ →
        out.lost ≤ max (sumCfg ds fun s => ‖amp φ s - χ s‖ ^ 2) (max (if o.svdTolerance < 0 then dflt else o.svdTolerance) eps) := by
  obtain ⟨w, ψ0, p, hp, d2, d3⟩ := two_last hg eps dflt he hH hherm hw hd (Or.inl hd0) o hD hs h hok
  obtain ⟨φ, f1, f2, f3, f4, f5, -, s, hlost, o1, o2⟩ := trunc_energy hg hd0 htol d2 d3
  refine ⟨φ, p, hp, f1, f2, f3, f4, fun χ hχ => ?_⟩
  have ht : 0 < effTol dflt o.svdTolerance := by
    unfold effTol; rcases htol with h | h
    · rw [if_pos h]; exact hd0
    · rw [if_neg (by linarith)]; exact h
  have hm : 0 < max (effTol dflt o.svdTolerance) eps := lt_of_lt_of_le ht (le_max_left _ _)
  rcases wtt_cap eps dflt s o.svdTolerance hD hd0.le ht with hh | hh
  · rw [hlost, hh]; exact (o2 hsort _ χ hχ).trans (le_max_left _ _)
  · rw [hlost]
    refine (hh.trans ?_).trans (le_max_right _ _)
    exact (mul_le_mul_of_nonneg_left o1 hm.le).trans (le_of_eq (mul_one _))

/-- the hypotheses can be met: two qubits and a Hamiltonian with entangled eigenvectors, where `Dmax = 1` is a true restriction -/
example (o : Opts) (htol : 0 < o.svdTolerance) (hD : o.Dmax = 1) (hs : 0 < o.sweeps) :
    ∃ (svd : Tensor ℝ → SvdRes ℝ) (eigs : Eigs ℝ) (M : ℝ) (out : Minim.Out ℝ), GoodSvd svd ∧ SortedSvd svd ∧ GoodEigs eigs ∧ OpBound [2, 2] (opElt bellH) M ∧
      minimize svd 0 1 eigs bellH zeroState o = some out ∧ out.converged = true := by
  obtain ⟨svd, h1, h2⟩ := exists_goodSvd_sorted (K := ℝ)
  obtain ⟨eigs, h3, h4⟩ := exists_goodEigs (K := ℝ)
  obtain ⟨M, -, h5⟩ := exists_opBound [2, 2] (opElt bellH)
  obtain ⟨out, h6, h7⟩ := C78_returns h1 0 1 h3 h4 bellH_wf bellH_hermitian bellH_nonzero zeroState_wf (by simp) (Or.inl one_pos) o (by omega)
  exact ⟨svd, eigs, M, out, h1, h2, h3, h5, h6, h7⟩

end MPS.Props
