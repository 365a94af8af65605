import Verif.SolveLemmas6
import Verif.SimplifyLemmas9

/-!
# The local problems of the two-site version of `solve`
-/

set_option linter.unusedSectionVars false
set_option linter.unusedSimpArgs false

namespace MPS.Solve
open MPS Tensor Form Minim Obc
variable {K : Type} [RCLike K]

/-- a wave function depends on the tensors of a pair through their product -/
theorem amp_pair {ds : List Nat} {P : List (Tensor K)} {p a b n n' : Nat} (hg : Simp.Gap2 ds P p a b) {A B A' B' : Tensor K} (hn : 0 < n) (hn' : 0 < n')
    (hA : A.dims = [a, ds.getD p 0, n]) (hB : B.dims = [n, ds.getD (p + 1) 0, b]) (hA' : A'.dims = [a, ds.getD p 0, n'])
    (hB' : B'.dims = [n', ds.getD (p + 1) 0, b])
    (h : ∀ I, IsCfg [a, ds.getD p 0, ds.getD (p + 1) 0, b] I → joined n A B I = joined n' A' B' I) :
    ∀ s, IsCfg ds s → amp (setPair P p A B) s = amp (setPair P p A' B') s := by
  intro s hs
  have hl := hg.len
  have hlt := hg.lt
  have wA := WF.setPair hg.lt hg.len hg.wl hg.wr hA hB ⟨hg.pa, hg.pd, hn, hg.pd', hg.pb⟩
  have wA' := WF.setPair hg.lt hg.len hg.wl hg.wr hA' hB' ⟨hg.pa, hg.pd, hn', hg.pd', hg.pb⟩
  have ne : ∀ {χ : List (Tensor K)}, WF 1 χ ds 1 → χ ≠ [] := by
    rintro χ hχ rfl; have := hχ.length; simp at this; omega
  rw [amp_of_WF wA (ne wA), amp_of_WF wA' (ne wA'), Finset.sum_range_one, Finset.sum_range_one, setPair_eq (by omega), setPair_eq (by omega)]
  rw [ds_pair hg.lt] at hs
  obtain ⟨s1, s2, rfl, h1, h2⟩ := isCfg_split hs
  match s2, h2 with
  | i :: j :: s3, h2 =>
    obtain ⟨hi, h2⟩ := isCfg_cons.1 h2
    obtain ⟨hj, h2⟩ := isCfg_cons.1 h2
    rw [path_pair_expand hg.wl hA hB ⟨hg.pa, hg.pd, hn, hg.pd', hg.pb⟩ hg.wr h1 i j (by omega) 0,
      path_pair_expand hg.wl hA' hB' ⟨hg.pa, hg.pd, hn', hg.pd', hg.pb⟩ hg.wr h1 i j (by omega) 0]
    refine Finset.sum_congr rfl fun u hu => ?_
    congr 1
    refine Finset.sum_congr rfl fun v hv => ?_
    congr 1
    have := h [u, i, j, v] (.cons (Finset.mem_range.1 hu) (.cons hi (.cons hj (.cons (Finset.mem_range.1 hv) .nil))))
    simpa [joined] using this

/-- the wave function of a pair of sites -/
noncomputable def pairWave (ds : List Nat) (P : List (Tensor K)) (p a b : Nat) (Y : List Nat → K) : List Nat → K :=
  amp (setPair P p (factL a (ds.getD p 0) (ds.getD (p + 1) 0) b Y) (factR (ds.getD (p + 1) 0) b))

/-- the dimensions of a pair -/
def pairDims (ds : List Nat) (p a b : Nat) : List Nat := [a, ds.getD p 0, ds.getD (p + 1) 0, b]

theorem pairWave_eq {ds : List Nat} {P : List (Tensor K)} {p a b n : Nat} (hg : Simp.Gap2 ds P p a b) {A B : Tensor K} (hn : 0 < n)
    (hA : A.dims = [a, ds.getD p 0, n]) (hB : B.dims = [n, ds.getD (p + 1) 0, b]) {Y : List Nat → K}
    (h : ∀ I, IsCfg (pairDims ds p a b) I → joined n A B I = Y I) : ∀ s, IsCfg ds s → pairWave ds P p a b Y s = amp (setPair P p A B) s := by
  refine amp_pair hg (Nat.mul_pos hg.pd' hg.pb) hn rfl rfl hA hB fun I hI => ?_
  rw [joined_fact Y hI, h I hI]

/-- the local problem of the pair that a step at `k` treats -/
theorem Cent.pair {ds : List Nat} {H HH G : List (Tensor K)} (hHH : WFO 1 HH ds 1) (hsq : IsSquare ds H HH) (hG : WF 1 G ds 1) {x : St K} {k : Nat}
    (hc : Cent ds HH G x k) {p : Nat} (step : Int) (hp : pairOf step k = p) (hp1 : p + 1 < ds.length) (hk1 : step > 0 ∨ 1 ≤ k) {a b : Nat}
    (hgap : Simp.Gap2 ds x.P p a b) :
    ∃ v M, x.lf.twoSiteVector step = some v ∧ v.dims = pairDims ds p a b ∧
      (∀ Y : Tensor K, Y.dims = pairDims ds p a b → ∃ V, x.qf.applyTwoSite Y step = some V ∧ V.isEmpty = M.isEmpty ∧
        (M.isEmpty = false → V.dims = pairDims ds p a b ∧ ∀ I, IsCfg (pairDims ds p a b) I →
          V.get I = sumCfg (pairDims ds p a b) fun J => M.get [flat (pairDims ds p a b) I, flat (pairDims ds p a b) J] * Y.get J)) ∧
      (M.isEmpty = false → Local ds (pairDims ds p a b) H (amp G) (pairWave ds x.P p a b) M (conj v)) ∧
      (NonZero ds HH → M.isEmpty = false) ∧
      (M.isEmpty = true → ∀ Y, MPS.inner ds (act ds H (pairWave ds x.P p a b Y)) (act ds H (pairWave ds x.P p a b Y)) = 0) := by
  classical
  obtain ⟨hk, hw, hl, hq⟩ := hc
  have hlen := hw.length
  have h1 := hgap.wl
  have h2 := hgap.wr
  obtain ⟨hh1, hh2⟩ := around_pair (ψ := x.P) step hlen hk hp hp1 hk1
  obtain ⟨gg1, gg2⟩ := around_pair' (ψ := x.P) step hlen hk hp hp1 hk1
  have htl : ((x.P.take p).map dup).length = p := by simp; omega
  have htl' : (x.P.take p).length = p := by simp; omega
  obtain ⟨M, hM, hMd, hform, happ, -⟩ := Props.form_two (a := a) (b := a) (a' := b) (b' := b) hHH step hq hh1 hh2 (by rw [htl, map_dup_fst]; exact h1)
    (by rw [htl, map_dup_fst]; exact h2) (by rw [htl, map_dup_snd]; exact h1) (by rw [htl, map_dup_snd]; exact h2)
  simp only [htl, map_dup_fst, map_dup_snd] at hMd hform happ
  obtain ⟨v, v0, v1, v2⟩ := Props.lgood_pair (by simp) (by simpa using hG) step hl gg1 gg2 (D := a) (E := b) (by rw [htl']; exact h1) (by rw [htl']; exact h2)
  rw [htl'] at v1 v2
  rw [superpose_one] at v2
  have hf : ∀ Y Z, matForm M (pairDims ds p a b) (pairDims ds p a b) Y Z =
      MPS.inner ds (act ds H (pairWave ds x.P p a b Y)) (act ds H (pairWave ds x.P p a b Z)) := by
    intro Y Z
    unfold pairWave
    rw [← expect_square hsq, setPair_eq (by omega), setPair_eq (by omega), ← hform _ _ _ _ _ _ (Nat.mul_pos hgap.pd' hgap.pb) (Nat.mul_pos hgap.pd' hgap.pb) rfl rfl rfl rfl]
    exact (matForm_congr (fun I hI => joined_fact Y hI) (fun I hI => joined_fact Z hI)).symm
  refine ⟨v, M, v0, v1, happ, fun hne => ⟨?_, hMd.resolve_left (by rw [hne]; simp), v1, hf, ?_⟩, fun hnz => ?_, fun he Y => ?_⟩
  · intro y hy
    simp only [pairDims, List.mem_cons, List.not_mem_nil, or_false] at hy
    rcases hy with rfl | rfl | rfl | rfl
    · exact hgap.pa
    · exact hgap.pd
    · exact hgap.pd'
    · exact hgap.pb
  · intro Y
    unfold pairWave
    rw [setPair_eq (by omega), ← v2 _ _ _ rfl rfl]
    refine sumCfg_congr fun I hI => ?_
    rw [joined_fact Y hI]; simp [conj]
  · obtain ⟨M', m1, m2⟩ := Form.pair_nonempty (a := a) (b := a) (a' := b) (b' := b) hHH hnz step hq hh1 hh2 (by rw [htl, map_dup_fst]; exact h1)
      (by rw [htl, map_dup_fst]; exact h2) (by rw [htl, map_dup_snd]; exact h1) (by rw [htl, map_dup_snd]; exact h2)
    rw [hM] at m1
    rw [Option.some.inj m1]; exact m2
  · rw [← hf]; unfold matForm; rw [if_pos he]

/-- the effective operator is Hermitian and not negative -/
theorem Local.psd {ds d : List Nat} {H : List (Tensor K)} {g : List Nat → K} {E : (List Nat → K) → List Nat → K} {M X : Tensor K}
    (h : Local ds d H g E M X) {A : Tensor K → Tensor K}
    (hA : ∀ Y : Tensor K, Y.dims = d → (A Y).dims = d ∧ ∀ I, IsCfg d I → (A Y).get I = sumCfg d fun J => M.get [flat d I, flat d J] * Y.get J) :
    PsdMap A d (fun I J => M.get [flat d I, flat d J]) := by
  refine ⟨hA, fun I J hI hJ => ?_, fun y => ?_⟩
  · rw [← matForm_basis h.ne hI hJ, ← matForm_basis h.ne hJ hI, h.form, h.form, Props.inner_star']
  · rw [← matForm_flat h.ne, h.form, inner_self_re]
    exact sumCfg_nonneg _ _ fun _ _ => sq_nonneg _

/-- the numbers computed from any tensor -/
theorem Local.values' {ds d : List Nat} {H : List (Tensor K)} {g : List Nat → K} {E : (List Nat → K) → List Nat → K} {M X : Tensor K}
    (h : Local ds d H g E M X) {V Y : Tensor K} (hY : Y.dims = d)
    (hV : V.dims = d ∧ ∀ I, IsCfg d I → V.get I = sumCfg d fun J => M.get [flat d I, flat d J] * Y.get J) :
    tscprod Y V = MPS.inner ds (act ds H (E Y.get)) (act ds H (E Y.get)) ∧ tscprod X Y = MPS.inner ds g (E Y.get) := by
  refine ⟨?_, ?_⟩
  · rw [← h.form, matForm_flat h.ne, Props.tscprod_eq (by rw [hY, hV.1]) (by rw [hV.1]; exact h.pos), hV.1]
    exact sumCfg_congr fun I hI => by rw [hV.2 I hI]
  · rw [h.lin, Props.tscprod_eq (by rw [hY, h.Xdims]) (by rw [hY]; exact h.pos), hY]

/-- a descent is one in the distance -/
theorem Local.descent {ds d : List Nat} {H : List (Tensor K)} {g q : List Nat → K} {E : (List Nat → K) → List Nat → K} {M X : Tensor K}
    (h : Local ds d H g E M X) (hgq : ∀ Y, MPS.inner ds g (E Y) = MPS.inner ds q (act ds H (E Y))) {A : Tensor K → Tensor K}
    (hA : ∀ Y : Tensor K, Y.dims = d → (A Y).dims = d ∧ ∀ I, IsCfg d I → (A Y).get I = sumCfg d fun J => M.get [flat d I, flat d J] * Y.get J)
    {Y Z : Tensor K} (hY : Y.dims = d) (hZ : Z.dims = d) (hq : quad A X Y ≤ quad A X Z) : resOf ds H q (E Y.get) ≤ resOf ds H q (E Z.get) := by
  obtain ⟨y1, y2⟩ := h.values' hY (hA Y hY)
  obtain ⟨z1, z2⟩ := h.values' hZ (hA Z hZ)
  unfold quad at hq
  rw [y1, y2, z1, z2, hgq, hgq] at hq
  rw [resOf_expand, resOf_expand]
  linarith

end MPS.Solve
