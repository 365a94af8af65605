import Verif.ConstraintLemmas

set_option linter.unusedSectionVars false
set_option linter.unusedSimpArgs false

namespace MPS.Minim
open MPS Tensor Form
variable {K : Type} [RCLike K]

theorem lin_one {A : Tensor K} {n j : Nat} (h : A.dims = [n]) (hj : j < n) : A.lin j = A.get [j] := by
  unfold lin
  rw [h]
  have := unflat_flat (ds := [n]) (is := [j]) (.cons hj .nil)
  rw [show flat [n] [j] = j by simp [flat]] at this
  rw [this]

theorem lin_cfg {A : Tensor K} {d I : List Nat} (h : A.dims = d) (hI : IsCfg d I) : A.lin (flat d I) = A.get I := by
  unfold lin; rw [h, unflat_flat hI]

/-- sums over tensors which vanish outside of the sublist -/
theorem sum_sub {M : Type} [AddCommMonoid M] {d : List Nat} (hd : ∀ x ∈ d, 0 < x) {p : Nat → Bool} {sub : List Nat}
    (hsub : sub = (List.range d.prod).filter p) {t : Nat → K} (ht : ∀ m < d.prod, p m = false → t m = 0) (G : Nat → K → M) (hG : ∀ m, G m 0 = 0) :
    sumCfg d (fun I => G (flat d I) (t (flat d I))) = ∑ j ∈ Finset.range sub.length, G (sub.getD j 0) (t (sub.getD j 0)) := by
  rw [sumCfg_flat hd (fun m => G m (t m)), hsub, sum_filter p (fun m => G m (t m))]
  refine Finset.sum_congr rfl fun m hm => ?_
  by_cases h : p m = true
  · rw [if_pos h]
  · rw [if_neg h, ht m (Finset.mem_range.1 hm) (by simpa using h), hG]

theorem sub_mem {n : Nat} {p : Nat → Bool} {sub : List Nat} (hsub : sub = (List.range n).filter p) {j : Nat} (hj : j < sub.length) :
    sub.getD j 0 < n ∧ p (sub.getD j 0) = true := by
  have : sub.getD j 0 ∈ sub := by rw [List.getD_eq_getElem _ _ hj]; exact List.getElem_mem hj
  rw [hsub, List.mem_filter, List.mem_range] at this
  rw [hsub]; exact this

theorem sub_inj {n : Nat} {p : Nat → Bool} {sub : List Nat} (hsub : sub = (List.range n).filter p) {i j : Nat} (hi : i < sub.length) (hj : j < sub.length)
    (h : sub.getD i 0 = sub.getD j 0) : i = j := by
  have hn : sub.Nodup := by rw [hsub]; exact List.nodup_range.filter _
  rw [List.getD_eq_getElem _ _ hi, List.getD_eq_getElem _ _ hj] at h
  exact (List.Nodup.getElem_inj_iff hn).1 h

/-- the values of `embedSub` -/
def embedVal (sub : List Nat) (P : Tensor K) (m : Nat) : K := ∑ j ∈ Finset.range sub.length, if sub.getD j 0 = m then P.lin j else 0

theorem embed_get (d sub : List Nat) (P : Tensor K) (I : List Nat) : (embedSub d sub P).get I = embedVal sub P (flat d I) := rfl

theorem embedVal_sub {n : Nat} {p : Nat → Bool} {sub : List Nat} (hsub : sub = (List.range n).filter p) (P : Tensor K) {i : Nat} (hi : i < sub.length) :
    embedVal sub P (sub.getD i 0) = P.lin i := by
  unfold embedVal
  rw [Finset.sum_eq_single_of_mem i (Finset.mem_range.2 hi), if_pos rfl]
  intro j hj hne
  rw [if_neg fun h => hne (sub_inj hsub (Finset.mem_range.1 hj) hi h)]

theorem embedVal_zero {n : Nat} {p : Nat → Bool} {sub : List Nat} (hsub : sub = (List.range n).filter p) (P : Tensor K) {m : Nat} (hm : p m = false) :
    embedVal sub P m = 0 := by
  unfold embedVal
  refine Finset.sum_eq_zero fun j hj => ?_
  rw [if_neg]
  intro h
  have := (sub_mem hsub (Finset.mem_range.1 hj)).2
  rw [h, hm] at this
  exact absurd this (by simp)

/-- the eigenvalue problem on part of the basis -/
theorem eig_sub {eigs : Eigs K} (he : GoodEigs eigs) {d : List Nat} (hd : ∀ x ∈ d, 0 < x) {M : Tensor K} {p : Nat → Bool} {sub : List Nat}
    (hsub : sub = (List.range d.prod).filter p) (hpos : 0 < sub.length) (hM : M.isEmpty = false)
    (hherm : ∀ I J, IsCfg d I → IsCfg d J → star (M.get [flat d I, flat d J]) = M.get [flat d J, flat d I]) {A : Tensor K → Tensor K}
    (hA : ∀ X : Tensor K, X.dims = [sub.length] → (A X).dims = [sub.length] ∧ ∀ i < sub.length, (A X).get [i] =
      sumCfg d fun J => M.get [sub.getD i 0, flat d J] * (embedSub d sub X).get J) (P0 : Tensor K)
    (hok : (eigs A sub.length P0).ok = true) :
    let r := eigs A sub.length P0
    let T := embedSub d sub r.P
    sumCfg d (fun I => ‖T.get I‖ ^ 2) = 1 ∧ matForm M d d T.get T.get = ((RCLike.re r.E : ℝ) : K) ∧
    (∀ I, IsCfg d I → p (flat d I) = false → T.get I = 0) ∧
    ∀ Y : List Nat → K, (∀ I, IsCfg d I → p (flat d I) = false → Y I = 0) →
      RCLike.re r.E * sumCfg d (fun I => ‖Y I‖ ^ 2) ≤ RCLike.re (matForm M d d Y Y) := by
  intro r T
  set n := sub.length with hn
  have hW : ∀ i j, i < n → j < n → star (M.get [sub.getD i 0, sub.getD j 0]) = M.get [sub.getD j 0, sub.getD i 0] := by
    intro i j hi hj
    obtain ⟨I, hI, eI⟩ := flat_surj (sub_mem hsub hi).1
    obtain ⟨J, hJ, eJ⟩ := flat_surj (sub_mem hsub hj).1
    rw [← eI, ← eJ]
    exact hherm I J hI hJ
  obtain ⟨h1, h2, h3, h4⟩ := he A n P0 (fun i j => M.get [sub.getD i 0, sub.getD j 0]) hpos hW (fun X hX => by
    obtain ⟨e1, e2⟩ := hA X hX
    refine ⟨e1, fun i hi => ?_⟩
    rw [e2 i hi]
    simp only [embed_get]
    rw [sum_sub hd hsub (t := embedVal sub X) (fun m _ hm => embedVal_zero hsub X hm) (fun m x => M.get [sub.getD i 0, m] * x) (fun m => mul_zero _)]
    refine Finset.sum_congr rfl fun j hj => ?_
    rw [embedVal_sub hsub X (Finset.mem_range.1 hj), lin_one hX (Finset.mem_range.1 hj)]) hok
  have hform : ∀ (Y : List Nat → K) (t : Nat → K), (∀ I, IsCfg d I → Y I = t (flat d I)) → (∀ m < d.prod, p m = false → t m = 0) →
      matForm M d d Y Y = ∑ i ∈ Finset.range n, ∑ j ∈ Finset.range n, star (t (sub.getD i 0)) * M.get [sub.getD i 0, sub.getD j 0] * t (sub.getD j 0) := by
    intro Y t hy ht
    unfold matForm
    rw [hM, if_neg (by simp)]
    rw [← sum_sub hd hsub ht (fun m x => ∑ j ∈ Finset.range n, star x * M.get [m, sub.getD j 0] * t (sub.getD j 0)) (fun m => by simp)]
    refine sumCfg_congr fun I hI => ?_
    rw [← sum_sub hd hsub ht (fun m x => star (t (flat d I)) * M.get [flat d I, m] * x) (fun m => by simp)]
    refine sumCfg_congr fun J hJ => ?_
    rw [hy I hI, hy J hJ]
  have hnrm : ∀ (Y : List Nat → K) (t : Nat → K), (∀ I, IsCfg d I → Y I = t (flat d I)) → (∀ m < d.prod, p m = false → t m = 0) →
      sumCfg d (fun I => ‖Y I‖ ^ 2) = ∑ i ∈ Finset.range n, ‖t (sub.getD i 0)‖ ^ 2 := by
    intro Y t hy ht
    rw [← sum_sub hd hsub ht (fun _ x => ‖x‖ ^ 2) (fun m => by simp)]
    exact sumCfg_congr fun I hI => by rw [hy I hI]
  have hTt : ∀ I, IsCfg d I → T.get I = embedVal sub r.P (flat d I) := fun I _ => rfl
  have hT0 : ∀ m < d.prod, p m = false → embedVal sub r.P m = 0 := fun m _ hm => embedVal_zero hsub r.P hm
  have hTv : ∀ i < n, embedVal sub r.P (sub.getD i 0) = r.P.get [i] := fun i hi => by rw [embedVal_sub hsub r.P hi, lin_one h1 hi]
  have hnorm : sumCfg d (fun I => ‖T.get I‖ ^ 2) = 1 := by
    rw [hnrm _ _ hTt hT0, ← h2]
    exact Finset.sum_congr rfl fun i hi => by rw [hTv i (Finset.mem_range.1 hi)]
  have hE' : matForm M d d T.get T.get = ∑ i ∈ Finset.range n, ∑ j ∈ Finset.range n, star (r.P.get [i]) * M.get [sub.getD i 0, sub.getD j 0] * r.P.get [j] := by
    rw [hform _ _ hTt hT0]
    exact Finset.sum_congr rfl fun i hi => Finset.sum_congr rfl fun j hj => by rw [hTv i (Finset.mem_range.1 hi), hTv j (Finset.mem_range.1 hj)]
  have hE : matForm M d d T.get T.get = r.E := by
    rw [hE']
    have : ∀ i ∈ Finset.range n, ∑ j ∈ Finset.range n, star (r.P.get [i]) * M.get [sub.getD i 0, sub.getD j 0] * r.P.get [j] =
        r.E * ((‖r.P.get [i]‖ ^ 2 : ℝ) : K) := by
      intro i hi
      simp only [mul_assoc, ← Finset.mul_sum]
      rw [h3 i (Finset.mem_range.1 hi), ofReal_normSq]
      ring
    rw [Finset.sum_congr rfl this, ← Finset.mul_sum, ← RCLike.ofReal_sum, h2]
    simp
  refine ⟨hnorm, ?_, fun I hI h0 => embedVal_zero hsub r.P h0, fun Y hY => ?_⟩
  · have hst : star (matForm M d d T.get T.get) = matForm M d d T.get T.get := by
      rw [hE']
      simp only [star_sum, star_mul', star_star]
      rw [Finset.sum_comm]
      refine Finset.sum_congr rfl fun i hi => Finset.sum_congr rfl fun j hj => ?_
      rw [hW j i (Finset.mem_range.1 hj) (Finset.mem_range.1 hi)]; ring
    rw [hE] at hst ⊢
    exact ((RCLike.conj_eq_iff_re).1 hst).symm
  · have hy : ∀ I, IsCfg d I → Y I = (fun n => Y (unflat d n)) (flat d I) := fun I hI => by simp only [unflat_flat hI]
    have hy0 : ∀ m < d.prod, p m = false → (fun n => Y (unflat d n)) m = 0 := by
      intro m hm h0
      obtain ⟨I, hI, rfl⟩ := flat_surj hm
      simp only [unflat_flat hI]
      exact hY I hI h0
    have := h4 (fun i => Y (unflat d (sub.getD i 0)))
    rw [← hform Y _ hy hy0, ← hnrm Y _ hy hy0] at this
    exact this

end MPS.Minim
