import Verif.ConstraintLemmas2

set_option linter.unusedSectionVars false
set_option linter.unusedSimpArgs false

namespace MPS.Minim
open MPS Tensor Form
variable {K : Type} [RCLike K]

/-- what the solution `T` of the two-site eigenvalue problem with a constraint means -/
structure PairSolutionN (ds : List Nat) (O N ψ : List (Tensor K)) (p : Nat) (v : K) (E : ℝ) (a b : Nat) (T : Tensor K) : Prop where
  dims : T.dims = [a, ds.getD p 0, ds.getD (p + 1) 0, b]
  norm : sumCfg [a, ds.getD p 0, ds.getD (p + 1) 0, b] (fun I => ‖T.get I‖ ^ 2) = 1
  support : ∀ I, IsCfg [a, ds.getD p 0, ds.getD (p + 1) 0, b] I → ¬ Allowed ds N ψ p v I → T.get I = 0
  energy : ∀ (A B : Tensor K) (n : Nat), 0 < n → A.dims = [a, ds.getD p 0, n] → B.dims = [n, ds.getD (p + 1) 0, b] →
    (∀ I, IsCfg [a, ds.getD p 0, ds.getD (p + 1) 0, b] I → joined n A B I = T.get I) →
    expect ds (setPair ψ p A B) O (setPair ψ p A B) = (E : K)
  best : ∀ (A B : Tensor K) (n : Nat), 0 < n → A.dims = [a, ds.getD p 0, n] → B.dims = [n, ds.getD (p + 1) 0, b] →
    (∀ I, IsCfg [a, ds.getD p 0, ds.getD (p + 1) 0, b] I → ¬ Allowed ds N ψ p v I → joined n A B I = 0) →
    E * normSq ds (setPair ψ p A B) ≤ energyOf ds O (setPair ψ p A B)

/-- the diagonal of the constraint is made of the expected values in the block states -/
theorem diag_expect {ψ N : List (Tensor K)} {ds : List Nat} (h : WF 1 ψ ds 1) (hO : WFO 1 N ds 1)
    {k p : Nat} (hk : k < ds.length) (step : Int) (hp : pairOf step k = p) (hp1 : p + 1 < ds.length) (hk1 : step > 0 ∨ 1 ≤ k)
    {F : QForm K} (hg : QGood ds N F ((ψ.take k).map dup, (ψ.drop (k + 1)).map dup)) {a b c : Nat}
    (h1 : WF 1 (ψ.take p) (ds.take p) a) (h2 : WF b (ψ.drop (p + 2)) (ds.drop (p + 2)) 1)
    (hd1 : (site ψ p).dims = [a, ds.getD p 0, c]) (hd2 : (site ψ (p + 1)).dims = [c, ds.getD (p + 1) 0, b])
    (hpos : 0 < a ∧ 0 < ds.getD p 0 ∧ 0 < ds.getD (p + 1) 0 ∧ 0 < b) :
    ∃ D, F.twoDiag step = some D ∧ (D.size = 0 ∧ ¬ NonZero ds N ∨ (D.dims = [[a, ds.getD p 0, ds.getD (p + 1) 0, b].prod] ∧
      ∀ I, IsCfg [a, ds.getD p 0, ds.getD (p + 1) 0, b] I → D.get [flat [a, ds.getD p 0, ds.getD (p + 1) 0, b] I] =
        expect ds (blockState ψ p I) N (blockState ψ p I))) := by
  classical
  obtain ⟨q1, q2, q3, q4⟩ := hpos
  have hlen := h.length
  obtain ⟨hh1, hh2⟩ := around_pair (ψ := ψ) step hlen hk hp hp1 hk1
  have htl : ((ψ.take p).map dup).length = p := by simp; omega
  obtain ⟨M, hMs, hMd, hform, happ, hdiag⟩ := Props.form_two (a := a) (b := a) (a' := b) (b' := b) hO step hg hh1 hh2 (by rw [htl, map_dup_fst]; exact h1)
    (by rw [htl, map_dup_fst]; exact h2) (by rw [htl, map_dup_snd]; exact h1) (by rw [htl, map_dup_snd]; exact h2)
  simp only [htl, map_dup_fst, map_dup_snd] at hMd hform happ hdiag
  obtain ⟨D, e1, e2, e3⟩ := hdiag trivial trivial
  refine ⟨D, e1, ?_⟩
  by_cases hM : M.isEmpty = true
  · left
    rw [hM] at e2
    refine ⟨by simpa [isEmpty] using e2, fun hnz => ?_⟩
    obtain ⟨M', hM', hne⟩ := Form.pair_nonempty (a := a) (b := a) (a' := b) (b' := b) hO hnz step hg hh1 hh2 (by rw [htl, map_dup_fst]; exact h1)
      (by rw [htl, map_dup_fst]; exact h2) (by rw [htl, map_dup_snd]; exact h1) (by rw [htl, map_dup_snd]; exact h2)
    rw [hMs, Option.some.injEq] at hM'
    rw [← hM', hM] at hne
    exact absurd hne (by simp)
  · right
    have hM' : M.isEmpty = false := by simpa using hM
    obtain ⟨f1, f2⟩ := e3 hM'
    refine ⟨f1, fun I hI => ?_⟩
    rw [f2 _ (flat_lt hI), ← matForm_basis hM' hI hI]
    have hb : blockState ψ p I = setPair ψ p (unitTensor [a, ds.getD p 0, 1] [I.getD 0 0, I.getD 1 0, 0])
        (unitTensor [1, ds.getD (p + 1) 0, b] [0, I.getD 2 0, I.getD 3 0]) := by
      unfold blockState setPair
      rw [dim0_of hd1, dim1_of hd1, dim1_of hd2, dim2_of hd2]
    rw [hb, setPair_eq (by omega), ← hform (unitTensor _ _) (unitTensor _ _) (unitTensor _ _) (unitTensor _ _) 1 1 Nat.one_pos Nat.one_pos rfl rfl rfl rfl]
    refine matForm_congr (fun J hJ => ?_) (fun J hJ => ?_)
    · rw [joined_unit hI hJ]; rfl
    · rw [joined_unit hI hJ]; rfl

/-- the two-site eigenvalue problem with a constraint -/
theorem solve_pair_sub {eigs : Eigs K} (he : GoodEigs eigs) {ψ O N : List (Tensor K)} {ds : List Nat} (h : WF 1 ψ ds 1) (hO : WFO 1 O ds 1)
    (hherm : Hermitian ds O) (hN : WFO 1 N ds 1) {k p : Nat} (hk : k < ds.length) (step : Int) (hp : pairOf step k = p) (hp1 : p + 1 < ds.length)
    (hk1 : step > 0 ∨ 1 ≤ k)
    (hl : ∀ j < p, LeftIso (site ψ j)) (hr : ∀ j, p + 1 < j → j < ds.length → RightIso (site ψ j)) {H F : QForm K}
    (hg : QGood ds O H ((ψ.take k).map dup, (ψ.drop (k + 1)).map dup)) (hgN : QGood ds N F ((ψ.take k).map dup, (ψ.drop (k + 1)).map dup)) {a b c : Nat}
    (h1 : WF 1 (ψ.take p) (ds.take p) a) (h2 : WF b (ψ.drop (p + 2)) (ds.drop (p + 2)) 1)
    (hd1 : (site ψ p).dims = [a, ds.getD p 0, c]) (hd2 : (site ψ (p + 1)).dims = [c, ds.getD (p + 1) 0, b])
    (hpos : 0 < a ∧ 0 < ds.getD p 0 ∧ 0 < ds.getD (p + 1) 0 ∧ 0 < b) {P12 : Tensor K} (hP : P12.dims = [a, ds.getD p 0, ds.getD (p + 1) 0, b])
    (hne : ((H.applyTwoSite P12 step).getD Tensor.empty).isEmpty = false) (v : K) {D : Tensor K} (hD : F.twoDiag step = some D)
    (hsub : (subspaceOf D v).length ≠ 0) (P0 : Tensor K)
    (hok : (eigs (applyQform2Sub step P12.dims H (subspaceOf D v) []) (subspaceOf D v).length P0).ok = true) :
    let r := eigs (applyQform2Sub step P12.dims H (subspaceOf D v) []) (subspaceOf D v).length P0
    PairSolutionN ds O N ψ p v (RCLike.re r.E) a b (embedSub P12.dims (subspaceOf D v) r.P) := by
  classical
  intro r
  obtain ⟨D', hD', hDd⟩ := diag_expect h hN hk step hp hp1 hk1 hgN h1 h2 hd1 hd2 hpos
  obtain rfl : D = D' := by rw [hD] at hD'; exact Option.some.inj hD'
  obtain ⟨q1, q2, q3, q4⟩ := hpos
  have hlen := h.length
  obtain ⟨hh1, hh2⟩ := around_pair (ψ := ψ) step hlen hk hp hp1 hk1
  have htl : ((ψ.take p).map dup).length = p := by simp; omega
  obtain ⟨M, -, hMd, hform, happ, -⟩ := Props.form_two (a := a) (b := a) (a' := b) (b' := b) hO step hg hh1 hh2 (by rw [htl, map_dup_fst]; exact h1)
    (by rw [htl, map_dup_fst]; exact h2) (by rw [htl, map_dup_snd]; exact h1) (by rw [htl, map_dup_snd]; exact h2)
  simp only [htl, map_dup_fst, map_dup_snd] at hMd hform happ
  set d := ds.getD p 0 with hd
  set d' := ds.getD (p + 1) 0 with hd'
  have hMne : M.isEmpty = false := by
    obtain ⟨V, e1, e2, -⟩ := happ P12 hP
    rw [e1, Option.getD_some] at hne
    rw [← e2]; exact hne
  have hdpos : ∀ x ∈ [a, d, d', b], 0 < x := by intro x hx; simp at hx; rcases hx with rfl | rfl | rfl | rfl <;> assumption
  have hform' : ∀ (Y X : List Nat → K) (A B C D : Tensor K) (m n : Nat), 0 < m → 0 < n → A.dims = [a, d, m] → B.dims = [m, d', b] →
      C.dims = [a, d, n] → D.dims = [n, d', b] → (∀ I, IsCfg [a, d, d', b] I → joined m A B I = Y I) →
      (∀ I, IsCfg [a, d, d', b] I → joined n C D I = X I) →
      matForm M [a, d, d', b] [a, d, d', b] Y X = expect ds (setPair ψ p A B) O (setPair ψ p C D) := by
    intro Y X A B C D m n hm hn hA hB hC hD hY hX
    rw [setPair_eq (by omega), setPair_eq (by omega), ← hform A B C D m n hm hn hA hB hC hD]
    exact (matForm_congr hY hX).symm
  have hfact : ∀ Y X : List Nat → K, matForm M [a, d, d', b] [a, d, d', b] Y X =
      expect ds (setPair ψ p (factL a d d' b Y) (factR d' b)) O (setPair ψ p (factL a d d' b X) (factR d' b)) := by
    intro Y X
    apply hform' Y X _ _ _ _ (d' * b) (d' * b) (Nat.mul_pos q3 q4) (Nat.mul_pos q3 q4)
    · rfl
    · rfl
    · rfl
    · rfl
    · exact fun I hI => joined_fact Y hI
    · exact fun I hI => joined_fact X hI
  have hherm' : ∀ I J, IsCfg [a, d, d', b] I → IsCfg [a, d, d', b] J →
      star (M.get [flat [a, d, d', b] I, flat [a, d, d', b] J]) = M.get [flat [a, d, d', b] J, flat [a, d, d', b] I] := by
    intro I J hI hJ
    rw [← matForm_basis hMne hI hJ, ← matForm_basis hMne hJ hI, hfact, hfact, expect_star hherm]
  have hsz : D.size = [a, d, d', b].prod ∧ ∀ I, IsCfg [a, d, d', b] I → D.lin (flat [a, d, d', b] I) = expect ds (blockState ψ p I) N (blockState ψ p I) := by
    rcases hDd with ⟨h0, -⟩ | ⟨e1, e2⟩
    · exact absurd (by simp [subspaceOf, h0]) hsub
    · refine ⟨by simp [Tensor.size, e1], fun I hI => ?_⟩
      rw [lin_one e1 (flat_lt hI), e2 I hI]
  set sub := subspaceOf D v with hs
  set pr : Nat → Bool := fun n => decide (‖D.lin n - v‖ < Ntol) with hpr
  have hsubeq : sub = (List.range [a, d, d', b].prod).filter pr := by
    rw [hs, hpr, ← hsz.1]; unfold subspaceOf; congr
  have hallow : ∀ I, IsCfg [a, d, d', b] I → (¬ Allowed ds N ψ p v I ↔ pr (flat [a, d, d', b] I) = false) := by
    intro I hI
    simp only [hpr, hsz.2 I hI, decide_eq_false_iff_not]
    unfold Allowed Ntol
    rfl
  rw [hP] at hok
  have hA : ∀ X : Tensor K, X.dims = [sub.length] → (applyQform2Sub step [a, d, d', b] H sub [] X).dims = [sub.length] ∧
      ∀ i < sub.length, (applyQform2Sub step [a, d, d', b] H sub [] X).get [i] =
      sumCfg [a, d, d', b] fun J => M.get [sub.getD i 0, flat [a, d, d', b] J] * (embedSub [a, d, d', b] sub X).get J := by
    intro X hX
    obtain ⟨V, e1, -, e2⟩ := happ (embedSub [a, d, d', b] sub X) rfl
    obtain ⟨e3, e4⟩ := e2 hMne
    unfold applyQform2Sub orthogonalize
    simp only [List.foldl_nil, e1, Option.getD_some]
    refine ⟨rfl, fun i hi => ?_⟩
    obtain ⟨I, hI, eI⟩ := flat_surj (sub_mem hsubeq hi).1
    show V.lin (sub.getD i 0) = _
    rw [← eI, lin_cfg e3 hI, e4 I hI]
  obtain ⟨c1, c2, c3, c4⟩ := eig_sub he hdpos hsubeq (by omega) hMne hherm' hA P0 hok
  have er : eigs (applyQform2Sub step [a, d, d', b] H sub []) sub.length P0 = r := by rw [← hP]
  rw [er] at c1 c2 c3 c4
  have hnorm : ∀ (A B : Tensor K) (n : Nat), 0 < n → A.dims = [a, d, n] → B.dims = [n, d', b] →
      normSq ds (setPair ψ p A B) = sumCfg [a, d, d', b] fun I => ‖joined n A B I‖ ^ 2 := by
    intro A B n hn hA hB
    have := pair_norm h1 hA hB ⟨q1, q2, hn, q3, q4⟩ h2 (iso_take hl) (iso_drop fun j hj hj2 => hr j (by omega) (by omega))
    rw [← ds_pair hp1, ← setPair_eq (by omega)] at this
    exact this
  rw [hP]
  refine ⟨rfl, c1, fun I hI ha => c3 I hI ((hallow I hI).1 ha), ?_, ?_⟩
  · intro A B n hn hA hB hj
    rw [← hform' _ _ A B A B n n hn hn hA hB hA hB hj hj]
    exact c2
  · intro A B n hn hA hB hsup
    rw [hnorm A B n hn hA hB]
    refine le_trans (c4 (joined n A B) fun I hI h0 => hsup I hI ((hallow I hI).2 h0)) (le_of_eq ?_)
    unfold energyOf
    rw [hform' (joined n A B) (joined n A B) A B A B n n hn hn hA hB hA hB (fun _ _ => rfl) (fun _ _ => rfl)]

end MPS.Minim
