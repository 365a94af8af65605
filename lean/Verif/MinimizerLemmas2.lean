import Verif.MinimizerLemmas

set_option linter.unusedSectionVars false
set_option linter.unusedSimpArgs false

namespace MPS.Minim
open MPS Tensor Form
variable {K : Type} [RCLike K]

theorem normSq_congr {ds : List Nat} {φ ψ : List (Tensor K)} (h : ∀ s, IsCfg ds s → amp φ s = amp ψ s) : normSq ds φ = normSq ds ψ :=
  sumCfg_congr fun s hs => by rw [h s hs]

theorem expect_congr {ds : List Nat} {O φ ψ : List (Tensor K)} (h : ∀ s, IsCfg ds s → amp φ s = amp ψ s) :
    expect ds φ O φ = expect ds ψ O ψ := by
  unfold expect
  refine inner_congr h fun s _ => ?_
  unfold actOp
  exact sumCfg_congr fun t ht => by rw [h t ht]

theorem exists_path {ds : List Nat} {φ : List (Tensor K)} (h : WF 1 φ ds 1) (hd : 0 < ds.length) (hn : normSq ds φ ≠ 0) :
    ∃ s, IsCfg ds s ∧ ∃ u < 1, ∃ v, path φ s u v ≠ 0 := by
  by_contra hc
  push Not at hc
  apply hn
  unfold normSq
  rw [← sumCfg_zero (R := ℝ) ds]
  refine sumCfg_congr fun s hs => ?_
  have hne : φ ≠ [] := by rintro rfl; have := h.length; simp at this; omega
  rw [amp_of_WF h hne, Finset.sum_range_one, hc s hs 0 (by omega) 0]
  simp

/-- where the centre is after a step -/
def nextCentre (N : Nat) (step : Int) (k : Nat) : Nat := if step > 0 then (if k + 1 = N then k else k + 1) else k - 1

/-- `set_canonical` without truncation, on a state which is canonical around `k` -/
theorem store_single {svd : Tensor K → SvdRes K} (hg : GoodSvd svd) (eps : ℝ) {dflt : ℝ} (hd0 : 0 ≤ dflt) {φ : List (Tensor K)}
    {ds : List Nat} (h : WF 1 φ ds 1) (hn : normSq ds φ ≠ 0) {k : Nat} (hk : k < ds.length) (step : Int)
    (hl : ∀ j < k, LeftIso (site φ j)) (hr : ∀ j, k < j → j < ds.length → RightIso (site φ j)) :
    let r := setCanonical svd eps dflt φ k (site φ k) step false
    WF 1 r.1 ds 1 ∧ (∀ s, IsCfg ds s → amp r.1 s = amp φ s) ∧
    (∀ j < nextCentre ds.length step k, LeftIso (site r.1 j)) ∧
    (∀ j, nextCentre ds.length step k < j → j < ds.length → RightIso (site r.1 j)) ∧
    (∀ j, j ≠ k → j ≠ nextCentre ds.length step k → site r.1 j = site φ j) ∧
    (nextCentre ds.length step k = k → r.1 = φ) := by
  intro r
  have hlen := h.length
  have hne : φ ≠ [] := by rintro rfl; simp at hlen; omega
  have hamp : ∀ {χ : List (Tensor K)}, WF 1 χ ds 1 → (∀ s, IsCfg ds s → ∀ x < 1, ∀ y, path χ s x y = path φ s x y) →
      ∀ s, IsCfg ds s → amp χ s = amp φ s := by
    intro χ hχ hp s hs
    have hne' : χ ≠ [] := by rintro rfl; have := hχ.length; simp at this; omega
    rw [amp_of_WF hχ hne', amp_of_WF h hne, Finset.sum_range_one, Finset.sum_range_one, hp s hs 0 (by omega)]
  by_cases hs : step > 0
  · by_cases hl1 : k + 1 = ds.length
    · have e : nextCentre ds.length step k = k := by simp [nextCentre, hs, hl1]
      have er : r.1 = φ := by
        simp only [r, setCanonical, hs, if_true, hlen, hl1]
        exact Props.set_site_self φ k (by omega)
      rw [e, er]
      exact ⟨h, fun s _ => rfl, hl, hr, fun _ _ _ => rfl, fun _ => rfl⟩
    · have e : nextCentre ds.length step k = k + 1 := by simp [nextCentre, hs, hl1]
      have er : r = setCanonical svd eps dflt φ k (site φ k) 1 false := by
        simp only [r, setCanonical, hs, if_true, show (1 : Int) > 0 by decide]
      obtain ⟨c1, c2, c3, -, c5, c6⟩ := setCanonical_right hg eps hd0 h k (by omega) false (Or.inr (exists_path h (by omega) hn))
      rw [← er] at c1 c2 c3 c5 c6
      rw [e]
      refine ⟨c1, hamp c1 (c5 (c6 (Or.inl (effTol_zeros _)))), ?_, ?_, fun j h1 h2 => c3 j h1 h2, fun hh => by omega⟩
      · intro j hj
        by_cases hjk : j = k
        · rw [hjk]; exact c2
        · rw [c3 j hjk (by omega)]; exact hl j (by omega)
      · intro j hj hj2
        rw [c3 j (by omega) (by omega)]; exact hr j (by omega) hj2
  · by_cases hk0 : k = 0
    · have e : nextCentre ds.length step k = k := by simp [nextCentre, hs, hk0]
      have er : r.1 = φ := by
        simp only [r, setCanonical, hs, if_false, hk0, if_true]
        exact Props.set_site_self φ 0 (by omega)
      rw [e, er]
      exact ⟨h, fun s _ => rfl, hl, hr, fun _ _ _ => rfl, fun _ => rfl⟩
    · obtain ⟨k, rfl⟩ : ∃ k', k = k' + 1 := ⟨k - 1, by omega⟩
      have e : nextCentre ds.length step (k + 1) = k := by simp [nextCentre, hs]
      obtain ⟨c1, c2, c3, -, c5, c6⟩ := setCanonical_left hg eps hd0 h k (by omega) false step (by omega)
        (Or.inr (exists_path h (by omega) hn))
      rw [e]
      refine ⟨c1, hamp c1 (c5 (c6 (Or.inl (effTol_zeros _)))), ?_, ?_, fun j h1 h2 => c3 j h2 h1, fun hh => by omega⟩
      · intro j hj
        rw [c3 j (by omega) (by omega)]; exact hl j (by omega)
      · intro j hj hj2
        by_cases hjk : j = k + 1
        · rw [hjk]; exact c2
        · rw [c3 j (by omega) hjk]; exact hr j (by omega) hj2

/-- the state of the program: canonical around site `k`, with a cache that belongs to the state -/
structure Cent (ds : List Nat) (O : List (Tensor K)) (m : Minz K) (k : Nat) : Prop where
  lt : k < ds.length
  wf : WF 1 m.psi ds 1
  q : QGood ds O m.H ((m.psi.take k).map dup, (m.psi.drop (k + 1)).map dup)
  lo : ∀ j < k, LeftIso (site m.psi j)
  hi : ∀ j, k < j → j < ds.length → RightIso (site m.psi j)

theorem site_ext {l l' : List (Tensor K)} (hlen : l.length = l'.length) (h : ∀ j < l.length, site l j = site l' j) : l = l' := by
  apply List.ext_getElem hlen
  intro j h1 h2
  have := h j h1
  simpa [site, h1, h2] using this

theorem take_ext {l l' : List (Tensor K)} {k : Nat} (hlen : l.length = l'.length) (hk : k ≤ l.length)
    (h : ∀ j < k, site l j = site l' j) : l.take k = l'.take k := by
  apply site_ext
  · simp [hlen]
  · intro j hj
    simp only [List.length_take, lt_min_iff] at hj
    have := h j hj.1
    simpa [site, List.getElem?_take, hj.1] using this

theorem drop_ext {l l' : List (Tensor K)} {k : Nat} (hlen : l.length = l'.length)
    (h : ∀ j, k ≤ j → j < l.length → site l j = site l' j) : l.drop k = l'.drop k := by
  apply site_ext
  · simp [hlen]
  · intro j hj
    simp only [List.length_drop] at hj
    have := h (k + j) (by omega) (by omega)
    simpa [site, List.getElem?_drop] using this

/-- the cache after a step -/
theorem move_cache {ds : List Nat} {O : List (Tensor K)} (hO : WFO 1 O ds 1) {H : QForm K} {φ χ : List (Tensor K)} {k : Nat}
    (hk : k < ds.length) (h1 : φ.length = ds.length) (h2 : χ.length = ds.length) (step : Int)
    (hq : QGood ds O H ((φ.take k).map dup, (φ.drop (k + 1)).map dup))
    (hs : ∀ j, j ≠ k → j ≠ nextCentre ds.length step k → site χ j = site φ j) :
    QGood ds O (H.propagate (site χ k) (site χ k) step)
      ((χ.take (nextCentre ds.length step k)).map dup, (χ.drop (nextCentre ds.length step k + 1)).map dup) := by
  by_cases hst : step > 0
  · have := hq.move hO (.right (site χ k, site χ k))
    have e : H.propagate (site χ k) (site χ k) step = H.move (.right (site χ k, site χ k)) := by
      simp only [QForm.move, QForm.propagate, hst, if_true, show (1 : Int) > 0 by decide]
    rw [e]
    by_cases hl : k + 1 = ds.length
    · have en : nextCentre ds.length step k = k := by simp [nextCentre, hst, hl]
      rw [en] at hs ⊢
      rw [Move.after, if_pos (by simp; omega)] at this
      rw [take_ext (l := χ) (l' := φ) (by omega) (by omega) (fun j hj => hs j (by omega) (by omega)),
        drop_ext (l := χ) (l' := φ) (k := k + 1) (by omega) (fun j hj hj2 => hs j (by omega) (by omega))]
      exact this
    · have en : nextCentre ds.length step k = k + 1 := by simp [nextCentre, hst, hl]
      rw [en] at hs ⊢
      rw [Move.after, if_neg (by simp; omega)] at this
      rw [take_succ_site (by omega), take_ext (l := χ) (l' := φ) (by omega) (by omega) (fun j hj => hs j (by omega) (by omega)),
        drop_ext (l := χ) (l' := φ) (k := k + 1 + 1) (by omega) (fun j hj hj2 => hs j (by omega) (by omega))]
      simpa [dup, List.map_append, ← List.map_tail, List.tail_drop] using this
  · have := hq.move hO (.left (site χ k, site χ k))
    have e : H.propagate (site χ k) (site χ k) step = H.move (.left (site χ k, site χ k)) := by
      simp only [QForm.move, QForm.propagate, hst, if_false, show ¬ (-1 : Int) > 0 by decide]
    rw [e]
    by_cases hl : k = 0
    · have en : nextCentre ds.length step k = k := by simp [nextCentre, hst, hl]
      rw [en] at hs ⊢
      rw [Move.after, if_pos (by simp [hl])] at this
      rw [take_ext (l := χ) (l' := φ) (by omega) (by omega) (fun j hj => hs j (by omega) (by omega)),
        drop_ext (l := χ) (l' := φ) (k := k + 1) (by omega) (fun j hj hj2 => hs j (by omega) (by omega))]
      exact this
    · obtain ⟨k, rfl⟩ : ∃ k', k = k' + 1 := ⟨k - 1, by omega⟩
      have en : nextCentre ds.length step (k + 1) = k := by simp [nextCentre, hst]
      rw [en] at hs ⊢
      rw [Move.after, if_neg (by intro hh; have := congrArg List.length hh; simp only [List.length_map, List.length_take, List.length_nil] at this; omega)] at this
      have e1 : χ.drop (k + 1) = site χ (k + 1) :: φ.drop (k + 1 + 1) := by
        rw [drop_site (by omega), drop_ext (l := χ) (l' := φ) (k := k + 1 + 1) (by omega) (fun j hj hj2 => hs j (by omega) (by omega))]
      rw [e1, take_ext (l := χ) (l' := φ) (by omega) (by omega) (fun j hj => hs j (by omega) (by omega))]
      have e2 : ((φ.take (k + 1)).map dup).dropLast = (φ.take k).map dup := by
        rw [take_succ_site (by omega)]; simp
      simp only [e2] at this
      exact this

end MPS.Minim
