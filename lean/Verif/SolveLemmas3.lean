import Verif.SolveLemmas2

/-!
# The local problems of `solve`
-/

set_option linter.unusedSectionVars false
set_option linter.unusedSimpArgs false

namespace MPS.Solve
open MPS Tensor Form Minim Obc
variable {K : Type} [RCLike K]

/-- the operator `HH` is `H†H` -/
def IsSquare (ds : List Nat) (H HH : List (Tensor K)) : Prop :=
  ∀ s t, IsCfg ds s → IsCfg ds t → opElt HH s t = sumCfg ds fun u => star (opElt H u s) * opElt H u t

theorem expect_square {ds : List Nat} {H HH : List (Tensor K)} (h : IsSquare ds H HH) (φ χ : List (Tensor K)) :
    expect ds φ HH χ = MPS.inner ds (act ds H (amp φ)) (act ds H (amp χ)) := by
  unfold expect MPS.inner act actOp
  simp only [sumCfg_star, star_mul', ← sumCfg_mul_left, ← sumCfg_mul_right]
  have e : ∀ s, IsCfg ds s → (sumCfg ds fun t => star (amp φ s) * (opElt HH s t * amp χ t)) =
      sumCfg ds fun t => sumCfg ds fun u => star (opElt H u s) * star (amp φ s) * (opElt H u t * amp χ t) := by
    intro s hs
    refine sumCfg_congr fun t ht => ?_
    rw [h s t hs ht, ← sumCfg_mul_right, ← sumCfg_mul_left]
    exact sumCfg_congr fun u _ => by ring
  rw [sumCfg_congr e]
  have e2 : ∀ s, (sumCfg ds fun t => sumCfg ds fun u => star (opElt H u s) * star (amp φ s) * (opElt H u t * amp χ t)) =
      sumCfg ds fun u => sumCfg ds fun t => star (opElt H u s) * star (amp φ s) * (opElt H u t * amp χ t) := fun s => sumCfg_comm _ _ _
  simp only [e2]
  rw [sumCfg_comm]
  refine sumCfg_congr fun u _ => ?_
  rw [sumCfg_comm]

/-- the variables of the program: a state with the forms that belong to it, looking at site `k` -/
structure Cent (ds : List Nat) (HH G : List (Tensor K)) (x : St K) (k : Nat) : Prop where
  lt : k < ds.length
  wf : WF 1 x.P ds 1
  l : LGood ds [1] [G] x.lf (x.P.take k, x.P.drop (k + 1))
  q : QGood ds HH x.qf ((x.P.take k).map dup, (x.P.drop (k + 1)).map dup)

theorem superpose_one (G : List (Tensor K)) : superpose [1] [G] = amp G := by
  funext s; simp [superpose]

/-- the local problem of one site -/
theorem Cent.single {ds : List Nat} {H HH G : List (Tensor K)} (hHH : WFO 1 HH ds 1) (hsq : IsSquare ds H HH) (hG : WF 1 G ds 1) {x : St K} {k : Nat}
    (hc : Cent ds HH G x k) (hne : x.qf.singleSiteMatrix.isEmpty = false) :
    Local ds (site x.P k).dims H (amp G) (fun Y => amp (x.P.set k ⟨(site x.P k).dims, Y⟩)) x.qf.singleSiteMatrix (conj x.lf.singleSiteVector) := by
  classical
  obtain ⟨hk, hw, hl, hq⟩ := hc
  have hlen := hw.length
  obtain ⟨a, b, h1, hd, h2, ha, hd0, hb⟩ := WF.around hw hk
  have htl : ((x.P.take k).map dup).length = k := by simp; omega
  have hlt : (x.P.take k).length = k := by simp; omega
  obtain ⟨-, m1, hform, -⟩ := Props.form_single (a := a) (b := a) (a' := b) (b' := b) hHH hq (by rw [htl, map_dup_fst]; exact h1)
    (by rw [htl, map_dup_fst]; exact h2) (by rw [htl, map_dup_snd]; exact h1) (by rw [htl, map_dup_snd]; exact h2)
  simp only [htl, map_dup_fst, map_dup_snd] at m1 hform
  obtain ⟨-, v1, v2⟩ := Props.lgood_single (by simp) (by simpa using hG) hl (D := a) (E := b) (by rw [hlt]; exact h1) (by rw [hlt]; exact h2)
  rw [hlt] at v1 v2
  rw [superpose_one] at v2
  refine ⟨?_, ?_, ?_, ?_, ?_⟩
  · rw [hd]; intro y hy; simp at hy; rcases hy with rfl | rfl | rfl <;> assumption
  · rw [hd]; exact m1.resolve_left (by rw [hne]; simp)
  · rw [hd]; exact v1
  · intro Y Z
    rw [← expect_square hsq, set_split (by omega), set_split (by omega), ← hform _ _ (by rw [hd]) (by rw [hd]), hd]
  · intro Y
    rw [set_split (by omega), ← v2 _ (by rw [hd]), hd]
    exact sumCfg_congr fun I _ => by simp [conj]

/-- `set_canonical` with truncation: what it makes of a state with the new tensor at `k` -/
theorem store {svd : Tensor K → SvdRes K} (hg : GoodSvd svd) (eps : ℝ) {dflt : ℝ} (hd0 : 0 < dflt) {φ : List (Tensor K)}
    {ds : List Nat} (h : WF 1 φ ds 1) {k : Nat} (hk : k < ds.length) (step : Int) :
    let r := setCanonical svd eps dflt φ k (site φ k) step true
    WF 1 r.1 ds 1 ∧ 0 ≤ r.2 ∧ (r.2 = 0 → ∀ s, IsCfg ds s → amp r.1 s = amp φ s) ∧
    (nextCentre ds.length step k ≠ k → if step > 0 then LeftIso (site r.1 k) else RightIso (site r.1 k)) ∧
    (∀ j, j ≠ k → j ≠ nextCentre ds.length step k → site r.1 j = site φ j) ∧
    (nextCentre ds.length step k = k → r = (φ, 0)) := by
  intro r
  have hlen := h.length
  have hamp : ∀ {χ : List (Tensor K)}, WF 1 χ ds 1 → (∀ s, IsCfg ds s → ∀ x < 1, ∀ y, path χ s x y = path φ s x y) →
      ∀ s, IsCfg ds s → amp χ s = amp φ s := by
    intro χ hχ hp s hs
    have hne' : χ ≠ [] := by rintro rfl; have := hχ.length; simp at this; omega
    have hne : φ ≠ [] := by rintro rfl; simp at hlen; omega
    rw [amp_of_WF hχ hne', amp_of_WF h hne, Finset.sum_range_one, Finset.sum_range_one, hp s hs 0 (by omega)]
  by_cases hs : step > 0
  · by_cases hl1 : k + 1 = ds.length
    · have e : nextCentre ds.length step k = k := by simp [nextCentre, hs, hl1]
      have er : r = (φ, 0) := by
        simp only [r, setCanonical, hs, if_true, hlen, hl1]
        rw [Props.set_site_self φ k (by omega)]
      rw [e, er]
      exact ⟨h, le_rfl, fun _ _ _ => rfl, fun hh => absurd rfl hh, fun _ _ _ => rfl, fun _ => rfl⟩
    · have e : nextCentre ds.length step k = k + 1 := by simp [nextCentre, hs, hl1]
      have er : r = setCanonical svd eps dflt φ k (site φ k) 1 true := by
        simp only [r, setCanonical, hs, if_true, show (1 : Int) > 0 by decide]
      obtain ⟨c1, c2, c3, c4, c5, -⟩ := setCanonical_right hg eps hd0.le h k (by omega) true (Or.inl (by rw [effTol_default]; exact hd0))
      rw [← er] at c1 c2 c3 c4 c5
      rw [e, if_pos hs]
      exact ⟨c1, c4, fun h0 => hamp c1 (c5 h0), fun _ => c2, fun j h1 h2 => c3 j h1 h2, fun hh => by omega⟩
  · by_cases hk0 : k = 0
    · have e : nextCentre ds.length step k = k := by simp [nextCentre, hs, hk0]
      have er : r = (φ, 0) := by
        simp only [r, setCanonical, hs, if_false, hk0, if_true]
        rw [Props.set_site_self φ 0 (by omega)]
      rw [e, er]
      exact ⟨h, le_rfl, fun _ _ _ => rfl, fun hh => absurd rfl hh, fun _ _ _ => rfl, fun _ => rfl⟩
    · obtain ⟨k, rfl⟩ : ∃ k', k = k' + 1 := ⟨k - 1, by omega⟩
      have e : nextCentre ds.length step (k + 1) = k := by simp [nextCentre, hs]
      obtain ⟨c1, c2, c3, c4, c5, -⟩ := setCanonical_left hg eps hd0.le h k (by omega) true step (by omega)
        (Or.inl (by rw [effTol_default]; exact hd0))
      rw [e, if_neg hs]
      exact ⟨c1, c4, fun h0 => hamp c1 (c5 h0), fun _ => c2, fun j h1 h2 => c3 j h2 h1, fun hh => by omega⟩

end MPS.Solve
