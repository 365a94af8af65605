import Verif.CanonTrunc3

/-! # `canonical_form_at` of any state is an orthogonal projection onto a space which contains the result -/

set_option linter.unusedSectionVars false
set_option linter.unusedSimpArgs false

namespace MPS.Trotter
open MPS Tensor MPS.Props Minim
variable {K : Type} [RCLike K]

theorem loopLeft_proj {svd : Tensor K → SvdRes K} (hg : GoodSvd svd) (eps : ℝ) {dflt : ℝ} (hd0 : 0 < dflt) {ds : List Nat} (k : Nat) :
    ∀ (i : Nat) (x : List (Tensor K) × ℝ), i < ds.length → k ≤ i → WF 1 x.1 ds 1 → (∀ j, i < j → j < ds.length → RightIso (site x.1 j)) →
      let y := canonLoopLeft svd eps dflt k i x
      WF 1 y.1 ds 1 ∧ (∀ j, i < j → j < ds.length → site y.1 j = site x.1 j) ∧ (∀ j, k < j → j < ds.length → RightIso (site y.1 j)) ∧
      ∀ χ : List (Tensor K), WF 1 χ ds 1 → (∀ j, k < j → j < ds.length → site χ j = site y.1 j) →
        MPS.inner ds (amp χ) (amp x.1) = MPS.inner ds (amp χ) (amp y.1) := by
  intro i
  induction i with
  | zero =>
    intro x _ hk hw hr
    have : k = 0 := by omega
    subst this
    exact ⟨hw, fun _ _ _ => rfl, hr, fun _ _ _ => rfl⟩
  | succ i ih =>
    intro x hi hk hw hr
    rw [canonLoopLeft]
    by_cases hc : i + 1 > k
    · simp only [hc, if_true]
      have hlen := hw.length
      have hok : 0 < effTol dflt (splitTol true) := by rw [effTol_default]; exact hd0
      obtain ⟨r1, r2, r3, -, -, -, -⟩ := setCanonical_left_full hg eps hd0.le hw i (by omega) true (-1) (by norm_num) (Or.inl hok)
      obtain ⟨d1, d2, d3, d4⟩ := ih ((setCanonical svd eps dflt x.1 (i + 1) (site x.1 (i + 1)) (-1) true).1,
        x.2 + (setCanonical svd eps dflt x.1 (i + 1) (site x.1 (i + 1)) (-1) true).2) (by omega) (by omega) r1 (fun j hj hj2 => by
          by_cases e : j = i + 1
          · subst e; exact r2
          · show RightIso (site (setCanonical svd eps dflt x.1 (i + 1) (site x.1 (i + 1)) (-1) true).1 j)
            rw [r3 j (by omega) e]; exact hr j (by omega) hj2)
      refine ⟨d1, fun j hj hj2 => ?_, d3, fun χ hχ he => ?_⟩
      · rw [d2 j (by omega) hj2]; exact r3 j (by omega) (by omega)
      · rw [← d4 χ hχ he]
        exact overlap_left hg eps hd0 hw hi hr hχ fun j hj hj2 => by rw [he j (by omega) hj2, d2 j hj hj2]
    · simp only [hc, if_false]
      have : k = i + 1 := by omega
      subst this
      refine ⟨hw, fun _ _ _ => ?_, hr, fun _ _ _ => ?_⟩ <;> trivial

theorem loopRight_proj {svd : Tensor K → SvdRes K} (hg : GoodSvd svd) (eps : ℝ) {dflt : ℝ} (hd0 : 0 < dflt) {ds : List Nat} :
    ∀ (n i : Nat) (x : List (Tensor K) × ℝ), i + n < ds.length → WF 1 x.1 ds 1 → (∀ j < i, LeftIso (site x.1 j)) →
      let y := canonLoopRight svd eps dflt n i x
      WF 1 y.1 ds 1 ∧ (∀ j, (j < i ∨ i + n < j) → site y.1 j = site x.1 j) ∧
      ∀ χ : List (Tensor K), WF 1 χ ds 1 → (∀ j, j < i + n → site χ j = site y.1 j) →
        MPS.inner ds (amp χ) (amp x.1) = MPS.inner ds (amp χ) (amp y.1) := by
  intro n
  induction n with
  | zero =>
    intro i x _ hw hr
    exact ⟨hw, fun _ _ => rfl, fun _ _ _ => rfl⟩
  | succ n ih =>
    intro i x hi hw hr
    rw [canonLoopRight]
    have hlen := hw.length
    have hok : 0 < effTol dflt (splitTol true) := by rw [effTol_default]; exact hd0
    obtain ⟨r1, r2, r3, -, -, -, -⟩ := setCanonical_right_full hg eps hd0.le hw i (by omega) true (Or.inl hok)
    obtain ⟨d1, d2, d4⟩ := ih (i + 1) ((setCanonical svd eps dflt x.1 i (site x.1 i) 1 true).1,
      x.2 + (setCanonical svd eps dflt x.1 i (site x.1 i) 1 true).2) (by omega) r1 (fun j hj => by
        by_cases e : j = i
        · subst e; exact r2
        · show LeftIso (site (setCanonical svd eps dflt x.1 i (site x.1 i) 1 true).1 j)
          rw [r3 j e (by omega)]; exact hr j (by omega))
    refine ⟨d1, fun j hj => ?_, fun χ hχ he => ?_⟩
    · rw [d2 j (by omega)]; exact r3 j (by omega) (by omega)
    · rw [← d4 χ hχ fun j hj => he j (by omega)]
      exact overlap_right hg eps hd0 hw (by omega) hr hχ fun j hj => by rw [he j (by omega), d2 j (by omega)]

/-- `⟨y|ψ⟩ = ⟨y|y⟩` for `y = canonical_form_at(psi, k)` -/
theorem form_proj {svd : Tensor K → SvdRes K} (hg : GoodSvd svd) (eps : ℝ) {dflt : ℝ} (hd0 : 0 < dflt) {ds : List Nat} {ψ : List (Tensor K)}
    (hw : WF 1 ψ ds 1) (k : Nat) (hk : k < ds.length) :
    let y := (canonicalFormAt svd eps dflt ψ k).1
    WF 1 y ds 1 ∧ MPS.inner ds (amp y) (amp ψ) = MPS.inner ds (amp y) (amp y) := by
  intro y
  have hlen := hw.length
  obtain ⟨a1, a2, -, a4⟩ := loopLeft_proj hg eps hd0 k (ψ.length - 1) (ψ, 0) (by omega) (by omega) hw (fun j h1 h2 => by omega)
  obtain ⟨b1, b2, b3⟩ := loopRight_proj hg eps hd0 k 0 (canonLoopLeft svd eps dflt k (ψ.length - 1) (ψ, 0)) (by omega) a1 (fun j hj => by omega)
  have e : y = (canonLoopRight svd eps dflt k 0 (canonLoopLeft svd eps dflt k (ψ.length - 1) (ψ, 0))).1 := by
    simp only [y, canonicalFormAt, eitherForm]; rfl
  rw [e]
  refine ⟨b1, ?_⟩
  rw [a4 _ b1 fun j h1 h2 => b2 j (Or.inr (by omega)), b3 _ b1 fun _ _ => rfl]

/-- a projection: the distance from its overlap -/
theorem proj_dist {ds : List Nat} {x y : List (Tensor K)} (h : MPS.inner ds (amp y) (amp x) = MPS.inner ds (amp y) (amp y)) :
    distSq ds x y = normSq ds x - normSq ds y := by
  have e : distSq ds x y = distSq ds y x := by
    unfold distSq; exact sumCfg_congr fun s _ => by rw [norm_sub_rev]
  have h1 : RCLike.re (MPS.inner ds (amp y) (amp y)) = normSq ds y := by
    rw [inner_self_ofReal]; simp [normSq]
  have := Obc.dist_expand ds (amp y) (amp x)
  have h2 : RCLike.re (MPS.inner ds (amp y) (amp x)) = normSq ds y := by rw [h, h1]
  have h3 : distSq ds y x = sumCfg ds (fun s => ‖amp y s - amp x s‖ ^ 2) := rfl
  unfold MPS.inner at h2
  rw [e, h3, this, h2]
  unfold normSq
  ring

end MPS.Trotter
