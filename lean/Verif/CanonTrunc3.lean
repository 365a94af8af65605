import Verif.CanonTrunc2

/-! # Truncation in `canonical_form` of a state which is canonical with respect to the other end -/

set_option linter.unusedSectionVars false
set_option linter.unusedSimpArgs false

namespace MPS.Trotter
open MPS Tensor Minim
variable {K : Type} [RCLike K]

theorem normSq_nonneg (ds : List Nat) (ψ : List (Tensor K)) : 0 ≤ normSq ds ψ := sumCfg_nonneg _ _ fun _ _ => by positivity

/-- what a truncating sweep from `x` to `y` with `n` splittings has done -/
structure Cut (ds : List Nat) (x y : List (Tensor K) × ℝ) (tau : ℝ) (n : Nat) : Prop where
  ov : MPS.inner ds (amp y.1) (amp x.1) = MPS.inner ds (amp y.1) (amp y.1)
  nrm : normSq ds y.1 = normSq ds x.1 - (y.2 - x.2)
  nonneg : 0 ≤ y.2 - x.2
  le : y.2 - x.2 ≤ n * tau * normSq ds x.1

theorem Cut.dist {ds : List Nat} {x y : List (Tensor K) × ℝ} {tau : ℝ} {n : Nat} (h : Cut ds x y tau n) :
    distSq ds x.1 y.1 = y.2 - x.2 := by
  have e : distSq ds x.1 y.1 = distSq ds y.1 x.1 := by
    unfold distSq; exact sumCfg_congr fun s _ => by rw [norm_sub_rev]
  have h1 : RCLike.re (MPS.inner ds (amp y.1) (amp y.1)) = normSq ds y.1 := by
    rw [inner_self_ofReal]; simp [normSq]
  have := Obc.dist_expand ds (amp y.1) (amp x.1)
  have h2 : RCLike.re (MPS.inner ds (amp y.1) (amp x.1)) = normSq ds y.1 := by rw [h.ov, h1]
  rw [e]
  unfold distSq
  rw [this]
  have h3 := h.nrm
  unfold MPS.inner at h2
  unfold normSq at h2 h3
  rw [h2]
  linarith

theorem Cut.refl (ds : List Nat) (x : List (Tensor K) × ℝ) (tau : ℝ) : Cut ds x x tau 0 :=
  ⟨rfl, by ring, by linarith, by simp⟩

theorem left_cut {svd : Tensor K → SvdRes K} (hg : GoodSvd svd) (eps : ℝ) {dflt : ℝ} (hd0 : 0 < dflt) {ds : List Nat} :
    ∀ (i : Nat) (x : List (Tensor K) × ℝ), i < ds.length → Cent ds x.1 i →
      Cent ds (canonLoopLeft svd eps dflt 0 i x).1 0 ∧ Cut ds x (canonLoopLeft svd eps dflt 0 i x) (max dflt eps) i ∧
      ∀ j, i < j → j < ds.length → site (canonLoopLeft svd eps dflt 0 i x).1 j = site x.1 j := by
  intro i
  induction i with
  | zero =>
    intro x _ hx
    exact ⟨hx, Cut.refl _ _ _, fun _ _ _ => rfl⟩
  | succ i ih =>
    intro x hi hx
    rw [canonLoopLeft]
    simp only [show i + 1 > 0 by omega, if_true]
    obtain ⟨c1, c2, c3, c4, c5⟩ := store hg eps hd0 hx hi (-1)
    have hsite := (Obc.store_trunc hg eps hd0 hx.wf hi (-1) hx.lo hx.hi).2.2.2.2.1
    have en : nextCentre ds.length (-1) (i + 1) = i := by simp [nextCentre]
    rw [en] at c1 hsite
    obtain ⟨d1, d2, d3⟩ := ih ((setCanonical svd eps dflt x.1 (i + 1) (site x.1 (i + 1)) (-1) true).1,
      x.2 + (setCanonical svd eps dflt x.1 (i + 1) (site x.1 (i + 1)) (-1) true).2) (by omega) c1
    set y := canonLoopLeft svd eps dflt 0 i ((setCanonical svd eps dflt x.1 (i + 1) (site x.1 (i + 1)) (-1) true).1,
      x.2 + (setCanonical svd eps dflt x.1 (i + 1) (site x.1 (i + 1)) (-1) true).2)
    have hov := overlap_left hg eps hd0 (χ := y.1) hx.wf hi hx.hi d1.wf (fun j hj hj2 => d3 j hj hj2)
    have hn := d2.nrm
    have hle := d2.le
    have hnn := d2.nonneg
    have hov2 := d2.ov
    simp only [] at hn hle hnn hov2
    refine ⟨d1, ⟨by rw [hov, hov2], by rw [hn, c3]; ring, by linarith, ?_⟩, fun j hj hj2 => ?_⟩
    · have ht : 0 ≤ max dflt eps := hd0.le.trans (le_max_left _ _)
      have : (i : ℝ) * max dflt eps * normSq ds (setCanonical svd eps dflt x.1 (i + 1) (site x.1 (i + 1)) (-1) true).1 ≤ i * max dflt eps * normSq ds x.1 := by
        refine mul_le_mul_of_nonneg_left ?_ (by positivity)
        rw [c3]; linarith
      push_cast
      linarith
    · rw [d3 j (by omega) hj2, hsite j (by omega) (by omega)]

theorem right_cut {svd : Tensor K → SvdRes K} (hg : GoodSvd svd) (eps : ℝ) {dflt : ℝ} (hd0 : 0 < dflt) {ds : List Nat} :
    ∀ (n i : Nat) (x : List (Tensor K) × ℝ), i + n < ds.length → Cent ds x.1 i →
      Cent ds (canonLoopRight svd eps dflt n i x).1 (i + n) ∧ Cut ds x (canonLoopRight svd eps dflt n i x) (max dflt eps) n ∧
      ∀ j < i, site (canonLoopRight svd eps dflt n i x).1 j = site x.1 j := by
  intro n
  induction n with
  | zero =>
    intro i x _ hx
    exact ⟨hx, Cut.refl _ _ _, fun _ _ => rfl⟩
  | succ n ih =>
    intro i x hi hx
    rw [canonLoopRight]
    skip
    obtain ⟨c1, c2, c3, c4, c5⟩ := store hg eps hd0 hx (show i < ds.length by omega) 1
    have hsite := (Obc.store_trunc hg eps hd0 hx.wf (show i < ds.length by omega) 1 hx.lo hx.hi).2.2.2.2.1
    have en : nextCentre ds.length 1 i = i + 1 := by simp [nextCentre]; omega
    rw [en] at c1 hsite
    obtain ⟨d1, d2, d3⟩ := ih (i + 1) ((setCanonical svd eps dflt x.1 i (site x.1 i) 1 true).1,
      x.2 + (setCanonical svd eps dflt x.1 i (site x.1 i) 1 true).2) (by omega) c1
    set y := canonLoopRight svd eps dflt n (i + 1) ((setCanonical svd eps dflt x.1 i (site x.1 i) 1 true).1,
      x.2 + (setCanonical svd eps dflt x.1 i (site x.1 i) 1 true).2)
    have hov := overlap_right hg eps hd0 (χ := y.1) hx.wf (show i + 1 < ds.length by omega) hx.lo d1.wf (fun j hj => d3 j (by omega))
    have hn := d2.nrm
    have hle := d2.le
    have hnn := d2.nonneg
    have hov2 := d2.ov
    simp only [] at hn hle hnn hov2
    refine ⟨by rw [show i + (n + 1) = i + 1 + n by omega]; exact d1, ⟨by rw [hov, hov2], by rw [hn, c3]; ring, by linarith, ?_⟩, fun j hj => ?_⟩
    · have ht : 0 ≤ max dflt eps := hd0.le.trans (le_max_left _ _)
      have : (n : ℝ) * max dflt eps * normSq ds (setCanonical svd eps dflt x.1 i (site x.1 i) 1 true).1 ≤ n * max dflt eps * normSq ds x.1 := by
        refine mul_le_mul_of_nonneg_left ?_ (by positivity)
        rw [c3]; linarith
      push_cast
      linarith
    · rw [d3 j (by omega), hsite j (by omega) (by omega)]

/-- `canonical_form(psi, sense)` of a state in canonical form with respect to the end where the sweep begins -/
theorem form_cut {svd : Tensor K → SvdRes K} (hg : GoodSvd svd) (eps : ℝ) {dflt : ℝ} (hd0 : 0 < dflt) {ds : List Nat}
    (hN : 0 < ds.length) (sense : Int) {ψ : List (Tensor K)} (h : Cent ds ψ (if sense < 0 then ds.length - 1 else 0)) :
    Cent ds (canonicalForm svd eps dflt ψ sense).1 (if sense < 0 then 0 else ds.length - 1) ∧
    Cut ds (ψ, 0) (canonicalForm svd eps dflt ψ sense) (max dflt eps) (ds.length - 1) := by
  have hlen := h.wf.length
  by_cases hs : sense < 0
  · simp only [hs, if_true] at h ⊢
    have e : canonicalForm svd eps dflt ψ sense = canonLoopLeft svd eps dflt 0 (ds.length - 1) (ψ, 0) := by
      simp only [canonicalForm, canonicalFormAt, eitherForm, hs, if_true, hlen]; rfl
    rw [e]
    obtain ⟨a, b, -⟩ := left_cut hg eps hd0 (ds.length - 1) (ψ, 0) (by omega) h
    exact ⟨a, b⟩
  · simp only [hs, if_false] at h ⊢
    have e0 : canonLoopLeft svd eps dflt (ds.length - 1) (ds.length - 1) (ψ, 0) = (ψ, 0) := by
      cases hn : ds.length - 1 with
      | zero => rfl
      | succ n => rw [canonLoopLeft]; simp
    have e : canonicalForm svd eps dflt ψ sense = canonLoopRight svd eps dflt (ds.length - 1) 0 (ψ, 0) := by
      simp only [canonicalForm, canonicalFormAt, eitherForm, hs, if_false, hlen, e0]; rfl
    rw [e]
    obtain ⟨a, b, -⟩ := right_cut hg eps hd0 (ds.length - 1) 0 (ψ, 0) (by omega) h
    rw [Nat.zero_add] at a
    exact ⟨a, b⟩

end MPS.Trotter
