import Verif.ITebdApplyLemmas

/-!
# Two-site operators acting on infinite states: the decomposition
-/

set_option linter.unusedSectionVars false
set_option linter.unusedSimpArgs false

namespace MPS.ITebd
open MPS Tensor MPS.Props
open scoped Matrix
variable {K : Type} [RCLike K]

/-- nothing is dropped if the tolerance asks for it (zero, or one and above) and the dimension is not limited -/
theorem wtt_keeps (eps dflt : ℝ) (s : List ℝ) (tol : ℝ) (M : Int) (hM : M ≤ 0 ∨ (s.length : Int) ≤ M) (hd : 0 ≤ dflt)
    (h : effTol dflt tol = 0 ∨ 1 ≤ effTol dflt tol) : discarded s (whereToTruncate eps dflt s tol M) = 0 := by
  have hlt : ¬ (0 < M ∧ M < s.length) := by omega
  have key : ∀ t, 0 ≤ t → t = 0 ∨ 1 ≤ t → discarded s (whereToTruncate eps dflt s t M) = 0 := by
    intro t ht h
    obtain ⟨c1, c2, c3, c4, c5, c6⟩ := C18_truncate eps dflt s t ht M
    rw [if_neg hlt] at c3 c4
    unfold discarded
    apply Finset.sum_eq_zero
    intro j hj
    obtain ⟨h1, h2⟩ := Finset.mem_Ico.1 hj
    rcases h with h | h
    · rw [c4 h (by omega) j h1 h2]; ring
    · rw [c3 h] at h1; omega
  unfold effTol at h
  by_cases ht : tol < 0
  · rw [C18_default eps dflt s tol ht hd]
    rw [if_pos ht] at h
    exact key _ hd h
  · rw [if_neg ht] at h; exact key _ (not_lt.1 ht) h

theorem sum_pairs (D d e : Nat) (F : Nat → Nat → ℝ) : ∑ x ∈ Finset.range (D * d), ∑ y ∈ Finset.range (e * D), F x y =
    ∑ a ∈ Finset.range D, ∑ i ∈ Finset.range d, ∑ j ∈ Finset.range e, ∑ b ∈ Finset.range D, F (a + D * i) (j + e * b) := by
  rw [sum_range_mul, Finset.sum_comm]
  refine Finset.sum_congr rfl fun a _ => Finset.sum_congr rfl fun i _ => ?_
  rw [sum_range_mul, Finset.sum_comm]

/-- what `apply_operator(U, 0)` makes out of a canonical state -/
theorem apply_core {L : Lib K} (hg : GoodSvd L.svd) (hn : SortedSvd L.svd) (hd : 0 ≤ L.dflt) (tol : ℝ) (M : Int)
    {psi : State K} (hok : Ok psi) {D d E : Nat} (h : Dims psi D d E d) (hl : ∀ a < D, psi.lB.get [a] ≠ 0)
    {U : Tensor K} (hU : U.dims = [d * d, d * d])
    (hne : ∃ a b s, a < D ∧ b < D ∧ IsCfg [d, d] s ∧ actOp [d, d] (pairElt d U) (winAmp psi 0 2 a b) s ≠ 0) :
    ∃ phi c, applyCanon L psi U tol M = some phi ∧ Dims phi D d c d ∧ Ok phi ∧ phi.canonical = false ∧ phi.lB = psi.lB ∧
      c ≤ D * d ∧ (0 < M → (c : Int) ≤ M) ∧ (∃ s : List ℝ, phi.lA = vecOf s ∧ (∀ x ∈ s, 0 ≤ x)) ∧
      c = whereToTruncate L.eps L.dflt (L.svd (thetaMat psi U D d d)).s tol M ∧
      cellNorm D d d (winAmp phi 0 2) = 1 ∧
      cellNorm D d d (fun a b => actOp [d, d] (pairElt d U) (winAmp psi 0 2 a b)) = discarded (L.svd (thetaMat psi U D d d)).s 0 ∧
      ∃ ρ : ℝ, 0 < ρ ∧ cellNorm D d d (fun a b s => actOp [d, d] (pairElt d U) (winAmp psi 0 2 a b) s - (ρ : K) * winAmp phi 0 2 a b s) =
        discarded (L.svd (thetaMat psi U D d d)).s c := by
  obtain ⟨hgd, _⟩ := gab_spec hok h hU
  set T := thetaMat psi U D d d with hT
  have hTd : T.dims = [D * d, d * D] := rfl
  have hpos1 : 0 < D * d := Nat.mul_pos h.hD h.hd
  have hpos2 : 0 < d * D := Nat.mul_pos h.hd h.hD
  have hTne : ∃ i j, i < D * d ∧ j < d * D ∧ T.get [i, j] ≠ 0 := by
    obtain ⟨a, b, s, ha, hb, hs, hx⟩ := hne
    obtain ⟨i, j, rfl, hi, hj⟩ : ∃ i j, s = [i, j] ∧ i < d ∧ j < d := by
      cases hs with | cons h1 h2 => cases h2 with | cons h2 h3 => cases h3; exact ⟨_, _, rfl, h1, h2⟩
    exact ⟨a + D * i, j + d * b, add_mul_lt ha hi, add_mul_lt hj hb, by rw [hT, theta_spec hok h hU ha hi hj hb]; exact hx⟩
  obtain ⟨c1, c2, c3, c4, c5, c6, ⟨ρ, hρ, c7⟩, c8, c9, c10⟩ := limitedDim_core hg hn hd tol M hTd hpos1 hpos2 hTne
  set r := limitedSvdDim L T tol M with hr
  set c := r.s.length with hc
  have g1 : (gab psi U).dim 1 = d := by simp [dim, hgd, nrm]
  have g2 : (gab psi U).dim 2 = d := by simp [dim, hgd, nrm]
  have hsz : psi.lB.size = D := by simp [size, h.lB]
  set phi : State K := State.ofParts (scale (reshape r.U [D, d, c]) 0 (vinv psi.lB)) (vecOf r.s)
    (scale (reshape r.V [c, d, D]) (-1) (vinv psi.lB)) psi.lB false with hphi
  have happ : applyCanon L psi U tol M = some phi := by
    rw [applyCanon_eq]
    unfold splitTensor
    simp only [g1, g2, hsz, if_true]
    rfl
  have hdims : Dims phi D d c d := ⟨rfl, rfl, rfl, h.lB, h.hD, h.hd, c1, h.hd⟩
  have hamp : ∀ a < D, ∀ i < d, ∀ j < d, ∀ b < D, winAmp phi 0 2 a b [i, j] =
      ∑ k ∈ Finset.range c, r.U.get [a + D * i, k] * ((r.s.getD k 0 : ℝ) : K) * r.V.get [k, j + d * b] := by
    intro a ha i hi j hj b hb
    rw [winAmp, cell_path2 hdims hb, show phi.leftVector 0 = psi.lB from rfl, Finset.mul_sum]
    refine Finset.sum_congr rfl fun k hk => ?_
    have hk := Finset.mem_range.1 hk
    have e1 : phi.A.get [a, i, k] = r.U.get [a + D * i, k] * (1 / psi.lB.get [a]) := by
      have : (reshape r.U [D, d, c]).get [a, i, k] = r.U.get [a + D * i, k] := by
        apply reshape_get
        · rw [c4]; exact .cons (add_mul_lt ha hi) (.cons hk .nil)
        · rw [c4]; simp only [flat]; ring
      rw [← this]
      rfl
    have e2 : phi.B.get [k, j, b] = r.V.get [k, j + d * b] * (1 / psi.lB.get [b]) := by
      have : (reshape r.V [c, d, D]).get [k, j, b] = r.V.get [k, j + d * b] := by
        apply reshape_get
        · rw [c5]; exact .cons hk (.cons (add_mul_lt hj hb) .nil)
        · rw [c5]; simp only [flat]; ring
      rw [← this]
      rfl
    have e3 : phi.lA.get [k] = ((r.s.getD k 0 : ℝ) : K) := rfl
    have e4 : phi.lB.get [b] = psi.lB.get [b] := rfl
    rw [e1, e2, e3, e4]
    have := hl a ha
    have := hl b hb
    field_simp
  have hre : ∀ a, star (phi.lA.get [a]) = phi.lA.get [a] ∧ star (phi.lB.get [a]) = phi.lB.get [a] := by
    intro a
    refine ⟨?_, (hok.real a).2⟩
    show star (((r.s.getD a 0 : ℝ) : K)) = _
    rw [RCLike.star_def, RCLike.conj_ofReal]; rfl
  refine ⟨phi, c, happ, hdims, hdims.ok hre rfl rfl, rfl, rfl, le_trans c2 (min_le_left _ _), c3, ⟨r.s, rfl, c6⟩, c9, ?_, ?_, ρ, hρ, ?_⟩
  · rw [← c8, sum_pairs]
    unfold cellNorm
    refine Finset.sum_congr rfl fun a ha => Finset.sum_congr rfl fun i hi => Finset.sum_congr rfl fun j hj => Finset.sum_congr rfl fun b hb => ?_
    rw [hamp a (Finset.mem_range.1 ha) i (Finset.mem_range.1 hi) j (Finset.mem_range.1 hj) b (Finset.mem_range.1 hb)]
  · rw [← c10, sum_pairs]
    unfold cellNorm
    refine Finset.sum_congr rfl fun a ha => Finset.sum_congr rfl fun i hi => Finset.sum_congr rfl fun j hj => Finset.sum_congr rfl fun b hb => ?_
    rw [theta_spec hok h hU (Finset.mem_range.1 ha) (Finset.mem_range.1 hi) (Finset.mem_range.1 hj) (Finset.mem_range.1 hb)]
  · rw [← c7, sum_pairs]
    unfold cellNorm
    refine Finset.sum_congr rfl fun a ha => Finset.sum_congr rfl fun i hi => Finset.sum_congr rfl fun j hj => Finset.sum_congr rfl fun b hb => ?_
    beta_reduce
    rw [hamp a (Finset.mem_range.1 ha) i (Finset.mem_range.1 hi) j (Finset.mem_range.1 hj) b (Finset.mem_range.1 hb),
      theta_spec hok h hU (Finset.mem_range.1 ha) (Finset.mem_range.1 hi) (Finset.mem_range.1 hj) (Finset.mem_range.1 hb)]

end MPS.ITebd
