import Verif.LayerErr8
import Mathlib.LinearAlgebra.Matrix.Rank

/-! # One layer of the default strategy: the sweep without maximal dimension followed by `canonical_form(psi, -1)` -/

set_option linter.unusedSectionVars false
set_option linter.unusedSimpArgs false

namespace MPS.Trotter
open MPS Tensor Minim Order Props

theorem loop_back {svd : Tensor ℂ → SvdRes ℂ} (hg : GoodSvd svd) (eps : ℝ) {dflt : ℝ} (hd0 : 0 < dflt) {ds : List Nat} {v : ℝ} :
    ∀ (i : Nat) (x : List (Tensor ℂ) × ℝ), i < ds.length → WF 1 x.1 ds 1 → (∀ j, i < j → j < ds.length → RightIso (site x.1 j)) →
      (∀ j, j ≤ i → Bal ds x.1 j v) →
      normSq ds x.1 - normSq ds (canonLoopLeft svd eps dflt 0 i x).1 ≤ i * (max dflt eps * v) := by
  intro i
  induction i with
  | zero =>
    intro x _ _ _ _
    simp [canonLoopLeft]
  | succ i ih =>
    intro x hi hw hr hb
    rw [canonLoopLeft]
    simp only [show i + 1 > 0 by omega, if_true]
    have hlen := hw.length
    have hok : 0 < effTol dflt (splitTol true) := by rw [effTol_default]; exact hd0
    obtain ⟨r1, r2, r3, -, -, -, -⟩ := setCanonical_left_full hg eps hd0.le hw i (by omega) true (-1) (by norm_num) (Or.inl hok)
    obtain ⟨b1, b2⟩ := back_step hg eps hd0 hw hi hr hb
    have := ih ((setCanonical svd eps dflt x.1 (i + 1) (site x.1 (i + 1)) (-1) true).1,
        x.2 + (setCanonical svd eps dflt x.1 (i + 1) (site x.1 (i + 1)) (-1) true).2) (by omega) r1 (fun j hj hj2 => by
          by_cases e : j = i + 1
          · subst e; exact r2
          · show RightIso (site (setCanonical svd eps dflt x.1 (i + 1) (site x.1 (i + 1)) (-1) true).1 j)
            rw [r3 j (by omega) e]; exact hr j (by omega) hj2) b1
    push_cast
    simp only [] at this
    linarith

/-- the rows of an isometry are orthonormal: there are not more of them than columns -/
theorem iso_bound {A : Tensor ℂ} {a d b : Nat} (h : A.dims = [a, d, b]) (hi : RightIso A) : a ≤ d * b := by
  let M : Matrix (Fin a) (Fin d × Fin b) ℂ := Matrix.of fun x p => A.get [x, p.1, p.2]
  have hM : M * M.conjTranspose = 1 := by
    ext x x'
    have := hi x x' (by rw [dim0_of h]; exact x.2) (by rw [dim0_of h]; exact x'.2)
    rw [dim1_of h, dim2_of h] at this
    rw [Matrix.mul_apply, Fintype.sum_prod_type, Matrix.one_apply]
    simp only [M, Matrix.conjTranspose_apply, Matrix.of_apply]
    rw [Finset.sum_range, Finset.sum_congr rfl fun i _ => Finset.sum_range _] at this
    rw [this]
    simp [Fin.ext_iff]
  have h1 : (1 : Matrix (Fin a) (Fin a) ℂ).rank ≤ M.rank := by rw [← hM]; exact Matrix.rank_mul_le_left _ _
  rw [Matrix.rank_one, Fintype.card_fin] at h1
  have := M.rank_le_card_width
  simp at this
  omega

/-- the canonical form after the sweep -/
theorem layer_back {svd : Tensor ℂ → SvdRes ℂ} (hg : GoodSvd svd) (eps : ℝ) {dflt : ℝ} (hd0 : 0 < dflt)
    {ds : List Nat} {k : Nat} {W : Unitary} (hW : Fits W ds k) (hU : GatesUnitary ds k W.gate) (x : Evo) (hpos : 0 < ds.length) {D : Nat} (hD : 1 ≤ D)
    (h : Cent ds x.P 0) (hb : ∀ j, 0 < j → j < ds.length → (site x.P j).dim 0 ≤ D)
    (tol : ℝ) (htol : 0 < effTol dflt tol) {tau : ℝ} (htau : max (effTol dflt tol) (max dflt eps) ≤ tau) :
    let c := canonicalForm svd eps dflt (sweep svd eps dflt W x 1 tol 0).P (-1)
    Cent ds c.1 0 ∧ normSq ds c.1 ≤ normSq ds x.P ∧ normSq ds x.P - normSq ds c.1 ≤ (2 * ds.length : Nat) * (tau * (D * normSq ds x.P)) ∧
      wdist ds (amp c.1) (actOp ds (layerElt ds k W.gate) (amp x.P)) ≤ Real.sqrt ((ds.length + 1 : Nat) * (normSq ds x.P - normSq ds c.1)) := by
  intro c
  have htau1 : max (effTol dflt tol) eps ≤ tau := (max_le_max le_rfl (le_max_right dflt eps)).trans htau
  have htau2 : max dflt eps ≤ tau := (le_max_right _ _).trans htau
  have n0 := Trotter.normSq_nonneg ds x.P
  have hDn : 0 ≤ (D : ℝ) * normSq ds x.P := by positivity
  have tau0 : 0 ≤ tau := (hd0.le.trans (le_max_left dflt eps)).trans htau2
  obtain ⟨S, c0, hS, -, hf⟩ := sweep_free hg eps hd0 hW hU x hpos (lay_start hD h hpos hb) tol htol htau1
  set r := sweep svd eps dflt W x 1 tol 0 with hr
  have hlen := hf.lay.wf.length
  have e : c = canonLoopLeft svd eps dflt 0 (ds.length - 1) (r.P, 0) := by
    show canonicalForm svd eps dflt r.P (-1) = _
    simp only [canonicalForm, canonicalFormAt, eitherForm, show (-1 : Int) < 0 by norm_num, if_true, hlen]; rfl
  obtain ⟨a1, -, a3, a4⟩ := loopLeft_proj hg eps hd0 0 (ds.length - 1) (r.P, 0) (by omega) (by omega) hf.lay.wf (fun j h1 h2 => by omega)
  have hl := loop_back hg eps hd0 (ds.length - 1) (r.P, 0) (by omega) hf.lay.wf (fun j h1 h2 => by omega) (fun j hj => hf.lay.bal j (by omega))
  rw [← e] at a1 a3 a4 hl
  have hd := proj_dist (a4 c.1 a1 fun _ _ _ => rfl)
  have hd' : distSq ds r.P c.1 = normSq ds r.P - normSq ds c.1 := hd
  have hd0' : 0 ≤ distSq ds r.P c.1 := sumCfg_nonneg _ _ fun _ _ => by positivity
  have hsm := hf.small
  have hnr := hf.lay.norm
  simp only [] at hl
  refine ⟨⟨a1, fun j hj => by omega, a3⟩, by linarith, ?_, ?_⟩
  · have h1 := mul_le_mul_of_nonneg_right htau2 hDn
    have h2 : ((ds.length - 1 : Nat) : ℝ) * (max dflt eps * (D * normSq ds x.P)) ≤ ds.length * (tau * (D * normSq ds x.P)) :=
      mul_le_mul (by exact_mod_cast Nat.sub_le _ _) h1 (mul_nonneg (hd0.le.trans (le_max_left _ _)) hDn) (Nat.cast_nonneg _)
    push_cast
    linarith
  · have e1 : actOp ds (partElt ds k W.gate S) (amp x.P) = actOp ds (layerElt ds k W.gate) (amp x.P) := by
      funext t
      exact actOp_congr (fun s t => by rw [partElt_all ds k W.gate S hS]) (fun _ _ => rfl) t
    have hf1 := hf.dist
    rw [e1] at hf1
    refine (wdist_tri _ _ (amp r.P) _).trans ?_
    have h1 : wdist ds (amp c.1) (amp r.P) ≤ Real.sqrt (1 * (normSq ds r.P - normSq ds c.1)) := by
      rw [one_mul, ← hd', wdist_symm]
      refine le_of_eq ?_
      rfl
    have := sqrt_step (Nat.cast_nonneg ds.length) (by linarith) zero_le_one (by linarith) hf1 h1
    rw [add_comm]
    refine this.trans (le_of_eq ?_)
    congr 1
    push_cast; ring

end MPS.Trotter
