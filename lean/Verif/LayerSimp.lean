import Verif.LayerLeft4
import Verif.ObcLemmas6

/-! # Layers of the default strategy followed by `simplify_obc` -/

set_option linter.unusedSectionVars false
set_option linter.unusedSimpArgs false

namespace MPS.Trotter
open MPS Tensor Minim Order Props Obc

theorem loop_err_nonneg {sweep : Sim ℂ → Option (Sim ℂ)} {normalize : Bool} {tolerance normQ2 : ℝ} :
    ∀ (n : Nat) (old : ℝ) (x : Sim ℂ) (errs : List ℝ) (out : Obc.Out ℂ), loop sweep normalize tolerance normQ2 n old x errs = some out → 0 ≤ out.err := by
  intro n
  induction n with
  | zero =>
    intro old x errs out h
    unfold loop at h
    obtain ⟨y, -, h⟩ := Option.bind_eq_some_iff.1 h
    simp only at h
    split at h
    · cases h; exact Real.sqrt_nonneg _
    · cases h; exact Real.sqrt_nonneg _
  | succ n ih =>
    intro old x errs out h
    unfold loop at h
    obtain ⟨y, -, h⟩ := Option.bind_eq_some_iff.1 h
    simp only at h
    split at h
    · cases h; exact Real.sqrt_nonneg _
    · exact ih _ _ _ _ h

theorem simplify_err_nonneg {svd : Tensor ℂ → SvdRes ℂ} {eps dflt : ℝ} {single : Bool} {tolerance : ℝ} {P : List (Tensor ℂ)} {w : List ℂ}
    {Q : List (List (Tensor ℂ))} {sense : Int} {sweeps : Nat} {normalize : Bool} {Dmax : Nat} {tol : ℝ} {out : Obc.Out ℂ}
    (h : simplifyObc svd eps dflt single tolerance P w Q sense sweeps normalize Dmax tol = some out) : 0 ≤ out.err := by
  unfold simplifyObc at h
  split at h
  · cases h
  · obtain ⟨s, -, h⟩ := Option.bind_eq_some_iff.1 h
    simp only at h
    obtain ⟨nq, -, h⟩ := Option.bind_eq_some_iff.1 h
    exact loop_err_nonneg _ _ _ _ _ h

theorem wdist_norm (ds : List Nat) (φ χ : List Nat → ℂ) : |wnorm ds φ - wnorm ds χ| ≤ wdist ds φ χ := by
  have h1 := wnorm_add_le ds (fun s => φ s - χ s) χ
  have h2 := wnorm_add_le ds (fun s => χ s - φ s) φ
  have h3 := wdist_symm ds φ χ
  simp only [sub_add_cancel] at h1 h2
  rw [abs_le]
  unfold wdist at *
  constructor <;> linarith

/-- bonds of a canonical form of one end -/
def AtEnd (ds : List Nat) (P : List (Tensor ℂ)) (D : Nat) : Prop :=
  (Cent ds P 0 ∨ Cent ds P (ds.length - 1)) ∧ ∀ j, 0 < j → j < ds.length → (site P j).dim 0 ≤ D

/-- the mirror image of `iso_bound` -/
theorem iso_boundL {A : Tensor ℂ} {a d b : Nat} (h : A.dims = [a, d, b]) (hi : LeftIso A) : b ≤ a * d := by
  let M : Matrix (Fin a × Fin d) (Fin b) ℂ := Matrix.of fun p y => A.get [p.1, p.2, y]
  have hM : M.conjTranspose * M = 1 := by
    ext x x'
    have := hi x x' (by rw [dim2_of h]; exact x.2) (by rw [dim2_of h]; exact x'.2)
    rw [dim0_of h, dim1_of h] at this
    rw [Matrix.mul_apply, Fintype.sum_prod_type, Matrix.one_apply]
    simp only [M, Matrix.conjTranspose_apply, Matrix.of_apply]
    rw [Finset.sum_range, Finset.sum_congr rfl fun i _ => Finset.sum_range _] at this
    rw [this]
    simp [Fin.ext_iff]
  have h1 : (1 : Matrix (Fin b) (Fin b) ℂ).rank ≤ M.rank := by rw [← hM]; exact Matrix.rank_mul_le_right _ _
  rw [Matrix.rank_one, Fintype.card_fin] at h1
  have := M.rank_le_card_height
  simp at this
  omega

theorem iso_prodL {a b : Nat} {pre : List (Tensor ℂ)} {ds : List Nat} (w : WF a pre ds b) (h : ∀ A ∈ pre, LeftIso A) : b ≤ a * ds.prod := by
  induction w with
  | nil => simp
  | cons h1 _ _ _ _ ih =>
    rw [List.prod_cons, ← mul_assoc]
    exact (ih fun A hA => h A (by simp [hA])).trans (Nat.mul_le_mul_right _ (iso_boundL h1 (h _ (by simp))))

/-- the bonds of a canonical form with respect to one end are not larger than the dimension of the Hilbert space -/
theorem atEnd_bond {ds : List Nat} {P : List (Tensor ℂ)} (h : Cent ds P 0 ∨ Cent ds P (ds.length - 1)) :
    ∀ j, j < ds.length → (site P j).dim 0 ≤ ds.prod := by
  intro j hj
  rcases h with h | h
  · exact cent_bond h (WF.dims_pos h.wf) j hj
  · have hlen := h.wf.length
    obtain ⟨a, b, w1, w2, w3, p1, p2, p3⟩ := WF.around h.wf hj
    rw [dim0_of w2]
    have h1 := iso_prodL w1 (by
      intro A hA
      obtain ⟨i, hi, rfl⟩ := List.getElem_of_mem hA
      have hi' : i < j := by simp at hi; omega
      have := h.lo i (by omega)
      have e : site P i = (P.take j)[i] := by
        simp only [site, List.getElem_take]
        rw [List.getD_eq_getElem _ _ (by omega)]
      rwa [e] at this)
    rw [one_mul] at h1
    refine h1.trans (Nat.le_of_dvd (List.prod_pos (WF.dims_pos h.wf)) ?_)
    conv_rhs => rw [← List.take_append_drop j ds, List.prod_append]
    exact Dvd.intro _ rfl

theorem simp_call {svd : Tensor ℂ → SvdRes ℂ} (hg : GoodSvd svd) (eps : ℝ) {dflt : ℝ} (hd0 : 0 < dflt) (single : Bool) (tolerance : ℝ)
    {expm : Tensor ℂ → Tensor ℂ} (he : GoodExpm expm)
    {H : Ham ℂ} {ds : List Nat} (hH : HamFits H ds) (hh : HamHermitian H ds) (hpos : 0 < ds.length) (dt : ℂ) (l : Nat × ℂ) (hk : l.1 ≤ 1)
    (hl : (dt * l.2).im = 0) {W : Unitary}
    (hW : mkUnitary expm H l.1 (dt * l.2) = some W) (x : Evo) {D : Nat} (hD : 1 ≤ D) (hx : AtEnd ds x.P D) {c : Nat}
    (hc : c ≤ D ∧ c ≠ 0 ∨ ds.prod ≤ D ∧ 2 ≤ ds.length) (tol : ℝ)
    (htol : tol < 0 ∨ 0 < tol) {tau : ℝ} (htau : max (effTol dflt tol) (max dflt eps) ≤ tau) (normalize : Bool) :
    let r := (applyAndSimplify svd eps dflt (obcCall svd eps dflt single tolerance) W x tol c normalize).1
    ∃ χ, AtEnd ds r.P D ∧ x.err ≤ r.err ∧ wnorm ds χ ≤ wnorm ds (amp x.P) ∧
      wdist ds χ (layerStep expm H ds dt (amp x.P) l) ≤ ((2 * ds.length : Nat) * Real.sqrt (tau * D) + (r.err - x.err)) * wnorm ds (amp x.P) ∧
      ((∀ s, IsCfg ds s → amp r.P s = χ s) ∨
        (normalize = true ∧ ∀ s, IsCfg ds s → amp r.P s = ((1 / wnorm ds χ : ℝ) : ℂ) * χ s)) := by
  intro r
  obtain ⟨a1, a2, a3⟩ := layer_either hg eps hd0 he hH hh hpos dt l hk hl hW x.P hx.1 hD hx.2 tol htol htau
  set φ := layerState svd eps dflt W x.P tol with hφ
  have hrP : r.P = if largestBond φ > c then (obcCall svd eps dflt single tolerance φ (-1) 12 normalize c).1 else φ := simplify_not _ _ _ _ _ _ _ _ _
  have hwx : WF 1 x.P ds 1 := hx.1.elim (·.wf) (·.wf)
  have hne : x.P ≠ [] := by intro h; have := hwx.length; rw [h] at this; simp at this; omega
  have n0 := Trotter.normSq_nonneg ds x.P
  have tau0 : 0 ≤ tau := ((hd0.le.trans (le_max_left dflt eps)).trans (le_max_right _ _)).trans htau
  have hnφ : wnorm ds (amp φ) ≤ wnorm ds (amp x.P) := Real.sqrt_le_sqrt a2
  have hw0 := wnorm_nonneg ds (amp x.P)
  have a3' : wdist ds (amp φ) (layerStep expm H ds dt (amp x.P) l) ≤ (2 * ds.length : Nat) * Real.sqrt (tau * D) * wnorm ds (amp x.P) := by
    refine a3.trans (le_of_eq ?_)
    rw [← mul_assoc tau, Real.sqrt_mul (by positivity), mul_assoc]
    rfl
  -- the error of the gates
  obtain ⟨W', e', hf, -⟩ := mkUnitary_fits he.dims hH l.1 hk (dt * l.2)
  rw [hW] at e'
  cases e'
  have ht : 0 < effTol dflt tol := by
    unfold effTol; rcases htol with h | h
    · rw [if_pos h]; exact hd0
    · rw [if_neg (by linarith)]; exact h
  obtain ⟨-, -, h3, -, -, -⟩ := sweep_amp hg eps hd0 hf ⟨x.P, 0, x.hidden⟩ hwx hne 1 tol ht 0
  have hy : apply svd eps dflt W ⟨x.P, 0, x.hidden⟩ 1 tol 0 false = (sweep svd eps dflt W ⟨x.P, 0, x.hidden⟩ 1 tol 0, -1) := by
    rw [show apply svd eps dflt W ⟨x.P, 0, x.hidden⟩ 1 tol 0 false = _ from apply_eq _ _ _ _ _ _ _ _ _]; simp
  have hre : r.err = x.err + ((sweep svd eps dflt W ⟨x.P, 0, x.hidden⟩ 1 tol 0).err +
      if largestBond φ > c then (obcCall svd eps dflt single tolerance φ (-1) 12 normalize c).2 else 0) := by
    show (applyAndSimplify svd eps dflt (obcCall svd eps dflt single tolerance) W x tol c normalize).1.err = _
    unfold applyAndSimplify
    dsimp only
    rw [layerState_eq, ← hφ, hy]
    by_cases hb : largestBond φ > c
    · rw [if_pos hb, if_pos hb]
    · rw [if_neg hb, if_neg hb, add_zero]
  set e := (sweep svd eps dflt W ⟨x.P, 0, x.hidden⟩ 1 tol 0).err with hee
  have h3 : 0 ≤ e := h3
  by_cases hb : largestBond φ > c
  · rw [if_pos hb] at hrP hre
    have hN : 2 ≤ ds.length := by
      rcases hc with hc | hc
      swap; · exact hc.2
      by_contra hcon
      have h1 : ds.length = 1 := by omega
      have hlen := a1.wf.length
      obtain ⟨A, hA, ea⟩ := (C68_largest_bond φ).2 (by intro hh; rw [hh] at hlen; simp at hlen; omega)
      obtain ⟨i, hi, rfl⟩ := List.getElem_of_mem hA
      obtain rfl : i = 0 := by omega
      obtain ⟨a, b, w1, w2, -⟩ := WF.around a1.wf (show 0 < ds.length by omega)
      rw [List.take_zero, List.take_zero] at w1
      cases w1
      have := dim0_of w2
      rw [show site φ 0 = φ[0] by simp [site, hi], ea] at this
      omega
    obtain ⟨out, o1, o2⟩ := C80_any_form hg eps hd0 single tolerance (w := [1]) (Q := [φ]) (by simp) (by simpa using a1.wf) a1.wf hpos (-1)
      (sweeps := 12) (by omega) normalize c (tol := -1) (by norm_num) (Or.inr hN)
    have ho : obcCall svd eps dflt single tolerance φ (-1) 12 normalize c = (out.P, out.err) := by
      unfold obcCall; rw [o1]
    rw [ho] at hrP hre
    simp only at hrP hre
    have herr := simplify_err_nonneg o1
    have hdist := o2.best.dist
    have herr2 := o2.err
    rw [superpose_one] at hdist herr2
    have hdp : 0 ≤ distTo ds (amp φ) out.P0 := sumCfg_nonneg _ _ fun _ _ => by positivity
    have nP0 := Trotter.normSq_nonneg ds out.P0
    have en : normSqOf ds (amp φ) = normSq ds φ := rfl
    have hχ : wnorm ds (amp out.P0) ≤ wnorm ds (amp φ) := Real.sqrt_le_sqrt (by
      show normSq ds out.P0 ≤ normSq ds φ
      rw [← en]; linarith)
    have hd1 : wdist ds (amp out.P0) (amp φ) ≤ out.err * wnorm ds (amp φ) := by
      rw [wdist_symm]
      show Real.sqrt (distTo ds (amp φ) out.P0) ≤ _
      by_cases hz : normSqOf ds (amp φ) = 0
      · rw [show distTo ds (amp φ) out.P0 = 0 by linarith, Real.sqrt_zero]
        exact mul_nonneg herr (wnorm_nonneg _ _)
      · rw [herr2 hz]
        refine le_of_eq ?_
        have hp : 0 < normSqOf ds (amp φ) := lt_of_le_of_ne (by rw [en]; exact Trotter.normSq_nonneg _ _) (Ne.symm hz)
        unfold relDist
        rw [Real.sqrt_div hdp]
        show _ = _ / _ * Real.sqrt (normSqOf ds (amp φ))
        rw [div_mul_cancel₀ _ (Real.sqrt_pos.2 hp).ne']
    have hend : Cent ds out.P 0 ∨ Cent ds out.P (ds.length - 1) := by
      obtain ⟨-, hd⟩ := o2.sense
      unfold Described at hd
      split at hd
      · exact Or.inl ⟨o2.wf.1, fun j hj => by omega, hd⟩
      · exact Or.inr ⟨o2.wf.1, fun j hj => hd j (by omega), fun j h1 h2 => by omega⟩
    refine ⟨amp out.P0, ⟨?_, ?_⟩, by linarith, hχ.trans hnφ, ?_, ?_⟩
    · rw [hrP]; exact hend
    · rw [hrP]
      intro j h1 h2
      rcases hc with hc | hc
      swap; · exact (atEnd_bond hend j h2).trans hc.1
      obtain ⟨m, rfl⟩ : ∃ m, j = m + 1 := ⟨j - 1, by omega⟩
      obtain ⟨a, c, b, k1, k2, k3, k4, -⟩ := WF.aroundPair o2.wf.1 h2
      have := o2.bonds (by omega) m h2
      rw [dim2_of k2] at this
      rw [dim0_of k3]; exact this.trans hc.1
    · have t := wdist_tri ds (amp out.P0) (amp φ) (layerStep expm H ds dt (amp x.P) l)
      have t2 := mul_le_mul_of_nonneg_left hnφ herr
      have t3 := mul_nonneg h3 hw0
      rw [hre]
      nlinarith
    · cases hn : normalize with
      | false => left; intro s _; rw [hrP, o2.keep hn]
      | true =>
        right
        refine ⟨rfl, fun s hs => ?_⟩
        rw [hrP, (o2.unit hn).1 s hs, o2.norm]
        rfl
  · rw [if_neg hb] at hrP hre
    refine ⟨amp φ, ⟨?_, ?_⟩, by linarith, hnφ, ?_, Or.inl fun s _ => by rw [hrP]⟩
    · rw [hrP]; exact Or.inl a1
    · rw [hrP]; 
      intro j h1 h2
      rcases hc with hc | hc
      · exact bonds_of_largest a1.wf (by omega) j h2
      · exact (atEnd_bond (Or.inl a1) j h2).trans hc.1
    · have t3 := mul_nonneg h3 hw0
      rw [hre]
      nlinarith

end MPS.Trotter
