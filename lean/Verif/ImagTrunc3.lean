import Verif.ImagTrunc2
import Verif.TrotterOrder7

/-! # Bounds of the gates and layers for short times -/

set_option linter.unusedSectionVars false
set_option linter.unusedSimpArgs false

namespace MPS.Trotter
open MPS Tensor Minim Order Props Matrix

theorem wnorm_op {ds : List Nat} {O : List Nat → List Nat → ℂ} {c : ℝ} (hc : 0 ≤ c) (h : ∀ s t, IsCfg ds s → IsCfg ds t → ‖O s t‖ ≤ c)
    (φ : List Nat → ℂ) : wnorm ds (actOp ds O φ) ≤ Real.sqrt (Fintype.card (Cfg ds)) * (Fintype.card (Cfg ds) * c) * wnorm ds φ := by
  refine (wnorm_le_vec ds _).trans ?_
  rw [mul_assoc]
  refine mul_le_mul_of_nonneg_left ?_ (Real.sqrt_nonneg _)
  have w0 := wnorm_nonneg ds φ
  refine (pi_norm_le_iff_of_nonneg (by positivity)).2 fun s => ?_
  rw [vec_actOp]
  simp only [Matrix.mulVec, dotProduct]
  refine (norm_sum_le _ _).trans ?_
  have : ∀ t ∈ Finset.univ, ‖opMat ds O s t * vec ds φ t‖ ≤ c * wnorm ds φ := by
    intro t _
    rw [norm_mul]
    exact mul_le_mul (h s.1 t.1 s.cfg t.cfg) ((norm_le_pi_norm _ t).trans (vec_le_wnorm ds φ)) (norm_nonneg _) hc
  refine (Finset.sum_le_card_nsmul _ _ _ this).trans (le_of_eq ?_)
  rw [nsmul_eq_mul, Finset.card_univ]; ring

open scoped Matrix.Norms.Operator in
theorem entry_le {n : Type} [Fintype n] [DecidableEq n] (A : Matrix n n ℂ) (i j : n) : ‖A i j‖ ≤ ‖A‖ := by
  have h := Matrix.linfty_opNorm_mulVec A (Pi.single j 1)
  have h1 : ‖(Pi.single j (1 : ℂ) : n → ℂ)‖ ≤ 1 := by
    refine (pi_norm_le_iff_of_nonneg zero_le_one).2 fun i => ?_
    by_cases h : i = j
    · subst h; simp
    · simp [Pi.single_apply, h]
  have h2 : (A *ᵥ Pi.single j 1) i = A i j := by simp
  rw [← h2]
  refine (norm_le_pi_norm _ i).trans (h.trans ?_)
  exact mul_le_of_le_one_right (norm_nonneg _) h1

open scoped Matrix.Norms.Operator in
theorem exp_entry {n : Nat} {G : Tensor ℂ} (hG : G.dims = [n, n]) {x y : Nat} (hx : x < n) (hy : y < n) {z : ℂ} {r : ℝ} (hz : ‖z‖ ≤ r) :
    ‖(matrixExp (smul z G)).get [x, y]‖ ≤ Real.exp (r * ‖tmat n G‖) := by
  rw [matrixExp_get (A := smul z G) (by simpa [Tensor.smul] using hG) hx hy, tmat_smul]
  refine (entry_le _ _ _).trans ((norm_exp_smul_le _ z).trans (Real.exp_le_exp.2 ?_))
  exact mul_le_mul_of_nonneg_right hz (norm_nonneg _)

theorem prod_ite_le (L : Nat) (p : Nat → Prop) [DecidablePred p] : ‖∏ j ∈ Finset.range L, (if p j then (0 : ℂ) else 1)‖ ≤ 1 := by
  rw [norm_prod]
  refine Finset.prod_le_one (fun _ _ => norm_nonneg _) fun j _ => ?_
  split <;> simp

theorem wnorm_zero_iff (ds : List Nat) (φ : List Nat → ℂ) : wnorm ds φ = 0 ↔ ∀ s, IsCfg ds s → φ s = 0 := by
  rw [wnorm_euclid, norm_eq_zero]
  constructor
  · intro h s hs
    have := congrArg (fun v => v ⟨s, mem_cfgs.2 hs⟩) h
    exact this
  · intro h
    ext s
    exact h s.1 s.cfg

open scoped Matrix.Norms.Operator in
theorem exp_inj {n : Nat} {G : Tensor ℂ} (hG : G.dims = [n, n]) (z : ℂ) {v : Nat → ℂ}
    (h : ∀ x, x < n → ∑ u ∈ Finset.range n, (matrixExp (smul z G)).get [x, u] * v u = 0) {u : Nat} (hu : u < n) : v u = 0 := by
  have hm : NormedSpace.exp (z • tmat n G) *ᵥ (fun i : Fin n => v i) = 0 := by
    funext x
    have := h x.1 x.2
    rw [Finset.sum_range] at this
    simp only [Matrix.mulVec, dotProduct, Pi.zero_apply]
    rw [← this]
    refine Finset.sum_congr rfl fun u _ => ?_
    rw [matrixExp_get (A := smul z G) (by simpa [Tensor.smul] using hG) x.2 u.2, tmat_smul]
  have e := exp_inv (-tmat n G) z
  rw [neg_neg] at e
  have : (fun i : Fin n => v i) = 0 := by
    rw [← Matrix.one_mulVec (fun i : Fin n => v i), ← e, ← Matrix.mulVec_mulVec]
    exact (congrArg _ hm).trans (Matrix.mulVec_zero _)
  exact congrFun this ⟨u, hu⟩

theorem actSite_inj {ds : List Nat} {p : Nat} (hp : p < ds.length) {G : Tensor ℂ} (hG : G.dims = [ds.getD p 0, ds.getD p 0]) (z : ℂ)
    {φ : List Nat → ℂ} (h : wnorm ds φ ≠ 0) : wnorm ds (actSite (ds.getD p 0) (matrixExp (smul z G)) p φ) ≠ 0 := by
  refine fun h0 => h ((wnorm_zero_iff ds φ).2 fun s hs => ?_)
  rw [wnorm_zero_iff] at h0
  have hl : s.length = ds.length := hs.length
  have key := exp_inj hG z (v := fun t => φ (s.set p t)) (fun x hx => by
    have := h0 (s.set p x) (Order.isCfg_set hs hx)
    unfold actSite at this
    rw [show (s.set p x).getD p 0 = x from by rw [List.getD_eq_getElem _ _ (by simp; omega)]; simp] at this
    simpa only [List.set_set] using this) (Order.isCfg_getD hs hp)
  beta_reduce at key
  rw [List.getD_eq_getElem _ _ (by omega), List.set_getElem_self] at key
  exact key

theorem actPair_inj {ds : List Nat} {p : Nat} (hp : p + 1 < ds.length) {G : Tensor ℂ}
    (hG : G.dims = [ds.getD p 0 * ds.getD (p + 1) 0, ds.getD p 0 * ds.getD (p + 1) 0]) (z : ℂ)
    {φ : List Nat → ℂ} (h : wnorm ds φ ≠ 0) : wnorm ds (actPair (ds.getD p 0) (ds.getD (p + 1) 0) (matrixExp (smul z G)) p φ) ≠ 0 := by
  refine fun h0 => h ((wnorm_zero_iff ds φ).2 fun s hs => ?_)
  rw [wnorm_zero_iff] at h0
  have hl : s.length = ds.length := hs.length
  have c1 := Order.isCfg_getD hs (show p < ds.length by omega)
  have c2 := Order.isCfg_getD hs hp
  set d := ds.getD p 0 with hd
  set e := ds.getD (p + 1) 0 with he
  have hdm : ∀ i, i < d → ∀ j, (i + d * j) % d = i ∧ (i + d * j) / d = j := by
    intro i hi j
    rw [Nat.add_mul_mod_self_left, Nat.mod_eq_of_lt hi, Nat.add_mul_div_left _ _ (by omega), Nat.div_eq_of_lt hi]
    simp
  have key := exp_inj hG z (v := fun m => φ ((s.set p (m % d)).set (p + 1) (m / d))) (fun x hx => by
    have hd0 : 0 < d := by omega
    have x1 : x % d < d := Nat.mod_lt _ hd0
    have x2 : x / d < e := Nat.div_lt_of_lt_mul hx
    have := h0 ((s.set p (x % d)).set (p + 1) (x / d)) (Order.isCfg_set (Order.isCfg_set hs (hd ▸ x1)) (he ▸ x2))
    unfold actPair at this
    rw [show ((s.set p (x % d)).set (p + 1) (x / d)).getD p 0 = x % d from by
        rw [List.getD_eq_getElem _ _ (by simp; omega)]; simp [List.getElem_set],
      show ((s.set p (x % d)).set (p + 1) (x / d)).getD (p + 1) 0 = x / d from by
        rw [List.getD_eq_getElem _ _ (by simp; omega)]; simp, Nat.mod_add_div] at this
    rw [sum_range_mul, Finset.sum_comm]
    refine Eq.trans ?_ this
    refine Finset.sum_congr rfl fun i hi => Finset.sum_congr rfl fun j _ => ?_
    obtain ⟨e1, e2⟩ := hdm i (Finset.mem_range.1 hi) j
    have e3 : (((s.set p (x % d)).set (p + 1) (x / d)).set p i).set (p + 1) j = (s.set p i).set (p + 1) j := by
      rw [List.set_comm (x / d) i (show p + 1 ≠ p by omega), List.set_set, List.set_set]
    rw [e1, e2, e3])
    (u := s.getD p 0 + d * s.getD (p + 1) 0) (by nlinarith)
  beta_reduce at key
  obtain ⟨e1, e2⟩ := hdm _ c1 (s.getD (p + 1) 0)
  rw [e1, e2, List.getD_eq_getElem s 0 (show p < s.length by omega), List.set_getElem_self,
    List.getD_eq_getElem s 0 (show p + 1 < s.length by omega), List.set_getElem_self] at key
  exact key

/-- all gates of both layers, for all times up to `r` -/
theorem gates_bound {H : Ham ℂ} {ds : List Nat} (hH : HamFits H ds) (r : ℝ) : ∃ g : ℝ, 1 ≤ g ∧ ∀ k, k ≤ 1 → ∀ z : ℂ, ‖z‖ ≤ r →
    GatesBound ds k (fun p => matrixExp (smul z (layerGen H k p))) g := by
  classical
  open scoped Matrix.Norms.Operator in
  let b1 : Nat → Nat → ℝ := fun k p => Real.exp (r * ‖tmat (ds.getD p 0) (layerGen H k p)‖)
  open scoped Matrix.Norms.Operator in
  let b2 : Nat → Nat → ℝ := fun k p => Real.exp (r * ‖tmat (ds.getD p 0 * ds.getD (p + 1) 0) (layerGen H k p)‖)
  let c : ℝ := ∑ k ∈ Finset.range 2, ∑ p ∈ Finset.range ds.length, (b1 k p + b2 k p)
  have p1 : ∀ k p, 0 ≤ b1 k p := fun k p => (Real.exp_pos _).le
  have p2 : ∀ k p, 0 ≤ b2 k p := fun k p => (Real.exp_pos _).le
  have hle : ∀ k p, k ≤ 1 → p < ds.length → b1 k p + b2 k p ≤ c := by
    intro k p hk hp
    refine le_trans ?_ (Finset.single_le_sum (f := fun k => ∑ p ∈ Finset.range ds.length, (b1 k p + b2 k p))
      (fun k _ => Finset.sum_nonneg fun p _ => add_nonneg (p1 k p) (p2 k p)) (Finset.mem_range.2 (show k < 2 by omega)))
    exact Finset.single_le_sum (f := fun p => b1 k p + b2 k p) (fun p _ => add_nonneg (p1 k p) (p2 k p)) (Finset.mem_range.2 hp)
  have c0 : 0 ≤ c := Finset.sum_nonneg fun k _ => Finset.sum_nonneg fun p _ => add_nonneg (p1 k p) (p2 k p)
  refine ⟨max 1 (Real.sqrt (Fintype.card (Cfg ds)) * (Fintype.card (Cfg ds) * c)), le_max_left _ _, fun k hk z hz => ⟨fun p hp φ => ?_, fun p hp φ => ?_⟩⟩
  · refine ⟨?_, actPair_inj hp.2 ((layerGen_dims hH k).1 p hp) z⟩
    refine le_trans ?_ (mul_le_mul_of_nonneg_right (le_max_right _ _) (wnorm_nonneg ds φ))
    have e : wnorm ds (actPair (ds.getD p 0) (ds.getD (p + 1) 0) (matrixExp (smul z (layerGen H k p))) p φ)
        = wnorm ds (actOp ds (embed2 ds.length (ds.getD p 0) p (matrixExp (smul z (layerGen H k p)))) φ) :=
      wnorm_congr (funext fun s => (actOp_embed2 hp.2 _ φ s.cfg).symm)
    rw [e]
    refine wnorm_op c0 (fun s t hs ht => ?_) φ
    have s1 := Order.isCfg_getD hs (show p < ds.length by have := hp.2; omega)
    have s2 := Order.isCfg_getD hs hp.2
    have t1 := Order.isCfg_getD ht (show p < ds.length by have := hp.2; omega)
    have t2 := Order.isCfg_getD ht hp.2
    unfold embed2
    rw [norm_mul]
    refine (mul_le_of_le_one_right (norm_nonneg _) (prod_ite_le _ _)).trans ?_
    refine (exp_entry ((layerGen_dims hH k).1 p hp) ?_ ?_ hz).trans ?_
    · nlinarith
    · nlinarith
    · exact le_trans (le_add_of_nonneg_left (p1 k p)) (hle k p hk (by have := hp.2; omega))
  · refine ⟨?_, actSite_inj hp.1 ((layerGen_dims hH k).2 p hp) z⟩
    refine le_trans ?_ (mul_le_mul_of_nonneg_right (le_max_right _ _) (wnorm_nonneg ds φ))
    have e : wnorm ds (actSite (ds.getD p 0) (matrixExp (smul z (layerGen H k p))) p φ)
        = wnorm ds (actOp ds (embed1 ds.length p (matrixExp (smul z (layerGen H k p)))) φ) :=
      wnorm_congr (funext fun s => (actOp_embed1 hp.1 _ φ s.cfg).symm)
    rw [e]
    refine wnorm_op c0 (fun s t hs ht => ?_) φ
    unfold embed1
    rw [norm_mul]
    refine (mul_le_of_le_one_right (norm_nonneg _) (prod_ite_le _ _)).trans ?_
    refine (exp_entry ((layerGen_dims hH k).2 p hp) (Order.isCfg_getD hs hp.1) (Order.isCfg_getD ht hp.1) hz).trans ?_
    exact le_trans (le_add_of_nonneg_right (p2 k p)) (hle k p hk hp.1)

theorem norm_rotated (w : ℂ) : ‖(⟨-|w.im|, -w.re⟩ : ℂ)‖ = ‖w‖ := by
  rw [Complex.norm_def, Complex.norm_def]
  congr 1
  simp [Complex.normSq_apply, abs_mul_abs_self]
  ring

open scoped Matrix.Norms.Operator in
/-- a layer, for all times up to `r` -/
theorem layer_bound {H : Ham ℂ} {ds : List Nat} (hH : HamFits H ds) (r : ℝ) : ∃ g : ℝ, 1 ≤ g ∧ ∀ (dt : ℂ) (l : Nat × ℂ), l.1 ≤ 1 → ‖dt * l.2‖ ≤ r →
    ∀ φ, wnorm ds (layerStep matrixExp H ds dt φ l) ≤ g * wnorm ds φ := by
  let c : ℝ := Real.exp (r * ‖genMat H ds 0‖) + Real.exp (r * ‖genMat H ds 1‖)
  have c0 : 0 ≤ c := by positivity
  refine ⟨max 1 (Real.sqrt (Fintype.card (Cfg ds)) * c), le_max_left _ _, fun dt l hl hz φ => ?_⟩
  refine le_trans ?_ (mul_le_mul_of_nonneg_right (le_max_right _ _) (wnorm_nonneg ds φ))
  refine (wnorm_le_vec ds _).trans ?_
  rw [mul_assoc]
  refine mul_le_mul_of_nonneg_left ?_ (Real.sqrt_nonneg _)
  rw [layerStep_vec hH dt l _ rfl φ]
  refine (Matrix.linfty_opNorm_mulVec _ _).trans (mul_le_mul ?_ (vec_le_wnorm ds φ) (norm_nonneg _) c0)
  refine (norm_exp_smul_le _ _).trans ?_
  rw [norm_rotated]
  refine (Real.exp_le_exp.2 (mul_le_mul_of_nonneg_right hz (norm_nonneg _))).trans ?_
  obtain h | h : l.1 = 0 ∨ l.1 = 1 := by omega
  · rw [h]; exact le_add_of_nonneg_right (Real.exp_pos _).le
  · rw [h]; exact le_add_of_nonneg_left (Real.exp_pos _).le

end MPS.Trotter
