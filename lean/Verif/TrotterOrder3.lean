import Verif.TrotterOrder2

/-!
# A layer of gates is the exponential of the sum of its generators
-/

set_option linter.unusedSectionVars false
set_option linter.unusedSimpArgs false

namespace MPS.Order
open MPS Tensor Trotter
open scoped Matrix.Norms.Operator

/-- the first `n × n` entries of a tensor, as a matrix -/
def tmat (n : Nat) (A : Tensor ℂ) : Matrix (Fin n) (Fin n) ℂ := Matrix.of fun i j => A.get [i.1, j.1]

theorem matrixExp_get {n : Nat} {A : Tensor ℂ} (hA : A.dims = [n, n]) {x y : Nat} (hx : x < n) (hy : y < n) :
    (matrixExp A).get [x, y] = NormedSpace.exp (tmat n A) ⟨x, hx⟩ ⟨y, hy⟩ := by
  have hn : A.dim 0 = n := by simp [dim, hA, nrm]
  subst hn
  simp [matrixExp, hx, hy, tmat]

theorem tmat_smul (n : Nat) (z : ℂ) (A : Tensor ℂ) : tmat n (smul z A) = z • tmat n A := by
  ext i j; simp [tmat, smul]

theorem matrixExp_deriv {n : Nat} {G : Tensor ℂ} (hG : G.dims = [n, n]) {x y : Nat} (hx : x < n) (hy : y < n) (z : ℂ) :
    HasDerivAt (fun z => (matrixExp (smul z G)).get [x, y])
      (∑ u ∈ Finset.range n, G.get [x, u] * (matrixExp (smul z G)).get [u, y]) z := by
  have e : ∀ (z : ℂ) {x y : Nat} (hx : x < n) (hy : y < n), (matrixExp (smul z G)).get [x, y] =
      NormedSpace.exp (z • tmat n G) ⟨x, hx⟩ ⟨y, hy⟩ := by
    intro z x y hx hy
    rw [matrixExp_get (A := smul z G) hG hx hy, tmat_smul]
  simp only [e _ hx hy]
  refine (entry_hasDerivAt (hasDerivAt_exp_smul_const' (𝕂 := ℂ) (tmat n G) z) ⟨x, hx⟩ ⟨y, hy⟩).congr_deriv ?_
  rw [Matrix.mul_apply, Finset.sum_range]
  refine Finset.sum_congr rfl fun u _ => ?_
  rw [e z u.2 hy]
  rfl

theorem matrixExp_zero {n : Nat} {G : Tensor ℂ} (hG : G.dims = [n, n]) {x y : Nat} (hx : x < n) (hy : y < n) :
    (matrixExp (smul 0 G)).get [x, y] = if x = y then 1 else 0 := by
  rw [matrixExp_get (A := smul 0 G) hG hx hy, tmat_smul, zero_smul, NormedSpace.exp_zero, Matrix.one_apply]
  simp

/-- the factor of `layerElt` of the gate at `p` -/
def fac (ds : List Nat) (k : Nat) (U : Nat → Tensor ℂ) (s t : List Nat) (p : Nat) : ℂ :=
  if PairAt ds.length k p then (U p).get [s.getD p 0 + ds.getD p 0 * s.getD (p + 1) 0, t.getD p 0 + ds.getD p 0 * t.getD (p + 1) 0]
  else if Single ds.length k p then (U p).get [s.getD p 0, t.getD p 0] else 1

theorem layerElt_fac (ds : List Nat) (k : Nat) (U : Nat → Tensor ℂ) (s t : List Nat) :
    layerElt ds k U s t = ∏ p ∈ Finset.range ds.length, fac ds k U s t p := by
  unfold layerElt
  rw [Finset.prod_filter, Finset.prod_filter, ← Finset.prod_mul_distrib]
  refine Finset.prod_congr rfl fun p _ => ?_
  unfold fac
  by_cases h : PairAt ds.length k p
  · have : ¬ Single ds.length k p := fun hs => hs.2.1 h
    simp [h, this]
  · by_cases h2 : Single ds.length k p <;> simp [h, h2]

theorem fac_site {ds : List Nat} {k : Nat} {U : Nat → Tensor ℂ} {s t : List Nat} {p q i : Nat} (hp : Single ds.length k p) (hq : q ≠ p) :
    fac ds k U (s.set p i) t q = fac ds k U s t q := by
  unfold fac
  rw [getD_set_ne (Ne.symm hq)]
  by_cases h : PairAt ds.length k q
  · have h1 : p ≠ q + 1 := by
      rintro rfl
      rcases hp.2.2 with h' | h'
      · omega
      · exact h' h
    rw [getD_set_ne h1]
  · simp only [h, if_false]

theorem fac_pair {ds : List Nat} {k : Nat} {U : Nat → Tensor ℂ} {s t : List Nat} {p q i j : Nat} (hp : PairAt ds.length k p) (hq : q ≠ p) :
    fac ds k U ((s.set p i).set (p + 1) j) t q = fac ds k U s t q := by
  unfold fac
  have h0 := hp.1
  by_cases h : PairAt ds.length k q
  · have h1 := h.1
    simp only [h, if_true]
    rw [getD_set_ne (by omega), getD_set_ne (by omega), getD_set_ne (by omega), getD_set_ne (by omega)]
  · by_cases h2 : Single ds.length k q
    · have h1 : p + 1 ≠ q := by
        rintro rfl
        rcases h2.2.2 with h' | h'
        · omega
        · exact h' hp
      simp only [h, h2, if_false, if_true]
      rw [getD_set_ne h1, getD_set_ne (Ne.symm hq)]
    · simp only [h, h2, if_false]

/-- sizes of the gates (or of their generators) of a layer -/
structure LayerDims (ds : List Nat) (k : Nat) (G : Nat → Tensor ℂ) : Prop where
  pair : ∀ p, PairAt ds.length k p → (G p).dims = [ds.getD p 0 * ds.getD (p + 1) 0, ds.getD p 0 * ds.getD (p + 1) 0]
  single : ∀ p, Single ds.length k p → (G p).dims = [ds.getD p 0, ds.getD p 0]

/-- the sum of the generators -/
noncomputable def genElt (ds : List Nat) (k : Nat) (G : Nat → Tensor ℂ) (s t : List Nat) : ℂ :=
  ∑ p ∈ (Finset.range ds.length).filter (PairAt ds.length k), embed2 ds.length (ds.getD p 0) p (G p) s t
    + ∑ p ∈ (Finset.range ds.length).filter (Single ds.length k), embed1 ds.length p (G p) s t

/-- derivative of a factor -/
noncomputable def dfac (ds : List Nat) (k : Nat) (G U : Nat → Tensor ℂ) (s t : List Nat) (p : Nat) : ℂ :=
  if PairAt ds.length k p then ∑ i ∈ Finset.range (ds.getD p 0), ∑ j ∈ Finset.range (ds.getD (p + 1) 0),
      (G p).get [s.getD p 0 + ds.getD p 0 * s.getD (p + 1) 0, i + ds.getD p 0 * j] *
      (U p).get [i + ds.getD p 0 * j, t.getD p 0 + ds.getD p 0 * t.getD (p + 1) 0]
  else if Single ds.length k p then ∑ i ∈ Finset.range (ds.getD p 0), (G p).get [s.getD p 0, i] * (U p).get [i, t.getD p 0] else 0

theorem fac_deriv {ds : List Nat} {k : Nat} {G : Nat → Tensor ℂ} (hG : LayerDims ds k G) {s t : List Nat} (hs : IsCfg ds s) (ht : IsCfg ds t)
    (p : Nat) (z : ℂ) :
    HasDerivAt (fun z => fac ds k (fun p => matrixExp (smul z (G p))) s t p)
      (dfac ds k G (fun p => matrixExp (smul z (G p))) s t p) z := by
  unfold fac dfac
  by_cases h : PairAt ds.length k p
  · have hp := h.2
    simp only [h, if_true]
    refine (matrixExp_deriv (hG.pair p h) (add_mul_lt (isCfg_getD hs (by omega)) (isCfg_getD hs hp))
      (add_mul_lt (isCfg_getD ht (by omega)) (isCfg_getD ht hp)) z).congr_deriv ?_
    rw [sum_range_mul, Finset.sum_comm]
  · by_cases h2 : Single ds.length k p
    · have hp := h2.1
      simp only [h, h2, if_true, if_false]
      exact matrixExp_deriv (hG.single p h2) (isCfg_getD hs hp) (isCfg_getD ht hp) z
    · simp only [h, h2, if_false]
      exact hasDerivAt_const _ _

theorem actOp_gen {ds : List Nat} {k : Nat} (G : Nat → Tensor ℂ) (f : List Nat → ℂ) {s : List Nat} (hs : IsCfg ds s) :
    actOp ds (genElt ds k G) f s = ∑ p ∈ Finset.range ds.length,
      if PairAt ds.length k p then actPair (ds.getD p 0) (ds.getD (p + 1) 0) (G p) p f s
      else if Single ds.length k p then actSite (ds.getD p 0) (G p) p f s else 0 := by
  have e : actOp ds (genElt ds k G) f s =
      ∑ p ∈ (Finset.range ds.length).filter (PairAt ds.length k), actOp ds (embed2 ds.length (ds.getD p 0) p (G p)) f s
        + ∑ p ∈ (Finset.range ds.length).filter (Single ds.length k), actOp ds (embed1 ds.length p (G p)) f s := by
    unfold actOp genElt
    rw [← sumCfg_sum, ← sumCfg_sum, ← sumCfg_add]
    refine sumCfg_congr fun t _ => ?_
    rw [add_mul, Finset.sum_mul, Finset.sum_mul]
  rw [e, Finset.sum_filter, Finset.sum_filter, ← Finset.sum_add_distrib]
  refine Finset.sum_congr rfl fun p hp => ?_
  by_cases h : PairAt ds.length k p
  · have : ¬ Single ds.length k p := fun hs => hs.2.1 h
    simp only [h, this, if_true, if_false, add_zero]
    exact actOp_embed2 h.2 _ _ hs
  · by_cases h2 : Single ds.length k p
    · simp only [h, h2, if_true, if_false, zero_add]
      exact actOp_embed1 h2.1 _ _ hs
    · simp only [h, h2, if_false, zero_add]

theorem layer_deriv {ds : List Nat} {k : Nat} {G : Nat → Tensor ℂ} (hG : LayerDims ds k G) (z : ℂ) :
    HasDerivAt (fun z => opMat ds (layerElt ds k fun p => matrixExp (smul z (G p))))
      (opMat ds (genElt ds k G) * opMat ds (layerElt ds k fun p => matrixExp (smul z (G p)))) z := by
  refine hasDerivAt_matrix fun s t => ?_
  have hs := s.cfg
  have ht := t.cfg
  have hl := hs.length
  have e1 : (opMat ds (genElt ds k G) * opMat ds (layerElt ds k fun p => matrixExp (smul z (G p)))) s t =
      actOp ds (genElt ds k G) (fun r => layerElt ds k (fun p => matrixExp (smul z (G p))) r t.1) s.1 := by
    rw [Matrix.mul_apply, actOp, sumCfg_cfg]; rfl
  rw [e1, actOp_gen _ _ hs]
  have e2 : (fun z => opMat ds (layerElt ds k fun p => matrixExp (smul z (G p))) s t) =
      fun z => ∏ p ∈ Finset.range ds.length, fac ds k (fun p => matrixExp (smul z (G p))) s.1 t.1 p := by
    funext z; exact layerElt_fac _ _ _ _ _
  rw [e2]
  refine (HasDerivAt.fun_finsetProd fun p _ => fac_deriv hG hs ht p z).congr_deriv ?_
  refine Finset.sum_congr rfl fun p hp => ?_
  have hL := Finset.mem_range.1 hp
  rw [smul_eq_mul]
  generalize hU : (fun p => matrixExp (smul z (G p))) = U
  by_cases h : PairAt ds.length k p
  · have hp1 := h.2
    simp only [h, if_true, dfac, actPair, Finset.mul_sum]
    refine Finset.sum_congr rfl fun i _ => Finset.sum_congr rfl fun j _ => ?_
    rw [layerElt_fac, ← Finset.mul_prod_erase _ _ hp]
    have f1 : fac ds k U ((s.1.set p i).set (p + 1) j) t.1 p =
        (U p).get [i + ds.getD p 0 * j, t.1.getD p 0 + ds.getD p 0 * t.1.getD (p + 1) 0] := by
      simp only [fac, h, if_true]
      rw [getD_set_ne (by omega), getD_set_eq (by omega), getD_set_eq (by simp; omega)]
    rw [f1, Finset.prod_congr rfl fun q hq => fac_pair h (Finset.ne_of_mem_erase hq)]
    ring
  · by_cases h2 : Single ds.length k p
    · simp only [h, h2, if_true, if_false, dfac, actSite, Finset.mul_sum]
      refine Finset.sum_congr rfl fun i _ => ?_
      rw [layerElt_fac, ← Finset.mul_prod_erase _ _ hp]
      have f1 : fac ds k U (s.1.set p i) t.1 p = (U p).get [i, t.1.getD p 0] := by
        simp only [fac, h, h2, if_true, if_false]
        rw [getD_set_eq (by omega)]
      rw [f1, Finset.prod_congr rfl fun q hq => fac_site h2 (Finset.ne_of_mem_erase hq)]
      ring
    · simp only [h, h2, if_false, dfac, mul_zero]

theorem layer_zero {ds : List Nat} {k : Nat} {G : Nat → Tensor ℂ} (hG : LayerDims ds k G) :
    opMat ds (layerElt ds k fun p => matrixExp (smul 0 (G p))) = 1 := by
  ext s t
  have hs := s.cfg
  have ht := t.cfg
  rw [Matrix.one_apply]
  change layerElt ds k _ s.1 t.1 = _
  rw [layerElt_fac]
  have hf : ∀ p, fac ds k (fun p => matrixExp (smul 0 (G p))) s.1 t.1 p =
      if PairAt ds.length k p then (if s.1.getD p 0 = t.1.getD p 0 ∧ s.1.getD (p + 1) 0 = t.1.getD (p + 1) 0 then 1 else 0)
      else if Single ds.length k p then (if s.1.getD p 0 = t.1.getD p 0 then 1 else 0) else 1 := by
    intro p
    unfold fac
    by_cases h : PairAt ds.length k p
    · have hp := h.2
      have a1 := isCfg_getD hs (show p < ds.length by omega)
      have a2 := isCfg_getD ht (show p < ds.length by omega)
      simp only [h, if_true]
      rw [matrixExp_zero (hG.pair p h) (add_mul_lt a1 (isCfg_getD hs hp)) (add_mul_lt a2 (isCfg_getD ht hp))]
      congr 1
      apply propext
      constructor
      · intro e
        have e1 := congrArg (· % ds.getD p 0) e
        simp only [Nat.add_mul_mod_self_left, Nat.mod_eq_of_lt a1, Nat.mod_eq_of_lt a2] at e1
        refine ⟨e1, ?_⟩
        rw [e1] at e
        exact Nat.eq_of_mul_eq_mul_left (by omega) (Nat.add_left_cancel e)
      · rintro ⟨e1, e2⟩; rw [e1, e2]
    · by_cases h2 : Single ds.length k p
      · simp only [h, h2, if_true, if_false]
        rw [matrixExp_zero (hG.single p h2) (isCfg_getD hs h2.1) (isCfg_getD ht h2.1)]
      · simp only [h, h2, if_false]
  split
  · rename_i e
    subst e
    refine Finset.prod_eq_one fun p _ => ?_
    rw [hf]; simp
  · rename_i e
    have hx : ∃ j, j < ds.length ∧ s.1.getD j 0 ≠ t.1.getD j 0 := by
      by_contra hc
      push Not at hc
      exact e (Subtype.ext (Props.getD_ext (by rw [hs.length, ht.length]) fun j hj => hc j (by rw [← hs.length]; exact hj)))
    obtain ⟨j, hj, hne⟩ := hx
    by_cases h : PairAt ds.length k j
    · exact Finset.prod_eq_zero (Finset.mem_range.2 hj) (by rw [hf]; simp only [h, if_true, hne, false_and, if_false])
    · by_cases h2 : Single ds.length k j
      · exact Finset.prod_eq_zero (Finset.mem_range.2 hj) (by rw [hf]; simp only [h, h2, if_true, hne, if_false])
      · have h3 : j ≠ 0 ∧ PairAt ds.length k (j - 1) := by
          unfold Single at h2; by_contra hc; exact h2 ⟨hj, h, by tauto⟩
        refine Finset.prod_eq_zero (i := j - 1) (Finset.mem_range.2 (by omega)) ?_
        rw [hf, show j - 1 + 1 = j by omega]
        simp only [h3.2, if_true, hne, and_false, if_false]

/-- a layer of gates `exp(z G_p)` is `exp(z ∑ G_p)` -/
theorem layer_exp {ds : List Nat} {k : Nat} {G : Nat → Tensor ℂ} (hG : LayerDims ds k G) (z : ℂ) :
    opMat ds (layerElt ds k fun p => matrixExp (smul z (G p))) = NormedSpace.exp (z • opMat ds (genElt ds k G)) :=
  ode_exp (F := fun z => opMat ds (layerElt ds k fun p => matrixExp (smul z (G p)))) (fun z => layer_deriv hG z) (layer_zero hG) z

end MPS.Order
