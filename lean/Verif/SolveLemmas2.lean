import Verif.SolveLemmas

/-!
# One local problem of `solve`
-/

set_option linter.unusedSectionVars false
set_option linter.unusedSimpArgs false

namespace MPS.Solve
open MPS Tensor Form Minim Obc
variable {K : Type} [RCLike K]

theorem unflat1 {n m : Nat} (h : m < n) : unflat [n] m = [m] := by simp [unflat, Nat.mod_eq_of_lt h]

theorem lin1 {v : Tensor K} {n m : Nat} (hv : v.dims = [n]) (h : m < n) : v.lin m = v.get [m] := by
  unfold Tensor.lin; rw [hv, unflat1 h]

theorem lin_flat {X : Tensor K} {d I : List Nat} (hX : X.dims = d) (hI : IsCfg d I) : X.lin (flat d I) = X.get I := by
  unfold Tensor.lin; rw [hX, unflat_flat hI]

theorem flatten_get {X : Tensor K} {d : List Nat} (hX : X.dims = d) {I : List Nat} (hI : IsCfg d I) : (flatten X).get [flat d I] = X.get I := by
  unfold flatten
  apply reshape_get
  · rw [hX]; exact hI
  · rw [hX]; simp [flat]

theorem flatten_dims {X : Tensor K} {d : List Nat} (hX : X.dims = d) : (flatten X).dims = [d.prod] := by
  unfold flatten; simp [reshape, Tensor.size, hX]

theorem unflatten_get {v : Tensor K} {d : List Nat} (hv : v.dims = [d.prod]) {I : List Nat} (hI : IsCfg d I) :
    (reshape v d).get I = v.get [flat d I] := by
  apply reshape_get
  · rw [hv]; exact .cons (flat_lt hI) .nil
  · rw [hv]; simp [flat]

theorem mmult_vec {A v : Tensor K} {m n : Nat} (hA : A.dims = [m, n]) (hv : v.dims = [n]) :
    (mmult A v).dims = [m] ∧ ∀ i, (mmult A v).get [i] = ∑ j ∈ Finset.range n, A.get [i, j] * v.get [j] := by
  unfold mmult fold
  refine ⟨by simp [hA, hv, nrm], fun i => ?_⟩
  simp [hA, hv, nrm]

/-- `H` applied to a wave function -/
noncomputable abbrev act (ds : List Nat) (H : List (Tensor K)) (e : List Nat → K) : List Nat → K := actOp ds (opElt H) e

/-- the tensors of one or two sites, of dimensions `d`, parametrise the states `E Y`: `M` is the matrix of `⟨E Y|H†H|E Z⟩`, and `X`
the vector of `⟨g|E Y⟩` -/
structure Local (ds d : List Nat) (H : List (Tensor K)) (g : List Nat → K) (E : (List Nat → K) → List Nat → K) (M X : Tensor K) : Prop where
  pos : ∀ x ∈ d, 0 < x
  Mdims : M.dims = [d.prod, d.prod]
  Xdims : X.dims = d
  form : ∀ Y Z, matForm M d d Y Z = MPS.inner ds (act ds H (E Y)) (act ds H (E Z))
  lin : ∀ Y, MPS.inner ds g (E Y) = sumCfg d fun I => star (X.get I) * Y I

theorem Local.ne {ds d : List Nat} {H : List (Tensor K)} {g : List Nat → K} {E : (List Nat → K) → List Nat → K} {M X : Tensor K}
    (h : Local ds d H g E M X) : M.isEmpty = false := by
  simp only [Tensor.isEmpty, Tensor.size, h.Mdims]
  have : 0 < d.prod := List.prod_pos fun x hx => h.pos x hx
  have := Nat.mul_pos this this
  rw [show [d.prod, d.prod].prod = d.prod * d.prod by simp]
  exact beq_false_of_ne (by omega)

/-- `‖H e - q‖²` of a wave function -/
noncomputable def resOf (ds : List Nat) (H : List (Tensor K)) (q e : List Nat → K) : ℝ := sumCfg ds fun s => ‖act ds H e s - q s‖ ^ 2

theorem residual_eq (ds : List Nat) (H : List (Tensor K)) (q : List Nat → K) (P : List (Tensor K)) : residual ds H q P = resOf ds H q (amp P) := rfl

theorem act_congr {ds : List Nat} {H : List (Tensor K)} {e e' : List Nat → K} (h : ∀ s, IsCfg ds s → e s = e' s) (s : List Nat) :
    act ds H e s = act ds H e' s := by
  unfold act actOp
  exact sumCfg_congr fun t ht => by rw [h t ht]

theorem resOf_congr {ds : List Nat} {H : List (Tensor K)} {q e e' : List Nat → K} (h : ∀ s, IsCfg ds s → e s = e' s) :
    resOf ds H q e = resOf ds H q e' := by
  unfold resOf
  exact sumCfg_congr fun s _ => by rw [act_congr h]

theorem inner_self_re (ds : List Nat) (e : List Nat → K) : RCLike.re (MPS.inner ds e e) = sumCfg ds fun s => ‖e s‖ ^ 2 := by
  rw [inner_self_ofReal, RCLike.ofReal_re]

theorem resOf_expand (ds : List Nat) (H : List (Tensor K)) (q e : List Nat → K) :
    resOf ds H q e = RCLike.re (MPS.inner ds (act ds H e) (act ds H e)) + normSqOf ds q - 2 * RCLike.re (MPS.inner ds q (act ds H e)) := by
  rw [inner_self_re]
  unfold resOf normSqOf MPS.inner
  have : ∀ s, ‖act ds H e s - q s‖ ^ 2 = ‖q s - act ds H e s‖ ^ 2 := fun s => by rw [norm_sub_rev]
  simp only [this]
  rw [dist_expand]
  ring

theorem matForm_flat {M : Tensor K} (hM : M.isEmpty = false) (d : List Nat) (Y Z : List Nat → K) :
    matForm M d d Y Z = sumCfg d fun I => star (Y I) * sumCfg d fun J => M.get [flat d I, flat d J] * Z J := by
  unfold matForm
  rw [hM, if_neg (by simp)]
  refine sumCfg_congr fun I _ => ?_
  rw [← sumCfg_mul_left]
  exact sumCfg_congr fun J _ => by ring

/-- the numbers computed from the solution -/
theorem Local.values {ds d : List Nat} {H : List (Tensor K)} {g : List Nat → K} {E : (List Nat → K) → List Nat → K} {M X : Tensor K}
    (h : Local ds d H g E M X) {v : Tensor K} (hv : v.dims = [d.prod]) :
    tscprod v (mmult M v) = MPS.inner ds (act ds H (E (reshape v d).get)) (act ds H (E (reshape v d).get)) ∧
    tscprod X v = MPS.inner ds g (E (reshape v d).get) := by
  obtain ⟨m1, m2⟩ := mmult_vec h.Mdims hv
  refine ⟨?_, ?_⟩
  · rw [← h.form, matForm_flat h.ne d]
    unfold tscprod
    rw [show (mmult M v).size = d.prod by simp [Tensor.size, m1], ← sumCfg_flat h.pos (fun n => star (v.lin n) * (mmult M v).lin n)]
    refine sumCfg_congr fun I hI => ?_
    rw [lin1 hv (flat_lt hI), lin1 m1 (flat_lt hI), m2, unflatten_get hv hI, ← sumCfg_flat h.pos (fun j => M.get [flat d I, j] * v.get [j])]
    congr 1
    exact sumCfg_congr fun J hJ => by rw [unflatten_get hv hJ]
  · rw [h.lin]
    unfold tscprod
    rw [show v.size = d.prod by simp [Tensor.size, hv], ← sumCfg_flat h.pos (fun n => star (X.lin n) * v.lin n)]
    refine sumCfg_congr fun I hI => ?_
    rw [lin_flat h.Xdims hI, lin1 hv (flat_lt hI), unflatten_get hv hI]

/-- a solution of the local problem is the best one -/
theorem Local.best_of {ds d : List Nat} {H : List (Tensor K)} {g q : List Nat → K} {E : (List Nat → K) → List Nat → K} {M X : Tensor K}
    (h : Local ds d H g E M X) (hgq : ∀ Y, MPS.inner ds g (E Y) = MPS.inner ds q (act ds H (E Y))) {z : List Nat → K}
    (hsol : ∀ I, IsCfg d I → (sumCfg d fun J => M.get [flat d I, flat d J] * z J) = X.get I) (Y : List Nat → K) :
    resOf ds H q (E z) ≤ resOf ds H q (E Y) := by
  -- the form at the solution
  have f1 : ∀ Y : List Nat → K, matForm M d d Y z = star (MPS.inner ds q (act ds H (E Y))) := by
    intro Y
    rw [matForm_flat h.ne d, ← hgq, h.lin, sumCfg_star]
    refine sumCfg_congr fun I hI => ?_
    rw [hsol I hI, star_mul', star_star, mul_comm]
  have f2 : ∀ Y : List Nat → K, matForm M d d z Y = MPS.inner ds q (act ds H (E Y)) := by
    intro Y
    have := f1 Y
    rw [h.form, ← Props.inner_star'] at this
    rw [h.form]
    exact star_injective this
  set D : List Nat → K := fun I => Y I - z I with hD
  have f3 : matForm M d d D D = matForm M d d Y Y - matForm M d d Y z - matForm M d d z Y + matForm M d d z z := by
    simp only [matForm, h.ne, Bool.false_eq_true, if_false]
    have e : ∀ (A B : List Nat → List Nat → K), sumCfg d (fun I => sumCfg d fun J => A I J + B I J) =
        sumCfg d (fun I => sumCfg d fun J => A I J) + sumCfg d fun I => sumCfg d fun J => B I J := by
      intro A B
      rw [← sumCfg_add]
      exact sumCfg_congr fun I _ => sumCfg_add d _ _
    have e2 : ∀ (A : List Nat → List Nat → K), sumCfg d (fun I => sumCfg d fun J => - A I J) = - sumCfg d (fun I => sumCfg d fun J => A I J) := by
      intro A
      have := e A (fun I J => - A I J)
      simp only [add_neg_cancel, sumCfg_zero] at this
      exact (neg_eq_of_add_eq_zero_right this.symm).symm
    rw [sub_eq_add_neg, sub_eq_add_neg, ← e2, ← e2, ← e, ← e, ← e]
    refine sumCfg_congr fun I _ => sumCfg_congr fun J _ => ?_
    simp only [hD, star_sub]
    ring
  have f4 : 0 ≤ RCLike.re (matForm M d d D D) := by
    rw [h.form, inner_self_re]
    exact sumCfg_nonneg _ _ fun _ _ => sq_nonneg _
  rw [f3, f1, f2, f2] at f4
  rw [resOf_expand, resOf_expand, ← h.form, ← h.form, f2]
  simp only [map_sub, map_add, RCLike.star_def, RCLike.conj_re] at f4
  linarith

/-- the local problem has a solution -/
theorem Local.solvable {ds d : List Nat} {H : List (Tensor K)} {g q : List Nat → K} {E : (List Nat → K) → List Nat → K} {M X : Tensor K}
    (h : Local ds d H g E M X) (hds : ∀ x ∈ ds, 0 < x) (hgq : ∀ Y, MPS.inner ds g (E Y) = MPS.inner ds q (act ds H (E Y))) :
    ∃ x : Nat → K, ∀ I, IsCfg d I → (sumCfg d fun J => M.get [flat d I, flat d J] * x (flat d J)) = X.get I := by
  set b : List Nat → List Nat → K := fun I => (basis (K := K) d I).get with hb
  have hM : ∀ I J, IsCfg d I → IsCfg d J → M.get [flat d I, flat d J] = MPS.inner ds (act ds H (E (b I))) (act ds H (E (b J))) := by
    intro I J hI hJ
    rw [← h.form, ← matForm_basis h.ne hI hJ]
  have hX : ∀ I, IsCfg d I → X.get I = MPS.inner ds (act ds H (E (b I))) q := by
    intro I hI
    have := h.lin (b I)
    rw [hgq] at this
    have e : (sumCfg d fun J => star (X.get J) * b I J) = star (X.get I) := by
      rw [← sumCfg_if d (fun J => star (X.get J)) hI]
      exact sumCfg_congr fun J _ => by
        simp only [hb, basis]
        split_ifs <;> simp
    rw [e] at this
    rw [← star_star (X.get I), ← this, Props.inner_star']
  obtain ⟨x, hx⟩ := exists_normal_cfg hds (fun n => act ds H (E (b (unflat d n)))) q d.prod
  refine ⟨x, fun I hI => ?_⟩
  have := hx _ (flat_lt hI)
  simp only [unflat_flat hI] at this
  rw [hX I hI, ← this, ← sumCfg_flat h.pos (fun j => MPS.inner ds (act ds H (E (b I))) (act ds H (E (b (unflat d j)))) * x j)]
  refine sumCfg_congr fun J hJ => ?_
  rw [hM I J hI hJ, unflat_flat hJ]

/-- the solution of the local problem is the best one -/
theorem Local.best {ds d : List Nat} {H : List (Tensor K)} {g q : List Nat → K} {E : (List Nat → K) → List Nat → K} {M X : Tensor K}
    (h : Local ds d H g E M X) (hds : ∀ x ∈ ds, 0 < x) (hgq : ∀ Y, MPS.inner ds g (E Y) = MPS.inner ds q (act ds H (E Y)))
    {lin : Tensor K → Tensor K → Tensor K} (hl : GoodSolve lin) (Y : List Nat → K) :
    resOf ds H q (E (reshape (lin M (flatten X)) d).get) ≤ resOf ds H q (E Y) := by
  obtain ⟨v1, v2⟩ := hl M (flatten X) d.prod h.Mdims (flatten_dims h.Xdims)
  obtain ⟨x, hx⟩ := h.solvable hds hgq
  have hsol := v2 ⟨x, fun i hi => by
    obtain ⟨I, hI, rfl⟩ := flat_surj hi
    rw [flatten_get h.Xdims hI, ← hx I hI, sumCfg_flat h.pos (fun j => M.get [flat d I, j] * x j)]⟩
  refine h.best_of hgq (fun I hI => ?_) Y
  rw [← flatten_get h.Xdims hI, ← hsol _ (flat_lt hI), ← sumCfg_flat h.pos (fun j => M.get [flat d I, j] * (lin M (flatten X)).get [j])]
  exact sumCfg_congr fun J hJ => by rw [unflatten_get v1 hJ]

end MPS.Solve
