import Verif.TrotterOrder
import Verif.ExpmExists
import Verif.Props.TrotterProps2
import Verif.Props.HamProps7

/-!
# A layer of gates is the exponential of the sum of its generators
-/

set_option linter.unusedSectionVars false
set_option linter.unusedSimpArgs false

namespace MPS.Order
open MPS Tensor Trotter
open scoped Matrix.Norms.Operator

/-- the configurations of a chain, as a finite set -/
def cfgs : List Nat → Finset (List Nat)
  | [] => {[]}
  | d :: ds => (Finset.range d ×ˢ cfgs ds).image fun p => p.1 :: p.2

theorem mem_cfgs {ds s : List Nat} : s ∈ cfgs ds ↔ IsCfg ds s := by
  induction ds generalizing s with
  | nil => simp [cfgs, IsCfg]
  | cons d ds ih =>
    simp only [cfgs, Finset.mem_image, Finset.mem_product, Finset.mem_range, Prod.exists, ih, IsCfg]
    constructor
    · rintro ⟨i, t, ⟨h1, h2⟩, rfl⟩; exact List.Forall₂.cons h1 h2
    · intro h
      cases h with
      | cons h1 h2 => exact ⟨_, _, ⟨h1, h2⟩, rfl⟩

theorem sumCfg_eq {R : Type} [AddCommMonoid R] (ds : List Nat) (F : List Nat → R) : sumCfg ds F = ∑ s ∈ cfgs ds, F s := by
  induction ds generalizing F with
  | nil => simp [cfgs]
  | cons d ds ih =>
    rw [sumCfg_cons, cfgs, Finset.sum_image, Finset.sum_product]
    · exact Finset.sum_congr rfl fun i _ => ih _
    · rintro ⟨a, b⟩ _ ⟨c, e⟩ _ h
      simp at h; simp [h]

/-- the type of the configurations -/
abbrev Cfg (ds : List Nat) : Type := {s // s ∈ cfgs ds}

theorem Cfg.cfg {ds : List Nat} (s : Cfg ds) : IsCfg ds s.1 := mem_cfgs.1 s.2

/-- an operator, as a matrix -/
def opMat (ds : List Nat) (O : List Nat → List Nat → ℂ) : Matrix (Cfg ds) (Cfg ds) ℂ := Matrix.of fun s t => O s.1 t.1

/-- a wave function, as a vector -/
def vec (ds : List Nat) (φ : List Nat → ℂ) : Cfg ds → ℂ := fun s => φ s.1

theorem sumCfg_cfg (ds : List Nat) {R : Type} [AddCommMonoid R] (F : List Nat → R) : sumCfg ds F = ∑ s : Cfg ds, F s.1 := by
  rw [sumCfg_eq]; exact (Finset.sum_coe_sort (cfgs ds) F).symm

open Matrix in
theorem vec_actOp (ds : List Nat) (O : List Nat → List Nat → ℂ) (φ : List Nat → ℂ) : vec ds (actOp ds O φ) = opMat ds O *ᵥ vec ds φ := by
  funext s
  simp only [vec, actOp, sumCfg_cfg, Matrix.mulVec, dotProduct, opMat, Matrix.of_apply]

theorem isCfg_getD {ds s : List Nat} (h : IsCfg ds s) {p : Nat} (hp : p < ds.length) : s.getD p 0 < ds.getD p 0 := by
  have hl := h.length
  rw [List.getD_eq_getElem _ _ (by omega), List.getD_eq_getElem _ _ hp]
  exact List.forall₂_iff_get.1 h |>.2 p (by omega) hp

theorem isCfg_set {ds s : List Nat} (h : IsCfg ds s) {p i : Nat} (hi : i < ds.getD p 0) : IsCfg ds (s.set p i) := by
  refine List.forall₂_iff_get.2 ⟨by simp [h.length], fun q h1 h2 => ?_⟩
  simp only [List.get_eq_getElem, List.getElem_set]
  split
  · rename_i e; subst e
    rwa [List.getD_eq_getElem _ _ h2] at hi
  · exact (List.forall₂_iff_get.1 h).2 q _ h2

theorem actOp_embed1 {ds : List Nat} {p : Nat} (hp : p < ds.length) (h : Tensor ℂ) (f : List Nat → ℂ) {s : List Nat} (hs : IsCfg ds s) :
    actOp ds (embed1 ds.length p h) f s = actSite (ds.getD p 0) h p f s := by
  classical
  have hl := hs.length
  unfold actOp actSite
  rw [sumCfg_eq]
  symm
  refine Finset.sum_of_injOn (fun i => s.set p i) ?_ ?_ ?_ ?_
  · intro i _ j _ e
    have := congrArg (fun l => List.getD l p 0) e
    simpa only [getD_set_eq (show p < s.length by omega)] using this
  · intro i hi
    exact mem_cfgs.2 (isCfg_set hs (by simpa using hi))
  · intro t ht hn
    have ht := mem_cfgs.1 ht
    have hlt := ht.length
    unfold embed1
    rw [Props.prod_delta, if_neg, mul_zero, zero_mul]
    intro hall
    refine hn ⟨t.getD p 0, by simpa using isCfg_getD ht hp, ?_⟩
    refine Props.getD_ext (by simp; omega) fun j hj => ?_
    by_cases e : p = j
    · subst e; exact getD_set_eq (by omega)
    · rw [getD_set_ne e]; exact hall j (by simp at hj; omega) (Ne.symm e)
  · intro i hi
    unfold embed1
    rw [getD_set_eq (by omega), Props.prod_delta, if_pos, mul_one]
    intro j _ e
    rw [getD_set_ne (Ne.symm e)]

theorem actOp_embed2 {ds : List Nat} {p : Nat} (hp : p + 1 < ds.length) (h : Tensor ℂ) (f : List Nat → ℂ) {s : List Nat} (hs : IsCfg ds s) :
    actOp ds (embed2 ds.length (ds.getD p 0) p h) f s = actPair (ds.getD p 0) (ds.getD (p + 1) 0) h p f s := by
  classical
  have hl := hs.length
  have g1 : ∀ i j, ((s.set p i).set (p + 1) j).getD p 0 = i := fun i j => by
    rw [getD_set_ne (by omega), getD_set_eq (by omega)]
  have g2 : ∀ i j, ((s.set p i).set (p + 1) j).getD (p + 1) 0 = j := fun i j => getD_set_eq (by simp; omega)
  have g3 : ∀ i j q, q ≠ p → q ≠ p + 1 → ((s.set p i).set (p + 1) j).getD q 0 = s.getD q 0 := fun i j q h1 h2 => by
    rw [getD_set_ne (Ne.symm h2), getD_set_ne (Ne.symm h1)]
  have hd : ∀ t : List Nat, (∏ j ∈ Finset.range ds.length, if j ≠ p ∧ j ≠ p + 1 ∧ s.getD j 0 ≠ t.getD j 0 then (0 : ℂ) else 1) =
      if ∀ j, j < ds.length → (j ≠ p ∧ j ≠ p + 1) → s.getD j 0 = t.getD j 0 then 1 else 0 := by
    intro t
    have := Props.prod_delta (R := ℂ) ds.length (fun j => j ≠ p ∧ j ≠ p + 1) s t
    simp only [and_assoc] at this
    rw [this]
  unfold actOp actPair
  rw [sumCfg_eq, ← Finset.sum_product']
  symm
  refine Finset.sum_of_injOn (fun x : Nat × Nat => (s.set p x.1).set (p + 1) x.2) ?_ ?_ ?_ ?_
  · rintro ⟨i, j⟩ _ ⟨i', j'⟩ _ e
    have e1 := congrArg (fun l => List.getD l p 0) e
    have e2 := congrArg (fun l => List.getD l (p + 1) 0) e
    simp only [g1, g2] at e1 e2
    rw [e1, e2]
  · rintro ⟨i, j⟩ hi
    simp only [Finset.coe_product, Set.mem_prod, Finset.coe_range, Set.mem_Iio] at hi
    exact mem_cfgs.2 (isCfg_set (isCfg_set hs hi.1) hi.2)
  · intro t ht hn
    have ht := mem_cfgs.1 ht
    have hlt := ht.length
    unfold embed2
    rw [hd, if_neg, mul_zero, zero_mul]
    intro hall
    refine hn ⟨(t.getD p 0, t.getD (p + 1) 0), by simpa using ⟨isCfg_getD ht (by omega), isCfg_getD ht hp⟩, ?_⟩
    refine Props.getD_ext (by simp; omega) fun j hj => ?_
    by_cases e : j = p
    · subst e; exact g1 _ _
    · by_cases e' : j = p + 1
      · subst e'; exact g2 _ _
      · rw [g3 _ _ _ e e']; exact hall j (by simp at hj; omega) ⟨e, e'⟩
  · rintro ⟨i, j⟩ hi
    unfold embed2
    simp only [g1, g2]
    rw [hd, if_pos, mul_one]
    intro q _ e
    rw [g3 _ _ _ e.1 e.2]

/-! ### the differential equation of the exponential -/

section Ode
variable {n : Type} [Fintype n] [DecidableEq n]

theorem hasDerivAt_matrix {F : ℂ → Matrix n n ℂ} {F' : Matrix n n ℂ} {z : ℂ} (h : ∀ i j, HasDerivAt (fun z => F z i j) (F' i j) z) :
    HasDerivAt F F' z := by
  have e : ∀ M : Matrix n n ℂ, M = ∑ i, ∑ j, M i j • Matrix.single i j (1 : ℂ) := by
    intro M
    conv_lhs => rw [Matrix.matrix_eq_sum_single M]
    refine Finset.sum_congr rfl fun i _ => Finset.sum_congr rfl fun j _ => ?_
    rw [Matrix.smul_single, smul_eq_mul, mul_one]
  rw [show F = fun z => ∑ i, ∑ j, F z i j • Matrix.single i j (1 : ℂ) from funext fun z => e _, e F']
  exact HasDerivAt.fun_sum fun i _ => HasDerivAt.fun_sum fun j _ => (h i j).smul_const _

theorem entry_hasDerivAt {F : ℂ → Matrix n n ℂ} {F' : Matrix n n ℂ} {z : ℂ} (h : HasDerivAt F F' z) (i j : n) :
    HasDerivAt (fun z => F z i j) (F' i j) z := by
  let L : Matrix n n ℂ →ₗ[ℂ] ℂ := ⟨⟨fun M => M i j, fun _ _ => rfl⟩, fun _ _ => rfl⟩
  exact (L.toContinuousLinearMap.hasFDerivAt.comp_hasDerivAt z h)

end Ode

end MPS.Order
