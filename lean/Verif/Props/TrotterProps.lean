import Verif.TrotterLemmas3

/-!
# C58–C61: Trotter evolution

`svd` is any function which returns singular value decompositions (`GoodSvd`), `expm` any function; where needed it is
assumed to map square matrices to square matrices of the same size, or antihermitian matrices to unitary ones (the
matrix exponential does both, see `exists_goodExpm`).
-/

set_option linter.unusedSectionVars false
set_option linter.unusedSimpArgs false

namespace MPS.Props
open MPS Tensor Trotter

/-! ### C58 -/

theorem cfg_lt {ds t : List Nat} (ht : IsCfg ds t) {q : Nat} (hq : q < ds.length) : t.getD q 0 < ds.getD q 0 := by
  have := List.forall₂_iff_get.1 ht
  have h2 := this.2 q (by rw [ht.length]; exact hq) hq
  simpa [List.getD_eq_getElem?_getD, ht.length, hq] using h2

section
variable {R : Type} [CommRing R]

theorem embed2_add (L d p : Nat) (A B : Tensor R) (s t : List Nat) :
    embed2 L d p (add A B) s t = embed2 L d p A s t + embed2 L d p B s t := by
  simp only [embed2, add, add_mul]

theorem embed1_smul (L p : Nat) (c : R) (A : Tensor R) (s t : List Nat) :
    embed1 L p (smul c A) s t = c * embed1 L p A s t := by
  simp only [embed1, smul, mul_assoc]

theorem prod_one_more {L p : Nat} (hp : p < L) (P : Nat → Prop) [DecidablePred P] (Q : Nat → Prop) [DecidablePred Q]
    (hq : ∀ j, Q j ↔ (P j ∧ j ≠ p)) :
    (∏ j ∈ Finset.range L, if P j then (0 : R) else 1) = (if P p then 0 else 1) * ∏ j ∈ Finset.range L, if Q j then (0 : R) else 1 := by
  rw [← Finset.mul_prod_erase _ _ (Finset.mem_range.2 hp), ← Finset.mul_prod_erase (Finset.range L) (fun j => if Q j then (0 : R) else 1) (Finset.mem_range.2 hp)]
  have : (if Q p then (0 : R) else 1) = 1 := by rw [if_neg]; rw [hq]; tauto
  rw [this, one_mul]
  congr 1
  refine Finset.prod_congr rfl fun j hj => ?_
  have hj : j ≠ p := (Finset.mem_erase.1 hj).1
  have : Q j ↔ P j := by rw [hq]; tauto
  simp only [this]

theorem embed2_left {ds : List Nat} {p : Nat} (hp : p + 1 < ds.length) {A : Tensor R} (hA : A.dims = [ds.getD p 0, ds.getD p 0])
    {s t : List Nat} (hs : IsCfg ds s) (ht : IsCfg ds t) :
    embed2 ds.length (ds.getD p 0) p (kron2 A (eye (ds.getD (p + 1) 0))) s t = embed1 ds.length p A s t := by
  have hs0 := cfg_lt hs (q := p) (by omega)
  have ht0 := cfg_lt ht (q := p) (by omega)
  have e : (kron2 A (eye (ds.getD (p + 1) 0))).get [s.getD p 0 + ds.getD p 0 * s.getD (p + 1) 0, t.getD p 0 + ds.getD p 0 * t.getD (p + 1) 0]
      = (if s.getD (p + 1) 0 = t.getD (p + 1) 0 then 1 else 0) * A.get [s.getD p 0, t.getD p 0] := by
    have d0 : A.dim 0 = ds.getD p 0 := by simp [dim, hA]
    have d1 : A.dim 1 = ds.getD p 0 := by simp [dim, hA]
    simp only [kron2, kron, eye, d0, d1, List.getD_cons_zero, List.getD_cons_succ]
    rw [Nat.add_mul_mod_self_left, Nat.add_mul_mod_self_left, Nat.mod_eq_of_lt hs0, Nat.mod_eq_of_lt ht0,
      Nat.add_mul_div_left _ _ (by omega), Nat.add_mul_div_left _ _ (by omega), Nat.div_eq_of_lt hs0, Nat.div_eq_of_lt ht0]
    simp
  unfold embed2 embed1
  rw [e, prod_one_more (p := p + 1) hp (fun j => j ≠ p ∧ s.getD j 0 ≠ t.getD j 0)
    (fun j => j ≠ p ∧ j ≠ p + 1 ∧ s.getD j 0 ≠ t.getD j 0) (fun j => by tauto)]
  by_cases h : s.getD (p + 1) 0 = t.getD (p + 1) 0 <;> simp [h]

theorem embed2_right {ds : List Nat} {p : Nat} (hp : p + 1 < ds.length) {A : Tensor R} 
    {s t : List Nat} (hs : IsCfg ds s) (ht : IsCfg ds t) :
    embed2 ds.length (ds.getD p 0) p (kron2 (eye (ds.getD p 0)) A) s t = embed1 ds.length (p + 1) A s t := by
  have hs0 := cfg_lt hs (q := p) (by omega)
  have ht0 := cfg_lt ht (q := p) (by omega)
  have e : (kron2 (eye (ds.getD p 0)) A).get [s.getD p 0 + ds.getD p 0 * s.getD (p + 1) 0, t.getD p 0 + ds.getD p 0 * t.getD (p + 1) 0]
      = A.get [s.getD (p + 1) 0, t.getD (p + 1) 0] * (if s.getD p 0 = t.getD p 0 then 1 else 0) := by
    simp only [kron2, kron, eye, dim, nrm_zero, nrm_one, List.getD_cons_zero, List.getD_cons_succ]
    rw [Nat.add_mul_mod_self_left, Nat.add_mul_mod_self_left, Nat.mod_eq_of_lt hs0, Nat.mod_eq_of_lt ht0,
      Nat.add_mul_div_left _ _ (by omega), Nat.add_mul_div_left _ _ (by omega), Nat.div_eq_of_lt hs0, Nat.div_eq_of_lt ht0]
    simp
  unfold embed2 embed1
  rw [e, prod_one_more (p := p) (by omega) (fun j => j ≠ p + 1 ∧ s.getD j 0 ≠ t.getD j 0)
    (fun j => j ≠ p ∧ j ≠ p + 1 ∧ s.getD j 0 ≠ t.getD j 0) (fun j => by tauto)]
  by_cases h : s.getD p 0 = t.getD p 0 <;> simp [h]

/-- in each layer every site belongs to exactly one gate -/
theorem layer_cover (L k : Nat) (e : Nat → R) :
    ∑ p ∈ (Finset.range L).filter (PairAt L k), (e p + e (p + 1)) + ∑ p ∈ (Finset.range L).filter (Single L k), e p
      = ∑ p ∈ Finset.range L, e p := by
  have h2 : ∑ p ∈ (Finset.range L).filter (PairAt L k), e (p + 1)
      = ∑ q ∈ (Finset.range L).filter (fun q => q ≠ 0 ∧ PairAt L k (q - 1)), e q := by
    refine Finset.sum_bij (fun p _ => p + 1) ?_ ?_ ?_ ?_
    · intro p hp
      simp only [Finset.mem_filter, Finset.mem_range] at hp ⊢
      exact ⟨hp.2.2, by omega, hp.2⟩
    · intro p _ q _ h; omega
    · intro q hq
      simp only [Finset.mem_filter, Finset.mem_range] at hq
      exact ⟨q - 1, by simp only [Finset.mem_filter, Finset.mem_range]; exact ⟨by omega, hq.2.2⟩, by omega⟩
    · intros; rfl
  rw [Finset.sum_add_distrib, h2, Finset.sum_filter, Finset.sum_filter, Finset.sum_filter, ← Finset.sum_add_distrib,
    ← Finset.sum_add_distrib]
  refine Finset.sum_congr rfl fun p hp => ?_
  have hp := Finset.mem_range.1 hp
  by_cases h1 : PairAt L k p
  · have h3 : ¬ (p ≠ 0 ∧ PairAt L k (p - 1)) := by unfold PairAt at *; omega
    have h4 : ¬ Single L k p := fun h => h.2.1 h1
    rw [if_pos h1, if_neg h3, if_neg h4]; ring
  · by_cases h3 : p ≠ 0 ∧ PairAt L k (p - 1)
    · have h4 : ¬ Single L k p := fun h => by have := h.2.2; tauto
      rw [if_neg h1, if_pos h3, if_neg h4]; ring
    · have h4 : Single L k p := ⟨hp, h1, by tauto⟩
      rw [if_neg h1, if_neg h3, if_pos h4]; ring

end

theorem gen_layerGen {H : Ham ℂ} {k p : Nat} (hk : k ≤ 1) (hp : PairAt H.size k p ∨ Single H.size k p) :
    gen H k p = layerGen H k p := by
  unfold layerGen
  rcases hp with hp | hp
  · rw [gen_pair hk hp, if_pos hp]
  · rw [gen_single hk hp, if_neg hp.2.1]

/-- **C58**.  For every time step and whatever `expm` computes, `Unitary(H, k, dt)` consists of the gates
`expm(dt' G)`, with `dt' = -|Im dt| - i Re dt` and `G` the generators `layerGen H k p`. -/
theorem C58_gates {H : Ham ℂ} {ds : List Nat} (hH : HamFits H ds) (expm : Tensor ℂ → Tensor ℂ) (dt : ℂ) (k : Nat) (hk : k ≤ 1) :
    ∃ W, mkUnitary expm H k dt = some W ∧
      ∀ p, PairAt ds.length k p ∨ Single ds.length k p → site W.U p = expm (smul ⟨-|dt.im|, -dt.re⟩ (layerGen H k p)) := by
  obtain ⟨W, h1, -, -, h4⟩ := mkUnitary_spec expm H k hk dt
  refine ⟨W, h1, fun p hp => ?_⟩
  rw [← hH.size] at hp
  rw [← gen_layerGen hk hp]
  exact h4 p hp

/-- **C58**.  The generators of the two layers add up to the open-chain Hamiltonian: all local terms and all the
interactions between neighbours, each with weight one. -/
theorem C58_generators_sum {H : Ham ℂ} {ds : List Nat} (hH : HamFits H ds) (s t : List Nat) (hs : IsCfg ds s) (ht : IsCfg ds t) :
    ∑ k ∈ Finset.range 2,
      (∑ p ∈ (Finset.range ds.length).filter (PairAt ds.length k), embed2 ds.length (ds.getD p 0) p (layerGen H k p) s t
        + ∑ p ∈ (Finset.range ds.length).filter (Single ds.length k), embed1 ds.length p (layerGen H k p) s t)
    = ∑ p ∈ Finset.range ds.length, embed1 ds.length p (H.loc p) s t
      + ∑ p ∈ Finset.range (ds.length - 1), embed2 ds.length (ds.getD p 0) p (H.inter p) s t := by
  have layer : ∀ k ≤ 1, ∑ p ∈ (Finset.range ds.length).filter (PairAt ds.length k), embed2 ds.length (ds.getD p 0) p (layerGen H k p) s t
          + ∑ p ∈ (Finset.range ds.length).filter (Single ds.length k), embed1 ds.length p (layerGen H k p) s t
      = ∑ p ∈ (Finset.range ds.length).filter (PairAt ds.length k), embed2 ds.length (ds.getD p 0) p (H.inter p) s t
        + (1 / 2) * ∑ p ∈ Finset.range ds.length, embed1 ds.length p (H.loc p) s t := by
    intro k hk
    rw [← layer_cover ds.length k, mul_add, ← add_assoc, Finset.mul_sum, Finset.mul_sum, ← Finset.sum_add_distrib]
    congr 1
    · refine Finset.sum_congr rfl fun p hp => ?_
      simp only [Finset.mem_filter, Finset.mem_range] at hp
      have hp2 := hp.2.2
      rw [layerGen, hH.size, if_pos hp.2, embed2_add, embed2_add, hH.dim p hp.1, hH.dim (p + 1) hp2,
        embed2_left hp2 (by exact hH.loc p hp.1) hs ht, embed2_right hp2 hs ht, embed1_smul, embed1_smul]
      ring
    · refine Finset.sum_congr rfl fun p hp => ?_
      simp only [Finset.mem_filter, Finset.mem_range] at hp
      rw [layerGen, hH.size, if_neg hp.2.2.1, embed1_smul]
  rw [Finset.sum_range_succ, Finset.sum_range_one, layer 0 (by omega), layer 1 (by omega)]
  have hb : ∑ p ∈ (Finset.range ds.length).filter (PairAt ds.length 0), embed2 ds.length (ds.getD p 0) p (H.inter p) s t
      + ∑ p ∈ (Finset.range ds.length).filter (PairAt ds.length 1), embed2 ds.length (ds.getD p 0) p (H.inter p) s t
      = ∑ p ∈ Finset.range (ds.length - 1), embed2 ds.length (ds.getD p 0) p (H.inter p) s t := by
    rw [← Finset.sum_union]
    · refine Finset.sum_congr ?_ fun _ _ => rfl
      ext p
      simp only [Finset.mem_union, Finset.mem_filter, Finset.mem_range, PairAt]
      omega
    · rw [Finset.disjoint_left]
      intro p h1 h2
      simp only [Finset.mem_filter, PairAt] at h1 h2
      omega
  rw [← hb]
  ring

/-- **C58**: in each layer every site belongs to exactly one gate: it is the first site of a pair, the second site of a
pair or a single site, and only one of these. -/
theorem C58_partition (L k q : Nat) (hq : q < L) :
    (PairAt L k q ∧ ¬ (0 < q ∧ PairAt L k (q - 1)) ∧ ¬ Single L k q) ∨
    (¬ PairAt L k q ∧ (0 < q ∧ PairAt L k (q - 1)) ∧ ¬ Single L k q) ∨
    (¬ PairAt L k q ∧ ¬ (0 < q ∧ PairAt L k (q - 1)) ∧ Single L k q) := by
  unfold Single PairAt
  by_cases h : q = 0
  · subst h; omega
  · omega

/-- **C58**: the constructor aborts for any other initial site -/
theorem C58_bad_parity (expm : Tensor ℂ → Tensor ℂ) (H : Ham ℂ) (k : Int) (hk : 1 < k) (dt : ℂ) :
    mkUnitary expm H k dt = none := by
  unfold mkUnitary; rw [if_pos hk]

/-- a Hamiltonian on three sites of dimensions 2, 3, 2 -/
noncomputable def exHam : Ham ℂ where
  size := 3
  dim k := [2, 3, 2].getD k 0
  loc k := ⟨[[2, 3, 2].getD k 0, [2, 3, 2].getD k 0], fun i => if i.getD 0 0 = i.getD 1 0 then i.getD 0 0 else 0⟩
  inter k := ⟨[[2, 3, 2].getD k 0 * [2, 3, 2].getD (k + 1) 0, [2, 3, 2].getD k 0 * [2, 3, 2].getD (k + 1) 0],
    fun i => if i.getD 0 0 = i.getD 1 0 then 1 else Complex.I⟩
  depth _ := 0
  left _ _ := Tensor.empty
  right _ _ := Tensor.empty
  periodic := false

example : HamFits exHam [2, 3, 2] :=
  ⟨rfl, fun _ _ => rfl, fun _ _ => rfl, fun _ _ => rfl⟩

example : PairAt 3 0 0 ∧ Single 3 0 2 ∧ Single 3 1 0 ∧ PairAt 3 1 1 := by decide

end MPS.Props
