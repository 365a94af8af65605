import Verif.Props.HamProps3
import Verif.TrotterLemmas2

/-!
# Property C72: the energy through the MPO of a Hamiltonian is the energy of the Hamiltonian
-/

set_option linter.unusedSectionVars false
set_option linter.unusedSimpArgs false

namespace MPS.Props
open MPS Tensor MPS.Trotter
variable {R : Type} [CommRing R]

theorem act_one : ∀ (ds : List Nat) (k : Nat) (h : Tensor R) (φ : List Nat → R) (s : List Nat), IsCfg ds s → k < ds.length →
    sumCfg ds (fun t => (∏ j ∈ Finset.range ds.length, if j = k then h.get [s.getD j 0, t.getD j 0]
      else if s.getD j 0 = t.getD j 0 then 1 else 0) * φ t) = actSite (ds.getD k 0) h k φ s
  | [], k, h, φ, s, hs, hk => by simp at hk
  | d :: ds, k, h, φ, s, hs, hk => by
    cases hs with
    | @cons i _ s' _ hi hs =>
    rw [sumCfg_cons]
    cases k with
    | zero =>
      unfold actSite
      simp only [List.getD_cons_zero, List.set_cons_zero]
      refine Finset.sum_congr rfl fun x hx => ?_
      rw [← sumCfg_delta ds (fun t => φ (x :: t)) hs, ← sumCfg_mul_left]
      refine sumCfg_congr fun t ht => ?_
      rw [List.length_cons, Finset.prod_range_succ']
      simp only [List.getD_cons_zero, List.getD_cons_succ, if_true, Nat.succ_ne_zero, if_false]
      ring
    | succ k =>
      have ih := act_one ds k h (fun t => φ (i :: t)) s' hs (by simpa using hk)
      rw [Finset.sum_eq_single i]
      · have : actSite ((d :: ds).getD (k + 1) 0) h (k + 1) φ (i :: s') = actSite (ds.getD k 0) h k (fun t => φ (i :: t)) s' := by
          simp [actSite]
        rw [this, ← ih]
        refine sumCfg_congr fun t ht => ?_
        rw [List.length_cons, Finset.prod_range_succ']
        simp
      · intro x _ hx
        rw [← sumCfg_zero (R := R) ds]
        refine sumCfg_congr fun t ht => ?_
        rw [List.length_cons, Finset.prod_range_succ']
        simp [Ne.symm hx]
      · intro hn; exact absurd (Finset.mem_range.2 hi) hn

theorem act_two : ∀ (ds : List Nat) (k : Nat) (a b : Tensor R) (φ : List Nat → R) (s : List Nat), IsCfg ds s → k + 1 < ds.length →
    sumCfg ds (fun t => (∏ j ∈ Finset.range ds.length, if j = k then a.get [s.getD j 0, t.getD j 0]
      else if j = k + 1 then b.get [s.getD j 0, t.getD j 0] else if s.getD j 0 = t.getD j 0 then 1 else 0) * φ t)
      = actSite (ds.getD k 0) a k (actSite (ds.getD (k + 1) 0) b (k + 1) φ) s
  | [], k, a, b, φ, s, hs, hk => by simp at hk
  | d :: ds, k, a, b, φ, s, hs, hk => by
    cases hs with
    | @cons i _ s' _ hi hs =>
    rw [sumCfg_cons]
    cases k with
    | zero =>
      conv_rhs => unfold actSite
      simp only [List.getD_cons_zero, List.set_cons_zero]
      refine Finset.sum_congr rfl fun x hx => ?_
      have h1 := act_one ds 0 b (fun t => φ (x :: t)) s' hs (by simpa using hk)
      have h2 : ∑ t ∈ Finset.range ((d :: ds).getD (0 + 1) 0), b.get [(x :: s').getD (0 + 1) 0, t] *
          φ ((x :: s').set (0 + 1) t) = actSite (ds.getD 0 0) b 0 (fun t => φ (x :: t)) s' := by
        simp [actSite]
      rw [h2, ← h1, ← sumCfg_mul_left]
      refine sumCfg_congr fun t ht => ?_
      rw [List.length_cons, Finset.prod_range_succ']
      simp only [List.getD_cons_zero, List.getD_cons_succ, if_true, Nat.succ_ne_zero, if_false, zero_add, Nat.add_eq_right]
      ring
    | succ k =>
      have ih := act_two ds k a b (fun t => φ (i :: t)) s' hs (by simpa using hk)
      rw [Finset.sum_eq_single i]
      · have : actSite ((d :: ds).getD (k + 1) 0) a (k + 1) (actSite ((d :: ds).getD (k + 1 + 1) 0) b (k + 1 + 1) φ) (i :: s')
            = actSite (ds.getD k 0) a k (actSite (ds.getD (k + 1) 0) b (k + 1) (fun t => φ (i :: t))) s' := by
          simp [actSite]
        rw [this, ← ih]
        refine sumCfg_congr fun t ht => ?_
        rw [List.length_cons, Finset.prod_range_succ']
        simp
      · intro x _ hx
        rw [← sumCfg_zero (R := R) ds]
        refine sumCfg_congr fun t ht => ?_
        rw [List.length_cons, Finset.prod_range_succ']
        simp [Ne.symm hx]
      · intro hn; exact absurd (Finset.mem_range.2 hi) hn

theorem actOp_onSite {ds s : List Nat} (hs : IsCfg ds s) {k : Nat} (hk : k < ds.length) (h : Tensor R) (φ : List Nat → R) :
    actOp ds (tensorOp ds.length (onSite ds k h)) φ s = actSite (ds.getD k 0) h k φ s := by
  rw [← act_one ds k h φ s hs hk, actOp]
  refine sumCfg_congr fun t ht => ?_
  congr 1
  refine Finset.prod_congr rfl fun j _ => ?_
  unfold onSite
  split
  · rfl
  · simp [eye]

theorem actOp_onTwo {ds s : List Nat} (hs : IsCfg ds s) {k : Nat} (hk : k + 1 < ds.length) (a b : Tensor R) (φ : List Nat → R) :
    actOp ds (tensorOp ds.length (onTwo ds k a (k + 1) b fun j => eye (ds.getD j 0))) φ s
      = actSite (ds.getD k 0) a k (actSite (ds.getD (k + 1) 0) b (k + 1) φ) s := by
  rw [← act_two ds k a b φ s hs hk, actOp]
  refine sumCfg_congr fun t ht => ?_
  congr 1
  refine Finset.prod_congr rfl fun j _ => ?_
  unfold onTwo
  split
  · rfl
  · split
    · rfl
    · split <;> simp [eye]

variable [StarRing R]

/-- C72: on an open chain, `expected(psi, CMPO(H,t))` is the energy `expected(psi, H, t)` (before the real part is taken). -/
theorem C72_energy_mpo {ds : List Nat} (h2 : 2 ≤ ds.length) (hpos : ∀ d ∈ ds, 0 < d) {H : Ham R} (hH : HamTerms H ds False)
    (hper : H.periodic = false) (hloc : ∀ k, k < ds.length → (H.loc k).dims = [ds.getD k 0, ds.getD k 0])
    (hdim : ∀ k, k < ds.length → H.dim k = ds.getD k 0) {P : List (Tensor R)} (hP : IsMPS ds P) :
    ∃ O, cmpoFromHam H = some O ∧ ∃ E, expectedMPO1 P O = some E ∧ energy P H = some E := by
  obtain ⟨O, h1, h3, h4⟩ := C33_cmpo_partial h2 hpos hH hloc hdim
  refine ⟨O, h1, _, C32_expected_same h3 hP, ?_⟩
  have hH' : HamTerms H ds (H.periodic = true ∧ 1 < ds.length) :=
    ⟨hH.size, hH.loc, hH.left, hH.right, by simp [hper], by simp [hper]⟩
  rw [C38_energy hP hH', if_neg (by simp [hper]), add_zero]
  congr 1
  have key : ∀ s, IsCfg ds s → sumCfg ds (fun t => opElt O s t * amp P t) =
      ∑ k ∈ Finset.range ds.length, actSite (ds.getD k 0) (H.loc k) k (amp P) s +
      ∑ k ∈ Finset.range (ds.length - 1), ∑ n ∈ Finset.range (H.depth k),
        actSite (ds.getD k 0) (H.left k n) k (actSite (ds.getD (k + 1) 0) (H.right k n) (k + 1) (amp P)) s := by
    intro s hs
    have : ∀ t, IsCfg ds t → opElt O s t * amp P t =
      ∑ k ∈ Finset.range ds.length, tensorOp ds.length (onSite ds k (H.loc k)) s t * amp P t +
      ∑ k ∈ Finset.range (ds.length - 1), ∑ n ∈ Finset.range (H.depth k),
        tensorOp ds.length (onTwo ds k (H.left k n) (k + 1) (H.right k n) fun j => eye (ds.getD j 0)) s t * amp P t := by
      intro t ht
      rw [h4 s t hs ht, hamElt, add_mul, Finset.sum_mul, Finset.sum_mul]
      simp only [Finset.sum_mul]
    rw [sumCfg_congr this, sumCfg_add, sumCfg_sum, sumCfg_sum]
    simp only [sumCfg_sum]
    congr 1
    · exact Finset.sum_congr rfl fun k hk => actOp_onSite hs (Finset.mem_range.1 hk) _ _
    · exact Finset.sum_congr rfl fun k hk => Finset.sum_congr rfl fun n _ =>
        actOp_onTwo hs (by have := Finset.mem_range.1 hk; omega) _ _ _
  have hpos' : ∀ j, j < ds.length → 0 < ds.getD j 0 := fun j hj => by
    rw [List.getD_eq_getElem _ _ hj]; exact hpos _ (List.getElem_mem hj)
  have hE : ∀ k, k < ds.length → localEnergy ds H (amp P) k =
      sumCfg ds (fun s => star (amp P s) * actSite (ds.getD k 0) (H.loc k) k (amp P) s) := by
    intro k hk
    rw [localEnergy, not_isEmpty (hloc k hk) (hpos' k hk)]
    rfl
  rw [Finset.sum_congr rfl fun k hk => hE k (Finset.mem_range.1 hk)]
  simp only [bondEnergy, corr, MPS.inner]
  simp only [← sumCfg_sum]
  rw [← sumCfg_add]
  refine sumCfg_congr fun s hs => ?_
  have e : sumCfg ds (fun t => star (amp P s) * opElt O s t * amp P t) = star (amp P s) * sumCfg ds (fun t => opElt O s t * amp P t) := by
    rw [← sumCfg_mul_left]; exact sumCfg_congr fun t _ => by ring
  rw [e, key s hs, mul_add, Finset.mul_sum, Finset.mul_sum]
  simp only [Finset.mul_sum]

end MPS.Props
