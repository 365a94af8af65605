import Verif.ITebdLemmas

/-!
# Windows of an infinite state: adding sites on the left or on the right
-/

set_option linter.unusedSectionVars false

namespace MPS.ITebd
open MPS Tensor
variable {K : Type} [RCLike K]

theorem winForm_transfer {psi : State K} (h : Ok psi) (p : Int) (n : Nat) (O : List Nat → List Nat → K) :
    winForm psi p n O = ∑ a ∈ Finset.range ((psi.matrix p).dim 0), ∑ b ∈ Finset.range ((psi.matrix (p + n)).dim 0),
      (psi.leftVector p).get [a] ^ 2 * transferO (window psi p n) (winDims psi p n) O a a b b := by
  obtain ⟨l1, l2, l3⟩ := leftBoundary_spec h p
  unfold winForm
  refine Finset.sum_congr rfl fun a _ => Finset.sum_congr rfl fun b _ => ?_
  unfold transferO MPS.inner actOp winAmp
  rw [← sumCfg_mul_left]
  refine sumCfg_congr fun s _ => ?_
  rw [← sumCfg_mul_left, ← sumCfg_mul_left]
  refine sumCfg_congr fun t _ => ?_
  rw [star_mul', l3]; ring

theorem winForm_congr (psi : State K) (p : Int) (n : Nat) {O O' : List Nat → List Nat → K}
    (h : ∀ s, IsCfg (winDims psi p n) s → ∀ t, IsCfg (winDims psi p n) t → O s t = O' s t) : winForm psi p n O = winForm psi p n O' := by
  unfold winForm MPS.inner actOp
  refine Finset.sum_congr rfl fun a _ => Finset.sum_congr rfl fun b _ => sumCfg_congr fun s hs => ?_
  congr 1
  exact sumCfg_congr fun t ht => by rw [h s hs t ht]

theorem window_add (psi : State K) (p : Int) (n m : Nat) : window psi p (n + m) = window psi p n ++ window psi (p + n) m := by
  unfold window
  rw [List.range_add, List.map_append, List.map_map]
  congr 1
  refine List.map_congr_left fun k _ => ?_
  simp [add_assoc]

theorem winDims_add (psi : State K) (p : Int) (n m : Nat) : winDims psi p (n + m) = winDims psi p n ++ winDims psi (p + n) m := by
  unfold winDims
  rw [List.range_add, List.map_append, List.map_map]
  congr 1
  refine List.map_congr_left fun k _ => ?_
  simp [add_assoc]

theorem sumCfg_pick (ds : List Nat) (φ : List Nat → K) {s : List Nat} (hs : IsCfg ds s) :
    sumCfg ds (fun t => if s = t then φ t else 0) = φ s := by
  induction hs generalizing φ with
  | nil => simp
  | @cons i d s ds hi hs ih =>
    rw [sumCfg_cons, Finset.sum_eq_single_of_mem i (Finset.mem_range.2 hi)]
    · rw [← ih fun t => φ (i :: t)]
      exact sumCfg_congr fun t _ => by simp
    · intro j _ hj
      rw [sumCfg_congr fun t _ => by rw [if_neg (by simp [Ne.symm hj])]]
      exact sumCfg_zero ds

theorem delta_cfg {ds : List Nat} (F : List Nat → List Nat → K) :
    sumCfg ds (fun s => sumCfg ds fun t => if s = t then F s t else 0) = sumCfg ds fun s => F s s :=
  sumCfg_congr fun _ hs => sumCfg_pick ds _ hs

/-- adding sites on the right with the identity on them -/
theorem winForm_right {psi : State K} (h : Ok psi) (p : Int) (n m : Nat) {η : K} (hf : RightFixed psi (p + n) m η)
    {O O' : List Nat → List Nat → K}
    (hO : ∀ s t, IsCfg (winDims psi p n) s → IsCfg (winDims psi p n) t → ∀ s' t', IsCfg (winDims psi (p + n) m) s' →
      IsCfg (winDims psi (p + n) m) t' → O' (s ++ s') (t ++ t') = O s t * if s' = t' then 1 else 0) :
    winForm psi p (n + m) O' = η * winForm psi p n O := by
  rw [winForm_transfer h, winForm_transfer h, Finset.mul_sum]
  refine Finset.sum_congr rfl fun a ha => ?_
  have ha := Finset.mem_range.1 ha
  rw [window_add, winDims_add]
  rw [Finset.sum_congr rfl fun b _ => by
    rw [transferO_append (h.window_wf n p) (h.window_wf m (p + n)) (O2 := fun s t => if s = t then 1 else 0) hO a a b b ha ha]]
  rw [← Finset.mul_sum, ← Finset.mul_sum, mul_left_comm]
  congr 1
  rw [Finset.sum_comm, Finset.mul_sum]
  refine Finset.sum_congr rfl fun c hc => ?_
  rw [Finset.sum_comm]
  have key : ∀ c' ∈ Finset.range ((psi.matrix (p + n)).dim 0), ∑ b ∈ Finset.range ((psi.matrix (p + (n + m : Nat))).dim 0),
      transferO (window psi p n) (winDims psi p n) O a a c c' *
        transferO (window psi (p + n) m) (winDims psi (p + n) m) (fun s t => if s = t then 1 else 0) c c' b b =
      transferO (window psi p n) (winDims psi p n) O a a c c' * if c' = c then η else 0 := by
    intro c' hc'
    rw [← Finset.mul_sum]
    congr 1
    have := hf c' (Finset.mem_range.1 hc') c (Finset.mem_range.1 hc)
    rw [← this, show p + ((n + m : Nat) : Int) = p + n + m by push_cast; ring]
    refine Finset.sum_congr rfl fun b _ => ?_
    unfold transferO
    rw [← delta_cfg fun s t => path (window psi (p + n) m) t c' b * star (path (window psi (p + n) m) s c b)]
    refine sumCfg_congr fun s _ => sumCfg_congr fun t _ => ?_
    by_cases hst : s = t
    · subst hst; simp; ring
    · simp [hst]
  rw [Finset.sum_congr rfl key, Finset.sum_eq_single_of_mem c hc (fun c' _ hne => by rw [if_neg hne, mul_zero]), if_pos rfl, mul_comm]

/-- adding sites on the left with the identity on them -/
theorem winForm_left {psi : State K} (h : Ok psi) (p : Int) (n m : Nat) {η : K} (hf : LeftFixed psi p m η)
    {O O' : List Nat → List Nat → K}
    (hO : ∀ s t, IsCfg (winDims psi p m) s → IsCfg (winDims psi p m) t → ∀ s' t', IsCfg (winDims psi (p + m) n) s' →
      IsCfg (winDims psi (p + m) n) t' → O' (s ++ s') (t ++ t') = (if s = t then 1 else 0) * O s' t') :
    winForm psi p (m + n) O' = η * winForm psi (p + m) n O := by
  obtain ⟨l1, l2, l3⟩ := leftBoundary_spec h p
  rw [winForm_transfer h, winForm_transfer h, Finset.mul_sum, Finset.sum_comm]
  rw [show (psi.matrix (p + (m + n : Nat))).dim 0 = (psi.matrix (p + m + n)).dim 0 by push_cast; rw [add_assoc]]
  rw [window_add, winDims_add]
  rw [Finset.sum_congr rfl fun b _ => Finset.sum_congr rfl fun a ha => by
    rw [transferO_append (h.window_wf m p) (h.window_wf n (p + m)) (O1 := fun s t => if s = t then 1 else 0) hO a a b b
      (Finset.mem_range.1 ha) (Finset.mem_range.1 ha)]]
  simp only [Finset.mul_sum]
  rw [Finset.sum_congr rfl fun b _ => Finset.sum_comm]
  rw [Finset.sum_comm]
  refine Finset.sum_congr rfl fun c hc => Finset.sum_congr rfl fun b _ => ?_
  rw [Finset.sum_comm]
  have key : ∀ c' ∈ Finset.range ((psi.matrix (p + m)).dim 0), ∑ a ∈ Finset.range ((psi.matrix p).dim 0),
      (psi.leftVector p).get [a] ^ 2 * (transferO (window psi p m) (winDims psi p m) (fun s t => if s = t then 1 else 0) a a c c' *
        transferO (window psi (p + m) n) (winDims psi (p + m) n) O c c' b b) =
      (if c = c' then η * (psi.leftVector (p + m)).get [c] ^ 2 else 0) *
        transferO (window psi (p + m) n) (winDims psi (p + m) n) O c c' b b := by
    intro c' hc'
    rw [← hf c (Finset.mem_range.1 hc) c' (Finset.mem_range.1 hc'), Finset.sum_mul]
    refine Finset.sum_congr rfl fun a _ => ?_
    rw [← mul_assoc]
    congr 1
    unfold transferO winAmp
    rw [← delta_cfg fun s t => star ((psi.leftVector p).get [a] * path (window psi p m) s a c) *
        ((psi.leftVector p).get [a] * path (window psi p m) t a c'), ← sumCfg_mul_left]
    refine sumCfg_congr fun s _ => ?_
    rw [← sumCfg_mul_left]
    refine sumCfg_congr fun t _ => ?_
    by_cases hst : s = t
    · subst hst; simp only [if_true]; rw [star_mul', l3]; ring
    · simp [hst]
  rw [Finset.sum_congr rfl key, Finset.sum_eq_single_of_mem c hc (fun c' _ hne => by rw [if_neg (Ne.symm hne), zero_mul]), if_pos rfl]
  ring

theorem siteOps_congr {p q : Int} {n : Nat} {f g : Int → Tensor K} (h : ∀ k : Nat, k < n → f (p + k) = g (q + k)) :
    siteOps p n f = siteOps q n g := by
  funext s t
  unfold siteOps tensorOp
  refine Finset.prod_congr rfl fun k hk => ?_
  beta_reduce; rw [h k (Finset.mem_range.1 hk)]

theorem cfg_ext {ds s t : List Nat} (hs : IsCfg ds s) (ht : IsCfg ds t) (h : ∀ k < ds.length, s.getD k 0 = t.getD k 0) : s = t := by
  refine List.ext_getElem (by rw [hs.length_eq, ht.length_eq]) fun k h1 h2 => ?_
  have := h k (by rw [← hs.length_eq]; exact h1)
  simpa [List.getD, h1, h2] using this

theorem siteOps_ones {psi : State K} (h : Ok psi) {p : Int} {n : Nat} {s t : List Nat} (hs : IsCfg (winDims psi p n) s)
    (ht : IsCfg (winDims psi p n) t) : siteOps p n (ones psi) s t = oneElt s t := by
  unfold siteOps tensorOp oneElt ones
  split
  · rename_i e
    subst e
    refine Finset.prod_eq_one fun k hk => ?_
    simp [eye]
  · rename_i hne
    by_contra hc
    apply hne
    refine cfg_ext hs ht fun k hk => ?_
    rw [winDims_length] at hk
    by_contra hk'
    apply hc
    refine Finset.prod_eq_zero (Finset.mem_range.2 hk) ?_
    simp only [eye]
    simp [List.getD] at hk' ⊢
    exact hk'

theorem winForm_ones {psi : State K} (h : Ok psi) (p : Int) (n : Nat) :
    winForm psi p n (siteOps p n (ones psi)) = winForm psi p n oneElt :=
  winForm_congr psi p n fun _ hs _ ht => siteOps_ones h hs ht

theorem winExpect_value {psi : State K} (h : Ok psi) (p : Int) (n : Nat) (f : Int → Tensor K) :
    winExpect psi p n f = winValue psi p n (siteOps p n f) := by
  unfold winExpect winValue
  rw [winForm_ones h]

end MPS.ITebd
