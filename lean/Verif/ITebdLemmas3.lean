import Verif.ITebdLemmas2

/-!
# Canonical conditions of an infinite state and larger windows
-/

set_option linter.unusedSectionVars false

namespace MPS.ITebd
open MPS Tensor
variable {K : Type} [RCLike K]

theorem rightFixed_iff (psi : State K) (p : Int) (m : Nat) (η : K) : RightFixed psi p m η ↔
    ∀ a < (psi.matrix p).dim 0, ∀ a' < (psi.matrix p).dim 0, ∑ b ∈ Finset.range ((psi.matrix (p + m)).dim 0),
      transferO (window psi p m) (winDims psi p m) oneElt a a' b b = if a = a' then η else 0 := by
  have e : ∀ a a' b, transferO (window psi p m) (winDims psi p m) oneElt a a' b b =
      sumCfg (winDims psi p m) (fun s => path (window psi p m) s a' b * star (path (window psi p m) s a b)) := by
    intro a a' b
    unfold transferO oneElt
    rw [← delta_cfg fun s t => path (window psi p m) t a' b * star (path (window psi p m) s a b)]
    refine sumCfg_congr fun s _ => sumCfg_congr fun t _ => ?_
    by_cases h : s = t
    · simp [h]; ring
    · simp [h]
  constructor
  · intro h a ha a' ha'
    rw [Finset.sum_congr rfl fun b _ => e a a' b, h a' ha' a ha]
    simp [eq_comm]
  · intro h a ha a' ha'
    rw [← Finset.sum_congr rfl fun b _ => e a' a b, h a' ha' a ha]
    simp [eq_comm]

theorem leftFixed_iff {psi : State K} (h : Ok psi) (p : Int) (m : Nat) (η : K) : LeftFixed psi p m η ↔
    ∀ b < (psi.matrix (p + m)).dim 0, ∀ b' < (psi.matrix (p + m)).dim 0, ∑ a ∈ Finset.range ((psi.matrix p).dim 0),
      (psi.leftVector p).get [a] ^ 2 * transferO (window psi p m) (winDims psi p m) oneElt a a b b' =
        if b = b' then η * (psi.leftVector (p + m)).get [b] ^ 2 else 0 := by
  obtain ⟨l1, l2, l3⟩ := leftBoundary_spec h p
  have e : ∀ a b b', (psi.leftVector p).get [a] ^ 2 * transferO (window psi p m) (winDims psi p m) oneElt a a b b' =
      sumCfg (winDims psi p m) (fun s => star (winAmp psi p m a b s) * winAmp psi p m a b' s) := by
    intro a b b'
    unfold transferO oneElt winAmp
    rw [← delta_cfg fun s t => star ((psi.leftVector p).get [a] * path (window psi p m) s a b) *
        ((psi.leftVector p).get [a] * path (window psi p m) t a b'), ← sumCfg_mul_left]
    refine sumCfg_congr fun s _ => ?_
    rw [← sumCfg_mul_left]
    refine sumCfg_congr fun t _ => ?_
    by_cases hst : s = t
    · subst hst; simp only [if_true]; rw [star_mul', l3]; ring
    · simp [hst]
  unfold LeftFixed
  simp only [e]

theorem oneElt_append {s t s' t' : List Nat} (h : s.length = t.length) :
    oneElt (K := K) (s ++ s') (t ++ t') = oneElt s t * oneElt s' t' := by
  unfold oneElt
  by_cases h1 : s = t
  · by_cases h2 : s' = t'
    · simp [h1, h2]
    · simp [h1, h2]
  · have : ¬ (s ++ s' = t ++ t') := fun hc => h1 (List.append_inj_left hc h)
    simp [h1, this]

theorem RightFixed.add {psi : State K} (h : Ok psi) {p : Int} {m m' : Nat} {η η' : K} (h1 : RightFixed psi p m η)
    (h2 : RightFixed psi (p + m) m' η') : RightFixed psi p (m + m') (η * η') := by
  rw [rightFixed_iff] at h1 h2 ⊢
  intro a ha a' ha'
  rw [window_add, winDims_add, show p + ((m + m' : Nat) : Int) = p + m + m' by push_cast; ring]
  rw [Finset.sum_congr rfl fun b _ => transferO_append (h.window_wf m p) (h.window_wf m' (p + m)) (O1 := oneElt) (O2 := oneElt)
    (fun s t hs ht s' t' _ _ => oneElt_append (by rw [hs.length_eq, ht.length_eq])) a a' b b ha ha']
  rw [Finset.sum_comm]
  rw [Finset.sum_congr rfl fun c _ => Finset.sum_comm]
  rw [Finset.sum_congr rfl fun c hc => Finset.sum_congr rfl fun c' hc' => by
    rw [← Finset.mul_sum, h2 c (Finset.mem_range.1 hc) c' (Finset.mem_range.1 hc')]]
  rw [Finset.sum_congr rfl fun c hc => by
    rw [Finset.sum_eq_single_of_mem c hc (fun c' _ hne => by rw [if_neg (Ne.symm hne), mul_zero]), if_pos rfl]]
  rw [← Finset.sum_mul, h1 a ha a' ha']
  split <;> simp

theorem LeftFixed.add {psi : State K} (h : Ok psi) {p : Int} {m m' : Nat} {η η' : K} (h1 : LeftFixed psi p m η)
    (h2 : LeftFixed psi (p + m) m' η') : LeftFixed psi p (m + m') (η * η') := by
  rw [leftFixed_iff h] at h1 h2 ⊢
  rw [show p + ((m + m' : Nat) : Int) = p + m + m' by push_cast; ring]
  intro b hb b' hb'
  rw [window_add, winDims_add]
  rw [Finset.sum_congr rfl fun a ha => by
    rw [transferO_append (h.window_wf m p) (h.window_wf m' (p + m)) (O1 := oneElt) (O2 := oneElt)
      (fun s t hs ht s' t' _ _ => oneElt_append (by rw [hs.length_eq, ht.length_eq])) a a b b' (Finset.mem_range.1 ha)
      (Finset.mem_range.1 ha)]]
  simp only [Finset.mul_sum]
  rw [Finset.sum_comm]
  rw [Finset.sum_congr rfl fun c _ => Finset.sum_comm]
  rw [Finset.sum_congr rfl fun c hc => Finset.sum_congr rfl fun c' hc' => by
    rw [Finset.sum_congr rfl fun a _ => (mul_assoc _ _ _).symm, ← Finset.sum_mul, h1 c (Finset.mem_range.1 hc) c' (Finset.mem_range.1 hc')]]
  rw [Finset.sum_congr rfl fun c hc => by
    rw [Finset.sum_eq_single_of_mem c hc (fun c' _ hne => by rw [if_neg (Ne.symm hne), zero_mul]), if_pos rfl, mul_assoc]]
  rw [← Finset.mul_sum, h2 b hb b' hb']
  split
  · ring
  · simp

theorem RightFixed.none (psi : State K) (p : Int) : RightFixed psi p 0 1 := by
  intro a ha a' ha'
  simp only [window, winDims, List.range_zero, List.map_nil, sumCfg, path_nil, Nat.cast_zero, add_zero]
  rw [Finset.sum_eq_single_of_mem a (Finset.mem_range.2 ha) (fun b _ hne => by simp [Ne.symm hne])]
  by_cases h : a = a'
  · simp [h]
  · simp [h, Ne.symm h]

theorem LeftFixed.none {psi : State K} (h : Ok psi) (p : Int) : LeftFixed psi p 0 1 := by
  obtain ⟨l1, l2, l3⟩ := leftBoundary_spec h p
  intro b hb b' hb'
  simp only [Nat.cast_zero, add_zero] at hb hb' ⊢
  simp only [winAmp, window, winDims, List.range_zero, List.map_nil, sumCfg, path_nil]
  rw [Finset.sum_eq_single_of_mem b (Finset.mem_range.2 hb) (fun a _ hne => by simp [hne])]
  by_cases h : b = b'
  · simp only [h, if_true, mul_one, one_mul]; rw [l3]; ring
  · simp [h]

theorem window_shift (psi : State K) {p q : Int} (h : p % 2 = q % 2) (n : Nat) : window psi p n = window psi q n := by
  unfold window siteT
  exact List.map_congr_left fun k _ => by rw [matrix_shift psi h, rightVector_shift psi h]

theorem winDims_shift (psi : State K) {p q : Int} (h : p % 2 = q % 2) (n : Nat) : winDims psi p n = winDims psi q n := by
  unfold winDims
  exact List.map_congr_left fun k _ => by rw [matrix_shift psi h]

theorem matrix_parity (psi : State K) {p q : Int} (h : p % 2 = q % 2) : psi.matrix p = psi.matrix q := by
  have := matrix_shift psi h 0
  simpa using this

theorem RightFixed.shift {psi : State K} {p q : Int} (h : p % 2 = q % 2) {m : Nat} {η : K} (hf : RightFixed psi p m η) :
    RightFixed psi q m η := by
  unfold RightFixed at *
  rw [← matrix_parity psi h, ← window_shift psi h, ← winDims_shift psi h, ← matrix_parity psi (p := p + m) (q := q + m) (by omega)]
  exact hf

theorem LeftFixed.shift {psi : State K} {p q : Int} (h : p % 2 = q % 2) {m : Nat} {η : K} (hf : LeftFixed psi p m η) :
    LeftFixed psi q m η := by
  unfold LeftFixed winAmp at *
  rw [← matrix_parity psi h, ← window_shift psi h, ← winDims_shift psi h, ← matrix_parity psi (p := p + m) (q := q + m) (by omega),
    ← leftVector_shift psi h, ← leftVector_shift psi (p := p + m) (q := q + m) (by omega)]
  exact hf

/-- repeated cells -/
theorem RightFixed.cells {psi : State K} (h : Ok psi) {p : Int} {η : K} (hf : RightFixed psi p 2 η) (m : Nat) :
    ∀ q : Int, p % 2 = q % 2 → RightFixed psi q (2 * m) (η ^ m) := by
  induction m with
  | zero => intro q _; simpa using RightFixed.none psi q
  | succ m ih =>
    intro q hq
    have := RightFixed.add h (hf.shift hq) (ih (q + (2 : Nat)) (by omega))
    rw [show 2 * (m + 1) = 2 + 2 * m by ring, pow_succ']
    exact this

theorem LeftFixed.cells {psi : State K} (h : Ok psi) {p : Int} {η : K} (hf : LeftFixed psi p 2 η) (m : Nat) :
    ∀ q : Int, p % 2 = q % 2 → LeftFixed psi q (2 * m) (η ^ m) := by
  induction m with
  | zero => intro q _; simpa using LeftFixed.none h q
  | succ m ih =>
    intro q hq
    have := LeftFixed.add h (hf.shift hq) (ih (q + (2 : Nat)) (by omega))
    rw [show 2 * (m + 1) = 2 + 2 * m by ring, pow_succ']
    exact this

/-- a larger window multiplies everything by the same factor -/
theorem winForm_widen {psi : State K} (h : Ok psi) (p : Int) (l n r : Nat) {ηl ηr : K} (hl : LeftFixed psi p l ηl)
    (hr : RightFixed psi (p + l + n) r ηr) (O : List Nat → List Nat → K) :
    winForm psi p (l + n + r) (widen l n O) = ηr * ηl * winForm psi (p + l) n O := by
  rw [winForm_right h p (l + n) r (O := widen l n O) (η := ηr)
    (by rw [show p + ((l + n : Nat) : Int) = p + l + n by push_cast; ring]; exact hr), mul_assoc]
  · congr 1
    refine winForm_left h p n l hl ?_
    intro s t hs ht s' t' hs' ht'
    have e1 : s.length = l := by rw [hs.length_eq, winDims_length]
    have e2 : t.length = l := by rw [ht.length_eq, winDims_length]
    have e3 : s'.length = n := by rw [hs'.length_eq, winDims_length]
    have e4 : t'.length = n := by rw [ht'.length_eq, winDims_length]
    unfold widen
    rw [List.take_append_of_le_length (by omega), List.take_append_of_le_length (by omega), List.take_of_length_le (by omega),
      List.take_of_length_le (by omega), List.drop_of_length_le (by simp; omega), List.drop_of_length_le (by simp; omega),
      List.drop_left' e1, List.drop_left' e2, List.take_of_length_le (by omega), List.take_of_length_le (by omega)]
    by_cases hst : s = t
    · simp [hst]
    · simp [hst]
  · intro s t hs ht s' t' hs' ht'
    have e1 : s.length = l + n := by rw [hs.length_eq, winDims_length]
    have e2 : t.length = l + n := by rw [ht.length_eq, winDims_length]
    unfold widen
    rw [List.take_append_of_le_length (by omega), List.take_append_of_le_length (by omega), List.drop_left' e1, List.drop_left' e2,
      List.drop_of_length_le (by omega : s.length ≤ l + n), List.drop_of_length_le (by omega : t.length ≤ l + n),
      List.drop_append_of_le_length (by omega), List.drop_append_of_le_length (by omega),
      List.take_append_of_le_length (by simp; omega), List.take_append_of_le_length (by simp; omega)]
    by_cases hst : s' = t'
    · simp [hst]
    · simp [hst]

theorem widen_one (psi : State K) (p : Int) (l n r : Nat) : ∀ s, IsCfg (winDims psi p (l + n + r)) s → ∀ t,
    IsCfg (winDims psi p (l + n + r)) t → widen l n (oneElt (K := K)) s t = oneElt s t := by
  intro s hs t ht
  unfold widen oneElt
  by_cases hst : s = t
  · simp [hst]
  · rw [if_neg hst]
    by_cases h1 : s.take l = t.take l ∧ s.drop (l + n) = t.drop (l + n)
    · rw [if_pos h1, if_neg]
      intro h2
      apply hst
      rw [← List.take_append_drop l s, ← List.take_append_drop l t, ← List.take_append_drop n (s.drop l), ← List.take_append_drop n (t.drop l),
        List.drop_drop, List.drop_drop, h1.1, h1.2, h2]
    · rw [if_neg h1]

/-- expected values do not change in a larger window -/
theorem winValue_widen {psi : State K} (h : Ok psi) (p : Int) (l n r : Nat) {ηl ηr : K} (hl : LeftFixed psi p l ηl)
    (hr : RightFixed psi (p + l + n) r ηr) (hl0 : ηl ≠ 0) (hr0 : ηr ≠ 0) (O : List Nat → List Nat → K) :
    winValue psi p (l + n + r) (widen l n O) = winValue psi (p + l) n O := by
  unfold winValue
  rw [← winForm_congr psi p (l + n + r) (widen_one psi p l n r), winForm_widen h p l n r hl hr, winForm_widen h p l n r hl hr,
    mul_div_mul_left _ _ (mul_ne_zero hr0 hl0)]

theorem siteOps_append {p : Int} {n m : Nat} {f : Int → Tensor K} {s t s' t' : List Nat} (hs : s.length = n) (ht : t.length = n) :
    siteOps p (n + m) f (s ++ s') (t ++ t') = siteOps p n f s t * siteOps (p + n) m f s' t' := by
  unfold siteOps tensorOp
  rw [Finset.prod_range_add]
  congr 1
  · refine Finset.prod_congr rfl fun k hk => ?_
    have hk := Finset.mem_range.1 hk
    rw [List.getD_append _ _ _ _ (by omega), List.getD_append _ _ _ _ (by omega)]
  · refine Finset.prod_congr rfl fun k hk => ?_
    rw [List.getD_append_right _ _ _ _ (by omega), List.getD_append_right _ _ _ _ (by omega), hs, ht,
      show n + k - n = k by omega]
    push_cast
    rw [add_assoc]

/-- a product of one-site operators which is the identity outside of a window -/
theorem siteOps_widen {psi : State K} (h : Ok psi) (p : Int) (l n r : Nat) {f : Int → Tensor K}
    (h1 : ∀ k, p ≤ k → k < p + l → f k = ones psi k) (h2 : ∀ k, p + l + n ≤ k → k < p + l + n + r → f k = ones psi k) :
    ∀ s, IsCfg (winDims psi p (l + n + r)) s → ∀ t, IsCfg (winDims psi p (l + n + r)) t →
      siteOps p (l + n + r) f s t = widen l n (siteOps (p + l) n f) s t := by
  intro s hs t ht
  rw [winDims_add, winDims_add] at hs ht
  obtain ⟨s12, s3, rfl, hs12, hs3⟩ := isCfg_split hs
  obtain ⟨t12, t3, rfl, ht12, ht3⟩ := isCfg_split ht
  obtain ⟨s1, s2, rfl, hs1, hs2⟩ := isCfg_split hs12
  obtain ⟨t1, t2, rfl, ht1, ht2⟩ := isCfg_split ht12
  have e1 : s1.length = l := by rw [hs1.length_eq, winDims_length]
  have e2 : t1.length = l := by rw [ht1.length_eq, winDims_length]
  have e3 : s2.length = n := by rw [hs2.length_eq, winDims_length]
  have e4 : t2.length = n := by rw [ht2.length_eq, winDims_length]
  rw [siteOps_append (by simp; omega) (by simp; omega), siteOps_append e1 e2]
  have a1 : siteOps p l f s1 t1 = oneElt s1 t1 := by
    rw [← siteOps_ones h hs1 ht1]
    have := siteOps_congr (K := K) (p := p) (q := p) (n := l) (f := f) (g := ones psi) fun k hk => h1 _ (by omega) (by omega)
    rw [this]
  have a2 : siteOps (p + (l + n : Nat)) r f s3 t3 = oneElt s3 t3 := by
    rw [← siteOps_ones h hs3 ht3]
    have := siteOps_congr (K := K) (p := p + (l + n : Nat)) (q := p + (l + n : Nat)) (n := r) (f := f) (g := ones psi)
      fun k hk => h2 _ (by push_cast; omega) (by push_cast; omega)
    rw [this]
  rw [a1, a2]
  unfold widen oneElt
  rw [List.append_assoc, List.append_assoc, List.take_left' e1, List.take_left' e2, List.drop_left' e1, List.drop_left' e2,
    List.take_left' e3, List.take_left' e4, ← List.append_assoc, ← List.append_assoc, List.drop_left' (by simp; omega),
    List.drop_left' (by simp; omega)]
  by_cases x1 : s1 = t1
  · by_cases x2 : s3 = t3
    · simp [x1, x2]
    · simp [x1, x2]
  · simp [x1]

theorem RightCanonical.block {psi : State K} (h : Ok psi) (hc : RightCanonical psi) (m : Nat) : ∀ p, RightFixed psi p m 1 := by
  induction m with
  | zero => exact fun p => RightFixed.none psi p
  | succ m ih =>
    intro p
    have := RightFixed.add h (ih p) (hc (p + m))
    rwa [one_mul] at this

theorem LeftCanonical.block {psi : State K} (h : Ok psi) (hc : LeftCanonical psi) (m : Nat) : ∀ p, LeftFixed psi p m 1 := by
  induction m with
  | zero => exact fun p => LeftFixed.none h p
  | succ m ih =>
    intro p
    have := LeftFixed.add h (ih p) (hc (p + m))
    rwa [one_mul] at this

theorem widen_widen {a k m n N : Nat} (O : List Nat → List Nat → K) (hkm : k + m ≤ n) {s t : List Nat} (hs : s.length = N) (ht : t.length = N) :
    widen a n (widen k m O) s t = widen (a + k) m O s t := by
  unfold widen
  have e : ∀ x : List Nat, (((x.drop a).take n).drop k).take m = (x.drop (a + k)).take m := by
    intro x
    rw [List.drop_take, List.drop_drop, List.take_take, min_eq_left (by omega)]
  have e1 : ∀ x : List Nat, ((x.drop a).take n).take k = (x.drop a).take k := by
    intro x
    rw [List.take_take, min_eq_left (by omega)]
  have e2 : ∀ x : List Nat, ((x.drop a).take n).drop (k + m) = (x.drop (a + (k + m))).take (n - (k + m)) := by
    intro x
    rw [List.drop_take, List.drop_drop]
  rw [e, e, e1, e1, e2, e2]
  by_cases hc : s.take (a + k) = t.take (a + k) ∧ s.drop (a + k + m) = t.drop (a + k + m)
  · rw [if_pos hc]
    have h1 : s.take a = t.take a := by
      have := congrArg (List.take a) hc.1
      rwa [List.take_take, List.take_take, min_eq_left (by omega)] at this
    have h2 : s.drop (a + n) = t.drop (a + n) := by
      have := congrArg (List.drop (a + n - (a + k + m))) hc.2
      rwa [List.drop_drop, List.drop_drop, show a + k + m + (a + n - (a + k + m)) = a + n by omega] at this
    have h3 : (s.drop a).take k = (t.drop a).take k := by
      have := congrArg (List.drop a) hc.1
      rwa [List.drop_take, List.drop_take, show a + k - a = k by omega] at this
    rw [if_pos ⟨h1, h2⟩, if_pos ⟨h3, by rw [← add_assoc, hc.2]⟩]
  · rw [if_neg hc]
    by_cases h1 : s.take a = t.take a ∧ s.drop (a + n) = t.drop (a + n)
    · rw [if_pos h1, if_neg]
      rintro ⟨h3, h4⟩
      apply hc
      constructor
      · rw [List.take_add, List.take_add, h1.1, h3]
      · rw [← List.take_append_drop (n - (k + m)) (s.drop (a + k + m)), ← List.take_append_drop (n - (k + m)) (t.drop (a + k + m)),
          List.drop_drop, List.drop_drop, show a + k + m + (n - (k + m)) = a + n by omega, h1.2]
        rw [← add_assoc] at h4
        rw [h4]
    · rw [if_neg h1]

theorem winValue_congr (psi : State K) (p : Int) (n : Nat) {O O' : List Nat → List Nat → K}
    (h : ∀ s, IsCfg (winDims psi p n) s → ∀ t, IsCfg (winDims psi p n) t → O s t = O' s t) : winValue psi p n O = winValue psi p n O' := by
  unfold winValue
  rw [winForm_congr psi p n h]

theorem winValue_shift (psi : State K) {p q : Int} (h : p % 2 = q % 2) (n : Nat) (O : List Nat → List Nat → K) :
    winValue psi p n O = winValue psi q n O := by
  unfold winValue
  rw [winForm_shift psi h, winForm_shift psi h]

/-- windows whose states are multiples of basis states -/
theorem winForm_basis (psi : State K) (p : Int) (n : Nat) (O : List Nat → List Nat → K) (c : Nat → Nat → K) (σ : Nat → Nat → List Nat)
    (h : ∀ a < (psi.matrix p).dim 0, ∀ b < (psi.matrix (p + n)).dim 0, IsCfg (winDims psi p n) (σ a b) ∧
      ∀ s, IsCfg (winDims psi p n) s → winAmp psi p n a b s = if σ a b = s then c a b else 0) :
    winForm psi p n O = ∑ a ∈ Finset.range ((psi.matrix p).dim 0), ∑ b ∈ Finset.range ((psi.matrix (p + n)).dim 0),
      star (c a b) * O (σ a b) (σ a b) * c a b := by
  unfold winForm
  refine Finset.sum_congr rfl fun a ha => Finset.sum_congr rfl fun b hb => ?_
  obtain ⟨hc, hs⟩ := h a (Finset.mem_range.1 ha) b (Finset.mem_range.1 hb)
  unfold MPS.inner actOp
  rw [sumCfg_congr (G := fun s => if σ a b = s then star (c a b) * (O s (σ a b) * c a b) else 0) fun s h1 => by
    rw [hs s h1, sumCfg_congr (G := fun t => if σ a b = t then O s t * c a b else 0) fun t h2 => by
      rw [hs t h2]; split <;> simp]
    rw [sumCfg_pick _ (fun t => O s t * c a b) hc]
    split <;> simp]
  rw [sumCfg_pick _ (fun s => star (c a b) * (O s (σ a b) * c a b)) hc, mul_assoc]

/-- in a canonical state all windows which contain the operator agree -/
theorem winExpect_any {psi : State K} (h : Ok psi) (hr : RightCanonical psi) (hl : LeftCanonical psi) {p q : Int} {n m : Nat}
    {f : Int → Tensor K} (hq : p ≤ q) (hm : q + m ≤ p + n) (hf : ∀ k, k < q ∨ q + m ≤ k → f k = ones psi k) :
    winExpect psi p n f = winExpect psi q m f := by
  obtain ⟨l, rfl⟩ : ∃ l : Nat, q = p + l := ⟨(q - p).toNat, by omega⟩
  obtain ⟨r, rfl⟩ : ∃ r : Nat, n = l + m + r := ⟨n - (l + m), by omega⟩
  rw [winExpect_value h, winExpect_value h,
    winValue_congr psi p _ (siteOps_widen h p l m r (f := f) (fun k _ h2 => hf k (Or.inl h2)) (fun k h1 _ => hf k (Or.inr h1)))]
  exact winValue_widen h p l m r (hl.block h l p) (hr.block h r _) one_ne_zero one_ne_zero _

end MPS.ITebd
