import Verif.Props.HamProps4
import Verif.CanonLemmas
import Verif.SvdExists
import Verif.MPOCanonLemmas

/-!
# Properties C40 and C73: decomposition of two-site operators
-/

set_option linter.unusedSectionVars false
set_option linter.unusedSimpArgs false

namespace MPS.Props
open MPS Tensor
variable {K : Type} [RCLike K]

/-- singular values are not negative -/
def NonnegSvd (svd : Tensor K → SvdRes K) : Prop := ∀ A, ∀ x ∈ (svd A).s, 0 ≤ x

theorem wtt_weight (eps dflt : ℝ) (s : List ℝ) (tol : ℝ) (hd : 0 ≤ dflt) (ht : effTol dflt tol < 1) :
    discarded s (whereToTruncate eps dflt s tol 0) ≤ max (effTol dflt tol) eps * discarded s 0 := by
  have key : ∀ t, 0 ≤ t → t < 1 → discarded s (whereToTruncate eps dflt s t 0) ≤ max t eps * discarded s 0 := by
    intro t h0 h1
    obtain ⟨c1, _, _, c4, c5, _⟩ := C18_truncate eps dflt s t h0 0
    have hM : (if 0 < (0 : Int) ∧ (0 : Int) < s.length then (0 : Int).toNat else s.length) = s.length := by simp
    rw [hM] at c4 c5
    have hnn : 0 ≤ max t eps * discarded s 0 := mul_nonneg (le_max_of_le_left h0) (discarded_nonneg s 0)
    rcases Nat.lt_or_ge (whereToTruncate eps dflt s t 0) s.length with hl | hl
    · rcases eq_or_lt_of_le h0 with h | h
      · have := c4 h.symm hl
        have hz : discarded s (whereToTruncate eps dflt s t 0) = 0 := by
          unfold discarded
          refine Finset.sum_eq_zero fun j hj => ?_
          obtain ⟨a, b⟩ := Finset.mem_Ico.1 hj
          rw [this j a b]; simp
        rw [hz]; exact hnn
      · exact c5 h h1 hl
    · have : discarded s (whereToTruncate eps dflt s t 0) = 0 := by
        unfold discarded; rw [Finset.Ico_eq_empty (by omega)]; simp
      rw [this]; exact hnn
  unfold effTol at ht ⊢
  split
  · rename_i h; rw [if_pos h] at ht; rw [C18_default eps dflt s tol h hd]; exact key dflt hd ht
  · rename_i h; rw [if_neg h] at ht; exact key tol (not_lt.1 h) ht

theorem vecNorm_take (s : List ℝ) {c : Nat} (hc : c ≤ s.length) :
    vecNorm (s.take c) ^ 2 = ∑ k ∈ Finset.range c, s.getD k 0 ^ 2 := by
  unfold vecNorm
  rw [Real.sq_sqrt (List.sum_nonneg (by intro x hx; obtain ⟨y, _, rfl⟩ := List.mem_map.1 hx; exact sq_nonneg y))]
  have key : ∀ (l : List ℝ), (l.map fun x => x ^ 2).sum = ∑ k ∈ Finset.range l.length, l.getD k 0 ^ 2 := by
    intro l
    induction l with
    | nil => simp
    | cons a l ih => rw [List.map_cons, List.sum_cons, ih, List.length_cons, Finset.sum_range_succ']; simp [add_comm]
  rw [key, List.length_take, min_eq_left hc]
  refine Finset.sum_congr rfl fun k hk => ?_
  have := Finset.mem_range.1 hk
  simp [List.getElem?_take, this]

theorem discarded_split (s : List ℝ) {c : Nat} (hc : c ≤ s.length) :
    discarded s 0 = ∑ k ∈ Finset.range c, s.getD k 0 ^ 2 + discarded s c := by
  unfold discarded
  rw [Finset.range_eq_Ico, Finset.sum_Ico_consecutive _ (Nat.zero_le _) hc]

/-- norm of a truncated decomposition -/
theorem IsSVD_norm {A : Tensor K} {m n : Nat} {r : SvdRes K} (h : IsSVD A m n r) {c : Nat} (hc : c ≤ min m n) :
    ∑ i ∈ Finset.range m, ∑ j ∈ Finset.range n,
      ‖∑ k ∈ Finset.range c, r.U.get [i, k] * ((r.s.getD k 0 : ℝ) : K) * r.V.get [k, j]‖ ^ 2
      = ∑ k ∈ Finset.range c, r.s.getD k 0 ^ 2 := by
  let B : Tensor K := ⟨[m, n], fun x => ∑ k ∈ Finset.range c, r.U.get [x.getD 0 0, k] * ((r.s.getD k 0 : ℝ) : K) * r.V.get [k, x.getD 1 0]⟩
  let s' : List ℝ := (List.range (min m n)).map fun k => if k < c then r.s.getD k 0 else 0
  have hs' : ∀ k, k < min m n → s'.getD k 0 = if k < c then r.s.getD k 0 else 0 := by
    intro k hk
    simp only [s']
    rw [List.getD_eq_getElem _ _ (by simpa using hk)]
    simp
  have hB : IsSVD B m n ⟨r.U, s', r.V⟩ := by
    refine ⟨h.dimsU, by simp [s'], h.dimsV, ?_, h.isoU, h.isoV⟩
    intro i j hi hj
    simp only [B]
    rw [← Finset.sum_range_add_sum_Ico _ hc]
    have e2 : ∑ k ∈ Finset.Ico c (min m n), r.U.get [i, k] * ((s'.getD k 0 : ℝ) : K) * r.V.get [k, j] = 0 := by
      refine Finset.sum_eq_zero fun k hk => ?_
      obtain ⟨a, b⟩ := Finset.mem_Ico.1 hk
      rw [hs' k b, if_neg (by omega)]; simp
    rw [e2, add_zero]
    refine Finset.sum_congr rfl fun k hk => ?_
    have := Finset.mem_range.1 hk
    rw [hs' k (by omega), if_pos this]
    simp
  have := hB.error (Nat.zero_le _)
  simp only [Finset.range_zero, Finset.sum_empty, sub_zero] at this
  have e3 : discarded s' 0 = ∑ k ∈ Finset.range c, r.s.getD k 0 ^ 2 := by
    have hl : s'.length = min m n := by simp [s']
    unfold discarded
    rw [hl, ← Finset.range_eq_Ico, ← Finset.sum_range_add_sum_Ico _ hc]
    rw [Finset.sum_eq_zero (s := Finset.Ico c (min m n)), add_zero]
    · refine Finset.sum_congr rfl fun k hk => ?_
      have := Finset.mem_range.1 hk
      rw [hs' k (by omega), if_pos this]
    · intro k hk
      obtain ⟨a, b⟩ := Finset.mem_Ico.1 hk
      rw [hs' k b, if_neg (by omega)]; simp
  rw [← e3, ← this]
  simp [B]

/-- everything about `limited_svd(A, &U, &V, tol)` of a non-zero matrix -/
theorem limitedSvd_core {svd : Tensor K → SvdRes K} (hg : GoodSvd svd) (hn : NonnegSvd svd) {eps dflt : ℝ} (hd : 0 ≤ dflt)
    (tol : ℝ) (ht : max (effTol dflt tol) eps < 1) {A : Tensor K} {m n : Nat} (hA : A.dims = [m, n]) (hm : 0 < m)
    (hn' : 0 < n) (hne : ∃ i j, i < m ∧ j < n ∧ A.get [i, j] ≠ 0) :
    let L := limitedSvd svd eps dflt A tol
    0 < L.s.length ∧ L.U.dims = [m, L.s.length] ∧ L.V.dims = [L.s.length, n] ∧ (∀ x ∈ L.s, 0 ≤ x) ∧
    (∃ ρ : ℝ, 0 < ρ ∧ ∑ i ∈ Finset.range m, ∑ j ∈ Finset.range n, ‖A.get [i, j] - (ρ : K) *
        ∑ k ∈ Finset.range L.s.length, L.U.get [i, k] * ((L.s.getD k 0 : ℝ) : K) * L.V.get [k, j]‖ ^ 2
      ≤ max (effTol dflt tol) eps * ∑ i ∈ Finset.range m, ∑ j ∈ Finset.range n, ‖A.get [i, j]‖ ^ 2) ∧
    ∑ i ∈ Finset.range m, ∑ j ∈ Finset.range n,
      ‖∑ k ∈ Finset.range L.s.length, L.U.get [i, k] * ((L.s.getD k 0 : ℝ) : K) * L.V.get [k, j]‖ ^ 2 = 1 := by
  intro L
  have hS := hg A m n hA hm hn'
  set r := svd A with hr
  set c := whereToTruncate eps dflt r.s tol 0 with hc
  have hcl : c ≤ r.s.length := wtt_le eps dflt r.s tol 0 hd
  have hcm : c ≤ min m n := by rw [← hS.lenS]; exact hcl
  have hw : discarded r.s c ≤ max (effTol dflt tol) eps * discarded r.s 0 :=
    wtt_weight eps dflt r.s tol hd (lt_of_le_of_lt (le_max_left _ _) ht)
  have hnorm : ∑ i ∈ Finset.range m, ∑ j ∈ Finset.range n, ‖A.get [i, j]‖ ^ 2 = discarded r.s 0 := by
    have := hS.error (Nat.zero_le _)
    simpa using this
  have hpos : 0 < discarded r.s 0 := by
    rw [← hnorm]
    obtain ⟨i, j, hi, hj, h⟩ := hne
    refine Finset.sum_pos' (fun _ _ => Finset.sum_nonneg fun _ _ => by positivity) ⟨i, Finset.mem_range.2 hi, ?_⟩
    refine Finset.sum_pos' (fun _ _ => by positivity) ⟨j, Finset.mem_range.2 hj, ?_⟩
    have : 0 < ‖A.get [i, j]‖ := norm_pos_iff.2 h
    positivity
  set ρ := vecNorm (r.s.take c) with hρ
  have hρ2 : ρ ^ 2 = ∑ k ∈ Finset.range c, r.s.getD k 0 ^ 2 := vecNorm_take r.s hcl
  have hρpos : 0 < ρ := by
    have h1 := discarded_split r.s hcl
    have h2 : 0 < ρ ^ 2 := by
      rw [hρ2]
      nlinarith
    have h3 : 0 ≤ ρ := Real.sqrt_nonneg _
    exact lt_of_le_of_ne h3 (fun h => by rw [← h] at h2; simp at h2)
  have hc0 : 0 < c := by
    by_contra h
    have h0 : c = 0 := by omega
    rw [h0] at hρ2
    simp at hρ2
    exact hρpos.ne' hρ2
  have hLs : L.s = (r.s.take c).map fun x => x / ρ := rfl
  have hlen : L.s.length = c := by rw [hLs]; simp [hcl]
  have hLU : L.U = changeDim r.U 1 c := rfl
  have hLV : L.V = changeDim r.V 0 c := rfl
  have gU : ∀ i k, k < c → L.U.get [i, k] = r.U.get [i, k] := by
    intro i k hk
    rw [hLU]
    have : k < m ∧ k < n := by omega
    simp [changeDim, hS.dimsU, this]
  have gV : ∀ k j, k < c → L.V.get [k, j] = r.V.get [k, j] := by
    intro k j hk
    rw [hLV]
    have : k < m ∧ k < n := by omega
    simp [changeDim, hS.dimsV, this]
  have gs : ∀ k, k < c → L.s.getD k 0 = r.s.getD k 0 / ρ := by
    intro k hk
    have : k < r.s.length := by omega
    rw [hLs]
    rw [List.getD_eq_getElem _ _ (by simp; omega), List.getD_eq_getElem _ _ this]
    simp
  have hsum : ∀ i j, ∑ k ∈ Finset.range c, L.U.get [i, k] * ((L.s.getD k 0 : ℝ) : K) * L.V.get [k, j]
      = ((ρ⁻¹ : ℝ) : K) * ∑ k ∈ Finset.range c, r.U.get [i, k] * ((r.s.getD k 0 : ℝ) : K) * r.V.get [k, j] := by
    intro i j
    rw [Finset.mul_sum]
    refine Finset.sum_congr rfl fun k hk => ?_
    have hk := Finset.mem_range.1 hk
    rw [gU i k hk, gV k j hk, gs k hk, div_eq_inv_mul]
    push_cast
    ring
  have hρK : (ρ : K) * ((ρ⁻¹ : ℝ) : K) = 1 := by
    rw [← RCLike.ofReal_mul, mul_inv_cancel₀ hρpos.ne']; simp
  rw [hlen]
  refine ⟨hc0, ?_, ?_, ?_, ⟨ρ, hρpos, ?_⟩, ?_⟩
  · rw [hLU]; simp [changeDim, hS.dimsU]
  · rw [hLV]; simp [changeDim, hS.dimsV]
  · intro x hx
    rw [hLs] at hx
    obtain ⟨y, hy, rfl⟩ := List.mem_map.1 hx
    exact div_nonneg (hn A y (List.mem_of_mem_take hy)) hρpos.le
  · rw [hnorm]
    refine le_trans (le_of_eq ?_) hw
    rw [← hS.error hcm]
    refine Finset.sum_congr rfl fun i _ => Finset.sum_congr rfl fun j _ => ?_
    rw [hsum, ← mul_assoc, hρK, one_mul]
  · simp only [hsum, norm_mul, mul_pow]
    simp only [← Finset.mul_sum]
    rw [IsSVD_norm hS hcm, ← hρ2, RCLike.norm_ofReal, abs_of_pos (inv_pos.2 hρpos)]
    field_simp

/-! ### rearrangement -/

theorem rearrange_get {H : Tensor K} {d : Nat} (hH : H.dims = [d * d, d * d]) {i i' j j' : Nat} (hi : i < d) (hi' : i' < d)
    (hj : j < d) (hj' : j' < d) : (rearrange H d d).get [i + d * i', j + d * j'] = H.get [i + d * j, i' + d * j'] := by
  have e1 : (reshape H [d, d, d, d]).get [i, j, i', j'] = H.get [i + d * j, i' + d * j'] := by
    apply reshape_get
    · rw [hH]; simp [add_mul_lt hi hj, add_mul_lt hi' hj']
    · rw [hH]; simp only [flat]; ring
  rw [← e1]
  unfold rearrange
  have hp : (permute (reshape H [d, d, d, d]) 1 2).dims = [d, d, d, d] := by
    simp [permute, swapIdx]
  have hp2 : (permute (reshape H [d, d, d, d]) 1 2).get [i, i', j, j'] = (reshape H [d, d, d, d]).get [i, j, i', j'] := by
    simp [permute, swapIdx]
  rw [← hp2]
  apply reshape_get
  · rw [hp]; simp [hi, hi', hj, hj']
  · rw [hp]; simp only [flat]; ring

theorem sum_swap_outer (d : Nat) (f : Nat → Nat → Nat → Nat → ℝ) :
    ∑ a ∈ Finset.range d, ∑ b ∈ Finset.range d, ∑ c ∈ Finset.range d, ∑ e ∈ Finset.range d, f a b c e
      = ∑ e ∈ Finset.range d, ∑ b ∈ Finset.range d, ∑ c ∈ Finset.range d, ∑ a ∈ Finset.range d, f a b c e := by
  rw [Finset.sum_comm]
  conv_rhs => rw [Finset.sum_comm]
  refine Finset.sum_congr rfl fun b _ => ?_
  rw [Finset.sum_comm]
  conv_rhs => rw [Finset.sum_comm]
  refine Finset.sum_congr rfl fun c _ => ?_
  rw [Finset.sum_comm]

/-- sums over both indices of a matrix and of its rearrangement -/
theorem rearrange_sum (d : Nat) (F : Nat → Nat → ℝ) (G : Nat → Nat → ℝ)
    (h : ∀ i i' j j', i < d → i' < d → j < d → j' < d → F (i + d * j) (i' + d * j') = G (i + d * i') (j + d * j')) :
    ∑ x ∈ Finset.range (d * d), ∑ y ∈ Finset.range (d * d), F x y
      = ∑ x ∈ Finset.range (d * d), ∑ y ∈ Finset.range (d * d), G x y := by
  simp only [sum_range_mul d d]
  have e1 : ∑ j ∈ Finset.range d, ∑ i ∈ Finset.range d, ∑ j' ∈ Finset.range d, ∑ i' ∈ Finset.range d, F (i + d * j) (i' + d * j')
      = ∑ j ∈ Finset.range d, ∑ i ∈ Finset.range d, ∑ j' ∈ Finset.range d, ∑ i' ∈ Finset.range d, G (i + d * i') (j + d * j') := by
    refine Finset.sum_congr rfl fun j hj => Finset.sum_congr rfl fun i hi => Finset.sum_congr rfl fun j' hj' =>
      Finset.sum_congr rfl fun i' hi' => ?_
    simp only [Finset.mem_range] at hj hi hj' hi'
    exact h i i' j j' hi hi' hj hj'
  rw [e1]
  exact sum_swap_outer d fun j i j' i' => G (i + d * i') (j + d * j')

/-! ### decompose_operator -/

/-- squared Frobenius norm of an `n × n` matrix -/
noncomputable def frob2 (n : Nat) (X : Nat → Nat → K) : ℝ :=
  ∑ x ∈ Finset.range n, ∑ y ∈ Finset.range n, ‖X x y‖ ^ 2

/-- entry of the sum over `k` of the tensor products of the `k`-th operators of two stacks -/
def stackSum (n : Nat) (O1 O2 : Tensor K) (x y : Nat) : K :=
  ∑ k ∈ Finset.range n, (kron2 (sliceLast O1 k) (sliceLast O2 k)).get [x, y]

theorem sqrt_twice {x : ℝ} (h : 0 ≤ x) : ((Real.sqrt x : ℝ) : K) * ((Real.sqrt x : ℝ) : K) = ((x : ℝ) : K) := by
  rw [← RCLike.ofReal_mul, Real.mul_self_sqrt h]

theorem vecOf_get (s : List ℝ) (k : Nat) : (vecOf s : Tensor K).get [k] = ((s.getD k 0 : ℝ) : K) := rfl

theorem map_sqrt_getD (s : List ℝ) (k : Nat) : (s.map Real.sqrt).getD k 0 = Real.sqrt (s.getD k 0) := by
  by_cases h : k < s.length
  · simp [h]
  · simp [h]

theorem rearrange_ne {H : Tensor K} {d : Nat} (hH : H.dims = [d * d, d * d])
    (hne : ∃ x y, x < d * d ∧ y < d * d ∧ H.get [x, y] ≠ 0) :
    ∃ x y, x < d * d ∧ y < d * d ∧ (rearrange H d d).get [x, y] ≠ 0 := by
  obtain ⟨x, y, hx, hy, h⟩ := hne
  have hd : 0 < d := by
    rcases Nat.eq_zero_or_pos d with h | h
    · subst h; simp at hx
    · exact h
  have hx1 := Nat.mod_lt x hd
  have hy1 := Nat.mod_lt y hd
  have hx2 : x / d < d := Nat.div_lt_of_lt_mul hx
  have hy2 : y / d < d := Nat.div_lt_of_lt_mul hy
  refine ⟨x % d + d * (y % d), x / d + d * (y / d), add_mul_lt hx1 hy1, add_mul_lt hx2 hy2, ?_⟩
  rw [rearrange_get hH hx1 hy1 hx2 hy2, Nat.mod_add_div, Nat.mod_add_div]
  exact h

theorem decompose_core {svd : Tensor K → SvdRes K} (hg : GoodSvd svd) (hn : NonnegSvd svd) {eps dflt : ℝ} (hd0 : 0 ≤ dflt)
    (ht : max dflt eps < 1) {H : Tensor K} {d : Nat} (hH : H.dims = [d * d, d * d])
    (hne : ∃ x y, x < d * d ∧ y < d * d ∧ H.get [x, y] ≠ 0) :
    let L := limitedSvd svd eps dflt (rearrange H d d) (-4)
    ∃ O1 O2, decomposeOperator svd eps dflt H = some (O1, O2) ∧ O1.dims = [d, d, L.s.length] ∧ O2.dims = [d, d, L.s.length] ∧
      ∀ i i' j j', i < d → i' < d → j < d → j' < d →
        stackSum L.s.length O1 O2 (i + d * j) (i' + d * j') =
          ∑ k ∈ Finset.range L.s.length, L.U.get [i + d * i', k] * ((L.s.getD k 0 : ℝ) : K) * L.V.get [k, j + d * j'] := by
  intro L
  have hdp : 0 < d * d := by obtain ⟨x, y, hx, _⟩ := hne; omega
  have ht' : max (effTol dflt (-4)) eps < 1 := by
    unfold effTol; rw [if_pos (by norm_num)]; exact ht
  obtain ⟨h1, h2, h3, h4, _⟩ := limitedSvd_core hg hn hd0 (-4) ht' (A := rearrange H d d) (m := d * d) (n := d * d) rfl hdp hdp
    (rearrange_ne hH hne)
  change 0 < L.s.length at h1
  change L.U.dims = [d * d, L.s.length] at h2
  change L.V.dims = [L.s.length, d * d] at h3
  change ∀ x ∈ L.s, 0 ≤ x at h4
  have hdim : H.dim 0 = d * d := by simp [dim, hH]
  have hdim1 : H.dim 1 = d * d := by simp [dim, hH]
  have hsq : Nat.sqrt (H.dim 0) = d := by rw [hdim, Nat.sqrt_eq]
  refine ⟨reshape (scale L.U (-1) (vecOf (L.s.map Real.sqrt))) [d, d, L.s.length],
    reshape (transpose (scale L.V 0 (vecOf (L.s.map Real.sqrt)))) [d, d, L.s.length], ?_, rfl, rfl, ?_⟩
  · unfold decomposeOperator
    simp only [hsq]
    rw [if_neg (by rw [hdim, hdim1]; simp), List.length_map]
  · intro i i' j j' hi hi' hj hj'
    refine Finset.sum_congr rfl fun k hk => ?_
    have hk := Finset.mem_range.1 hk
    have e1 : (reshape (scale L.U (-1) (vecOf (L.s.map Real.sqrt))) [d, d, L.s.length]).get [i, i', k]
        = L.U.get [i + d * i', k] * ((Real.sqrt (L.s.getD k 0) : ℝ) : K) := by
      rw [reshape_get (idx := [i + d * i', k])]
      · simp only [scale, h2, List.length_cons, List.length_nil, nrm_neg1]
        rw [← map_sqrt_getD, ← vecOf_get]
        rfl
      · simp [scale, h2, add_mul_lt hi hi', hk]
      · simp only [scale, h2, flat]; ring
    have e2 : (reshape (transpose (scale L.V 0 (vecOf (L.s.map Real.sqrt)))) [d, d, L.s.length]).get [j, j', k]
        = L.V.get [k, j + d * j'] * ((Real.sqrt (L.s.getD k 0) : ℝ) : K) := by
      have htd : (transpose (scale L.V 0 (vecOf (L.s.map Real.sqrt)))).dims = [d * d, L.s.length] := by
        simp [transpose, permute, scale, h3, swapIdx]
      rw [reshape_get (idx := [j + d * j', k])]
      · rw [← map_sqrt_getD, ← vecOf_get]
        simp [transpose, permute, scale, h3, swapIdx, nrm]
      · rw [htd]; simp [add_mul_lt hj hj', hk]
      · rw [htd]; simp only [flat]; ring
    rw [kron2_get (d := d) (by simp [sliceLast, dim, nrm]) hi hi']
    simp only [sliceLast, List.getD_cons_zero, List.getD_cons_succ]
    rw [e1, e2]
    have h5 : 0 ≤ L.s.getD k 0 := by
      rw [List.getD_eq_getElem _ _ hk]; exact h4 _ (List.getElem_mem hk)
    rw [← sqrt_twice h5]
    ring

/-- C73: `decompose_operator(H12, &O1, &O2)` of a non-zero operator on two equal sites returns two stacks of operators for
which the sum of the tensor products has Frobenius norm one and is, up to a positive factor and a relative error
governed by the truncation tolerance, the operator `H12`. -/
theorem C73_decompose_operator {svd : Tensor K → SvdRes K} (hg : GoodSvd svd) (hn : NonnegSvd svd) {eps dflt : ℝ}
    (hd0 : 0 ≤ dflt) (ht : max dflt eps < 1) {H : Tensor K} {d : Nat} (hH : H.dims = [d * d, d * d])
    (hne : ∃ x y, x < d * d ∧ y < d * d ∧ H.get [x, y] ≠ 0) :
    ∃ O1 O2 n, decomposeOperator svd eps dflt H = some (O1, O2) ∧ 0 < n ∧ O1.dims = [d, d, n] ∧ O2.dims = [d, d, n] ∧
      frob2 (d * d) (stackSum n O1 O2) = 1 ∧
      ∃ ρ : ℝ, 0 < ρ ∧ frob2 (d * d) (fun x y => H.get [x, y] - (ρ : K) * stackSum n O1 O2 x y)
        ≤ max dflt eps * frob2 (d * d) fun x y => H.get [x, y] := by
  have hdp : 0 < d * d := by obtain ⟨x, y, hx, _⟩ := hne; omega
  have he : effTol dflt (-4) = dflt := by unfold effTol; rw [if_pos (by norm_num)]
  obtain ⟨O1, O2, k1, k2, k3, k4⟩ := decompose_core hg hn hd0 ht hH hne
  obtain ⟨h1, h2, h3, h4, ⟨ρ, hρ, h5⟩, h6⟩ := limitedSvd_core hg hn hd0 (-4) (by rw [he]; exact ht) (A := rearrange H d d)
    (m := d * d) (n := d * d) rfl hdp hdp (rearrange_ne hH hne)
  rw [he] at h5
  refine ⟨O1, O2, _, k1, h1, k2, k3, ?_, ρ, hρ, ?_⟩
  · rw [← h6]
    exact rearrange_sum d _ _ fun i i' j j' hi hi' hj hj' => by rw [k4 i i' j j' hi hi' hj hj']
  · refine le_trans (le_of_eq ?_) (le_trans h5 (le_of_eq ?_))
    · exact rearrange_sum d _ _ fun i i' j j' hi hi' hj hj' => by
        beta_reduce
        rw [k4 i i' j j' hi hi' hj hj', rearrange_get hH hi hi' hj hj']
    · congr 1
      exact (rearrange_sum d (fun x y => ‖H.get [x, y]‖ ^ 2) _ fun i i' j j' hi hi' hj hj' => by
        rw [rearrange_get hH hi hi' hj hj']).symm

/-- C40: the sum of the tensor products is not `H12`, whenever `H12` has not Frobenius norm one. -/
theorem C40_decompose_violated {svd : Tensor K → SvdRes K} (hg : GoodSvd svd) (hn : NonnegSvd svd) {eps dflt : ℝ}
    (hd0 : 0 ≤ dflt) (ht : max dflt eps < 1) {H : Tensor K} {d : Nat} (hH : H.dims = [d * d, d * d])
    (hne : ∃ x y, x < d * d ∧ y < d * d ∧ H.get [x, y] ≠ 0) (hnorm : frob2 (d * d) (fun x y => H.get [x, y]) ≠ 1) :
    ∃ O1 O2 n, decomposeOperator svd eps dflt H = some (O1, O2) ∧ O1.dims = [d, d, n] ∧
      ∃ x y, x < d * d ∧ y < d * d ∧ stackSum n O1 O2 x y ≠ H.get [x, y] := by
  obtain ⟨O1, O2, n, k1, _, k2, _, k4, _⟩ := C73_decompose_operator hg hn hd0 ht hH hne
  refine ⟨O1, O2, n, k1, k2, ?_⟩
  by_contra hcon
  push Not at hcon
  apply hnorm
  rw [← k4]
  refine Finset.sum_congr rfl fun x hx => Finset.sum_congr rfl fun y hy => ?_
  rw [hcon x y (Finset.mem_range.1 hx) (Finset.mem_range.1 hy)]

/-- the hypotheses of `C40_decompose_violated` are met by the Heisenberg-like operator `σ_z ⊗ σ_z`, of norm two -/
theorem C40_decompose_witness : let H : Tensor ℝ := ⟨[2 * 2, 2 * 2], fun i => if i.getD 0 0 = i.getD 1 0 then
      (if i.getD 0 0 = 0 ∨ i.getD 0 0 = 3 then 1 else -1) else 0⟩
    (∃ svd : Tensor ℝ → SvdRes ℝ, GoodSvd svd ∧ NonnegSvd svd) ∧
    (∃ x y, x < 2 * 2 ∧ y < 2 * 2 ∧ H.get [x, y] ≠ 0) ∧ frob2 (2 * 2) (fun x y => H.get [x, y]) ≠ 1 := by
  refine ⟨exists_goodSvd_nonneg, ⟨0, 0, by norm_num, by norm_num, by simp⟩, ?_⟩
  simp [frob2, Finset.sum_range_succ]
  decide

/-! ### split_interaction -/

/-- entry of the sum of the tensor products of two lists of operators -/
def listSum (v1 v2 : List (Tensor K)) (x y : Nat) : K :=
  ∑ k ∈ Finset.range v1.length, (kron2 (v1.getD k Tensor.empty) (v2.getD k Tensor.empty)).get [x, y]

theorem split_core (svd : Tensor K → SvdRes K) (eps dflt : ℝ) {H : Tensor K} {d : Nat} (hH : H.dims = [d * d, d * d]) :
    let L := limitedSvd svd eps dflt (rearrange H d d) (1 / 10 ^ 13)
    let v := splitInteraction svd eps dflt H
    v.1.length = L.s.length ∧ v.2.length = L.s.length ∧
      (∀ k, k < L.s.length → (v.1.getD k Tensor.empty).dims = [d, d] ∧ (v.2.getD k Tensor.empty).dims = [d, d]) ∧
      ∀ i i' j j', i < d → i' < d → j < d → j' < d →
        listSum v.1 v.2 (i + d * j) (i' + d * j') =
          ∑ k ∈ Finset.range L.s.length, L.U.get [i + d * i', k] *
            (((Real.sqrt (L.s.getD k 0) : ℝ) : K) * ((Real.sqrt (L.s.getD k 0) : ℝ) : K)) * star (L.V.get [k, j + d * j']) := by
  intro L v
  have hsq : Nat.sqrt (H.dim 0) = d := by
    rw [show H.dim 0 = d * d by simp [dim, hH], Nat.sqrt_eq]
  have hv1 : v.1 = (List.range L.s.length).map fun i =>
      smul ((Real.sqrt (L.s.getD i 0) : ℝ) : K) (reshape ⟨[d * d], fun x => L.U.get [x.getD 0 0, i]⟩ [d, d]) := by
    simp only [v, splitInteraction, hsq, L]
  have hv2 : v.2 = (List.range L.s.length).map fun i =>
      conj (smul ((Real.sqrt (L.s.getD i 0) : ℝ) : K) (reshape ⟨[d * d], fun x => L.V.get [i, x.getD 0 0]⟩ [d, d])) := by
    simp only [v, splitInteraction, hsq, L]
  have g1 : ∀ k, k < L.s.length → v.1.getD k Tensor.empty =
      smul ((Real.sqrt (L.s.getD k 0) : ℝ) : K) (reshape ⟨[d * d], fun x => L.U.get [x.getD 0 0, k]⟩ [d, d]) := by
    intro k hk
    rw [hv1, List.getD_eq_getElem _ _ (by simpa using hk)]
    simp
  have g2 : ∀ k, k < L.s.length → v.2.getD k Tensor.empty =
      conj (smul ((Real.sqrt (L.s.getD k 0) : ℝ) : K) (reshape ⟨[d * d], fun x => L.V.get [k, x.getD 0 0]⟩ [d, d])) := by
    intro k hk
    rw [hv2, List.getD_eq_getElem _ _ (by simpa using hk)]
    simp
  have hl1 : v.1.length = L.s.length := by rw [hv1]; simp
  refine ⟨hl1, by rw [hv2]; simp, fun k hk => ?_, ?_⟩
  · rw [g1 k hk, g2 k hk]; exact ⟨rfl, rfl⟩
  · intro i i' j j' hi hi' hj hj'
    unfold listSum
    rw [hl1]
    refine Finset.sum_congr rfl fun k hk => ?_
    have hk := Finset.mem_range.1 hk
    rw [g1 k hk, g2 k hk, kron2_get (d := d) rfl hi hi']
    have e1 : (reshape (⟨[d * d], fun x => L.U.get [x.getD 0 0, k]⟩ : Tensor K) [d, d]).get [i, i'] = L.U.get [i + d * i', k] := by
      rw [reshape_get (idx := [i + d * i'])]
      · rfl
      · simp [add_mul_lt hi hi']
      · simp only [flat]; ring
    have e2 : (reshape (⟨[d * d], fun x => L.V.get [k, x.getD 0 0]⟩ : Tensor K) [d, d]).get [j, j'] = L.V.get [k, j + d * j'] := by
      rw [reshape_get (idx := [j + d * j'])]
      · rfl
      · simp [add_mul_lt hj hj']
      · simp only [flat]; ring
    simp only [smul, conj_get, e1, e2, star_mul', RCLike.star_def, RCLike.conj_ofReal]
    ring

theorem split_core_conj (svd : Tensor K → SvdRes K) (eps dflt : ℝ) {H : Tensor K} {d : Nat} (hH : H.dims = [d * d, d * d]) :
    let L := limitedSvd svd eps dflt (rearrange H d d) (1 / 10 ^ 13)
    let v := splitInteraction svd eps dflt H
    v.1.length = L.s.length ∧ v.2.length = L.s.length ∧
      (∀ k, k < L.s.length → (v.1.getD k Tensor.empty).dims = [d, d] ∧ (v.2.getD k Tensor.empty).dims = [d, d]) ∧
      ∀ i i' j j', i < d → i' < d → j < d → j' < d →
        listSum v.1 (v.2.map conj) (i + d * j) (i' + d * j') =
          ∑ k ∈ Finset.range L.s.length, L.U.get [i + d * i', k] *
            (((Real.sqrt (L.s.getD k 0) : ℝ) : K) * ((Real.sqrt (L.s.getD k 0) : ℝ) : K)) * L.V.get [k, j + d * j'] := by
  intro L v
  have hsq : Nat.sqrt (H.dim 0) = d := by
    rw [show H.dim 0 = d * d by simp [dim, hH], Nat.sqrt_eq]
  have hv1 : v.1 = (List.range L.s.length).map fun i =>
      smul ((Real.sqrt (L.s.getD i 0) : ℝ) : K) (reshape ⟨[d * d], fun x => L.U.get [x.getD 0 0, i]⟩ [d, d]) := by
    simp only [v, splitInteraction, hsq, L]
  have hv2 : v.2 = (List.range L.s.length).map fun i =>
      conj (smul ((Real.sqrt (L.s.getD i 0) : ℝ) : K) (reshape ⟨[d * d], fun x => L.V.get [i, x.getD 0 0]⟩ [d, d])) := by
    simp only [v, splitInteraction, hsq, L]
  have g1 : ∀ k, k < L.s.length → v.1.getD k Tensor.empty =
      smul ((Real.sqrt (L.s.getD k 0) : ℝ) : K) (reshape ⟨[d * d], fun x => L.U.get [x.getD 0 0, k]⟩ [d, d]) := by
    intro k hk
    rw [hv1, List.getD_eq_getElem _ _ (by simpa using hk)]
    simp
  have g2 : ∀ k, k < L.s.length → v.2.getD k Tensor.empty =
      conj (smul ((Real.sqrt (L.s.getD k 0) : ℝ) : K) (reshape ⟨[d * d], fun x => L.V.get [k, x.getD 0 0]⟩ [d, d])) := by
    intro k hk
    rw [hv2, List.getD_eq_getElem _ _ (by simpa using hk)]
    simp
  have hl1 : v.1.length = L.s.length := by rw [hv1]; simp
  refine ⟨hl1, by rw [hv2]; simp, fun k hk => ?_, ?_⟩
  · rw [g1 k hk, g2 k hk]; exact ⟨rfl, rfl⟩
  · intro i i' j j' hi hi' hj hj'
    unfold listSum
    rw [hl1]
    refine Finset.sum_congr rfl fun k hk => ?_
    have hk := Finset.mem_range.1 hk
    have g3 : (v.2.map conj).getD k Tensor.empty = conj (v.2.getD k Tensor.empty) := by
      have : k < v.2.length := by rw [hv2]; simpa using hk
      simp [this]
    rw [g3, g1 k hk, g2 k hk, kron2_get (d := d) rfl hi hi']
    have e1 : (reshape (⟨[d * d], fun x => L.U.get [x.getD 0 0, k]⟩ : Tensor K) [d, d]).get [i, i'] = L.U.get [i + d * i', k] := by
      rw [reshape_get (idx := [i + d * i'])]
      · rfl
      · simp [add_mul_lt hi hi']
      · simp only [flat]; ring
    have e2 : (reshape (⟨[d * d], fun x => L.V.get [k, x.getD 0 0]⟩ : Tensor K) [d, d]).get [j, j'] = L.V.get [k, j + d * j'] := by
      rw [reshape_get (idx := [j + d * j'])]
      · rfl
      · simp [add_mul_lt hj hj']
      · simp only [flat]; ring
    simp only [smul, conj_get, e1, e2, star_mul', star_star, RCLike.star_def, RCLike.conj_ofReal, RCLike.conj_conj]
    ring

/-- C73: `split_interaction(H12, &v1, &v2)`, provided that the matrix `V` of the singular value decomposition comes out real
(as for a real `H12`): the sum of the tensor products has norm one and is `H12` up to a positive factor and a relative
error governed by the tolerance. -/
theorem C73_split_interaction {svd : Tensor K → SvdRes K} (hg : GoodSvd svd) (hn : NonnegSvd svd) {eps dflt : ℝ}
    (hd0 : 0 ≤ dflt) (ht : eps < 1) {H : Tensor K} {d : Nat} (hH : H.dims = [d * d, d * d])
    (hne : ∃ x y, x < d * d ∧ y < d * d ∧ H.get [x, y] ≠ 0)
    (hreal : ∀ k y, star ((svd (rearrange H d d)).V.get [k, y]) = (svd (rearrange H d d)).V.get [k, y]) :
    let v := splitInteraction svd eps dflt H
    0 < v.1.length ∧ v.1.length = v.2.length ∧ frob2 (d * d) (listSum v.1 v.2) = 1 ∧
      ∃ ρ : ℝ, 0 < ρ ∧ frob2 (d * d) (fun x y => H.get [x, y] - (ρ : K) * listSum v.1 v.2 x y)
        ≤ max (1 / 10 ^ 13) eps * frob2 (d * d) fun x y => H.get [x, y] := by
  intro v
  have hdp : 0 < d * d := by obtain ⟨x, y, hx, _⟩ := hne; omega
  have he : effTol dflt (1 / 10 ^ 13) = 1 / 10 ^ 13 := by unfold effTol; rw [if_neg (by norm_num)]
  obtain ⟨k1, k2, _, k4⟩ := split_core svd eps dflt hH
  obtain ⟨h1, h2, h3, h4, ⟨ρ, hρ, h5⟩, h6⟩ := limitedSvd_core hg hn hd0 (1 / 10 ^ 13) (by rw [he]; exact max_lt (by norm_num) ht)
    (A := rearrange H d d) (m := d * d) (n := d * d) rfl hdp hdp (rearrange_ne hH hne)
  rw [he] at h5
  have hstar : ∀ k y, star ((limitedSvd svd eps dflt (rearrange H d d) (1 / 10 ^ 13)).V.get [k, y])
      = (limitedSvd svd eps dflt (rearrange H d d) (1 / 10 ^ 13)).V.get [k, y] := by
    intro k y
    simp only [limitedSvd, changeDim]
    split
    · exact hreal k y
    · simp
  have k5 : ∀ i i' j j', i < d → i' < d → j < d → j' < d → listSum v.1 v.2 (i + d * j) (i' + d * j') =
      ∑ k ∈ Finset.range (limitedSvd svd eps dflt (rearrange H d d) (1 / 10 ^ 13)).s.length,
        (limitedSvd svd eps dflt (rearrange H d d) (1 / 10 ^ 13)).U.get [i + d * i', k] *
          (((limitedSvd svd eps dflt (rearrange H d d) (1 / 10 ^ 13)).s.getD k 0 : ℝ) : K) *
          (limitedSvd svd eps dflt (rearrange H d d) (1 / 10 ^ 13)).V.get [k, j + d * j'] := by
    intro i i' j j' hi hi' hj hj'
    rw [k4 i i' j j' hi hi' hj hj']
    refine Finset.sum_congr rfl fun k hk => ?_
    have hk := Finset.mem_range.1 hk
    rw [hstar, sqrt_twice]
    rw [List.getD_eq_getElem _ _ hk]; exact h4 _ (List.getElem_mem hk)
  refine ⟨by rw [k1]; exact h1, by rw [k1, k2], ?_, ρ, hρ, ?_⟩
  · rw [← h6]
    exact rearrange_sum d _ _ fun i i' j j' hi hi' hj hj' => by rw [k5 i i' j j' hi hi' hj hj']
  · refine le_trans (le_of_eq ?_) (le_trans h5 (le_of_eq ?_))
    · exact rearrange_sum d _ _ fun i i' j j' hi hi' hj hj' => by
        beta_reduce
        rw [k5 i i' j j' hi hi' hj hj', rearrange_get hH hi hi' hj hj']
    · congr 1
      exact (rearrange_sum d (fun x y => ‖H.get [x, y]‖ ^ 2) _ fun i i' j j' hi hi' hj hj' => by
        rw [rearrange_get hH hi hi' hj hj']).symm

/-- C73: `split_interaction(H12, &v1, &v2)`: with the second factors complex conjugated, the
sum of the tensor products has norm one and is `H12` up to a positive factor and a relative
error governed by the tolerance. -/
theorem C73_split_conjugated {svd : Tensor K → SvdRes K} (hg : GoodSvd svd) (hn : NonnegSvd svd) {eps dflt : ℝ}
    (hd0 : 0 ≤ dflt) (ht : eps < 1) {H : Tensor K} {d : Nat} (hH : H.dims = [d * d, d * d])
    (hne : ∃ x y, x < d * d ∧ y < d * d ∧ H.get [x, y] ≠ 0) :
    let v := splitInteraction svd eps dflt H
    0 < v.1.length ∧ v.1.length = v.2.length ∧ frob2 (d * d) (listSum v.1 (v.2.map conj)) = 1 ∧
      ∃ ρ : ℝ, 0 < ρ ∧ frob2 (d * d) (fun x y => H.get [x, y] - (ρ : K) * listSum v.1 (v.2.map conj) x y)
        ≤ max (1 / 10 ^ 13) eps * frob2 (d * d) fun x y => H.get [x, y] := by
  intro v
  have hdp : 0 < d * d := by obtain ⟨x, y, hx, _⟩ := hne; omega
  have he : effTol dflt (1 / 10 ^ 13) = 1 / 10 ^ 13 := by unfold effTol; rw [if_neg (by norm_num)]
  obtain ⟨k1, k2, _, k4⟩ := split_core_conj svd eps dflt hH
  obtain ⟨h1, h2, h3, h4, ⟨ρ, hρ, h5⟩, h6⟩ := limitedSvd_core hg hn hd0 (1 / 10 ^ 13) (by rw [he]; exact max_lt (by norm_num) ht)
    (A := rearrange H d d) (m := d * d) (n := d * d) rfl hdp hdp (rearrange_ne hH hne)
  rw [he] at h5
  have k5 : ∀ i i' j j', i < d → i' < d → j < d → j' < d → listSum v.1 (v.2.map conj) (i + d * j) (i' + d * j') =
      ∑ k ∈ Finset.range (limitedSvd svd eps dflt (rearrange H d d) (1 / 10 ^ 13)).s.length,
        (limitedSvd svd eps dflt (rearrange H d d) (1 / 10 ^ 13)).U.get [i + d * i', k] *
          (((limitedSvd svd eps dflt (rearrange H d d) (1 / 10 ^ 13)).s.getD k 0 : ℝ) : K) *
          (limitedSvd svd eps dflt (rearrange H d d) (1 / 10 ^ 13)).V.get [k, j + d * j'] := by
    intro i i' j j' hi hi' hj hj'
    rw [k4 i i' j j' hi hi' hj hj']
    refine Finset.sum_congr rfl fun k hk => ?_
    have hk := Finset.mem_range.1 hk
    rw [sqrt_twice]
    rw [List.getD_eq_getElem _ _ hk]; exact h4 _ (List.getElem_mem hk)
  refine ⟨by rw [k1]; exact h1, by rw [k1, k2], ?_, ρ, hρ, ?_⟩
  · rw [← h6]
    exact rearrange_sum d _ _ fun i i' j j' hi hi' hj hj' => by rw [k5 i i' j j' hi hi' hj hj']
  · refine le_trans (le_of_eq ?_) (le_trans h5 (le_of_eq ?_))
    · exact rearrange_sum d _ _ fun i i' j j' hi hi' hj hj' => by
        beta_reduce
        rw [k5 i i' j j' hi hi' hj hj', rearrange_get hH hi hi' hj hj']
    · congr 1
      exact (rearrange_sum d (fun x y => ‖H.get [x, y]‖ ^ 2) _ fun i i' j j' hi hi' hj hj' => by
        rw [rearrange_get hH hi hi' hj hj']).symm

theorem limitedSvd_entries {svd : Tensor K → SvdRes K} (hg : GoodSvd svd) {eps dflt : ℝ} (hd : 0 ≤ dflt)
    (tol : ℝ) {A : Tensor K} {m n : Nat} (hA : A.dims = [m, n]) (hm : 0 < m) (hn' : 0 < n) {k : Nat} :
    let L := limitedSvd svd eps dflt A tol
    k < L.s.length → k < min m n ∧ (∀ i, L.U.get [i, k] = (svd A).U.get [i, k]) ∧ (∀ j, L.V.get [k, j] = (svd A).V.get [k, j]) ∧
      ∃ ρ : ℝ, 0 ≤ ρ ∧ ∀ l, l < L.s.length → L.s.getD l 0 = (svd A).s.getD l 0 * ρ := by
  intro L hk
  have hS := hg A m n hA hm hn'
  set r := svd A with hr
  set c := whereToTruncate eps dflt r.s tol 0 with hc
  have hcl : c ≤ r.s.length := wtt_le eps dflt r.s tol 0 hd
  have hcm : c ≤ min m n := by rw [← hS.lenS]; exact hcl
  have hLs : L.s = (r.s.take c).map fun x => x / vecNorm (r.s.take c) := rfl
  have hlen : L.s.length = c := by rw [hLs]; simp [hcl]
  rw [hlen] at hk
  have hmn : k < m ∧ k < n := by omega
  refine ⟨by omega, ?_, ?_, (vecNorm (r.s.take c))⁻¹, inv_nonneg.2 (Real.sqrt_nonneg _), ?_⟩
  · intro i
    show (changeDim r.U 1 c).get [i, k] = _
    simp [changeDim, hS.dimsU, hmn]
  · intro j
    show (changeDim r.V 0 c).get [k, j] = _
    simp [changeDim, hS.dimsV, hmn]
  · intro l hl
    rw [hlen] at hl
    rw [hLs, List.getD_eq_getElem _ _ (by simp; omega), List.getD_eq_getElem _ _ (by omega)]
    simp [div_eq_mul_inv]

/-- the operator `1 ⊗ B` on two spins 1/2, with the Hermitian matrix `B = ((1, i), (-i, 1)) = 1 - σ_y` -/
noncomputable def oneB : Tensor ℂ :=
  ⟨[2 * 2, 2 * 2], fun z => if z.getD 0 0 % 2 = z.getD 1 0 % 2 then
    (if z.getD 0 0 / 2 = z.getD 1 0 / 2 then 1 else if z.getD 0 0 / 2 < z.getD 1 0 / 2 then Complex.I else -Complex.I) else 0⟩

/-- C40: the operators returned by `split_interaction` (and hence the terms of a `TIHamiltonian`) are not even proportional to
`H12 = 1 ⊗ (1 - σ_y)`: the second factors come out complex conjugated. -/
theorem C40_split_violated {svd : Tensor ℂ → SvdRes ℂ} (hg : GoodSvd svd) (hn : NonnegSvd svd) {eps dflt : ℝ} (hd0 : 0 ≤ dflt)
    (z : ℂ) : let v := splitInteraction svd eps dflt oneB
    ¬ ∀ x y, x < 2 * 2 → y < 2 * 2 → z * listSum v.1 v.2 x y = oneB.get [x, y] := by
  intro v hcon
  obtain ⟨k1, k2, _, k4⟩ := split_core svd eps dflt (H := oneB) (d := 2) rfl
  have hS := hg (rearrange oneB 2 2) (2 * 2) (2 * 2) rfl (by norm_num) (by norm_num)
  let B : Nat → Nat → ℂ := fun j j' => if j = j' then 1 else if j < j' then Complex.I else -Complex.I
  have hent : ∀ i i' j j', i < 2 → i' < 2 → j < 2 → j' < 2 → (rearrange oneB 2 2).get [i + 2 * i', j + 2 * j']
      = if i = i' then B j j' else 0 := by
    intro i i' j j' hi hi' hj hj'
    rw [rearrange_get rfl hi hi' hj hj']
    have e1 : (i + 2 * j) % 2 = i := by omega
    have e2 : (i' + 2 * j') % 2 = i' := by omega
    have e3 : (i + 2 * j) / 2 = j := by omega
    have e4 : (i' + 2 * j') / 2 = j' := by omega
    simp [oneB, e1, e2, e3, e4, B]
  -- row `j + 2 j'` of every `V_k`, times the singular value, is proportional to `B`
  have hV : ∀ k, k < 2 * 2 → ∃ u : ℂ, ∀ j j', j < 2 → j' < 2 →
      (((svd (rearrange oneB 2 2)).s.getD k 0 : ℝ) : ℂ) * (svd (rearrange oneB 2 2)).V.get [k, j + 2 * j'] = u * B j j' := by
    intro k hk
    refine ⟨star ((svd (rearrange oneB 2 2)).U.get [0, k]) + star ((svd (rearrange oneB 2 2)).U.get [3, k]), ?_⟩
    intro j j' hj hj'
    have := IsSVD_left hS (k := k) (y := j + 2 * j') (by simpa using hk) (by omega)
    have hr : (2 * 2 : Nat) = 4 := rfl
    rw [hr, Finset.sum_range_succ, Finset.sum_range_succ, Finset.sum_range_succ, Finset.sum_range_succ, Finset.sum_range_zero] at this
    have a0 := hent 0 0 j j' (by omega) (by omega) hj hj'
    have a1 := hent 1 0 j j' (by omega) (by omega) hj hj'
    have a2 := hent 0 1 j j' (by omega) (by omega) hj hj'
    have a3 := hent 1 1 j j' (by omega) (by omega) hj hj'
    norm_num at a0 a1 a2 a3
    rw [a0, a1, a2, a3] at this
    rw [show ∀ x : ℝ, (RCLike.ofReal x : ℂ) = (x : ℂ) from fun _ => rfl] at this
    rw [← this]
    ring
  have hX : ∃ X : ℂ, ∀ j j', j < 2 → j' < 2 → listSum v.1 v.2 (0 + 2 * j) (0 + 2 * j') = X * star (B j j') := by
    have hterm : ∀ k, ∃ u : ℂ, k < (limitedSvd svd eps dflt (rearrange oneB 2 2) (1 / 10 ^ 13)).s.length →
        ∀ j j', j < 2 → j' < 2 →
        (limitedSvd svd eps dflt (rearrange oneB 2 2) (1 / 10 ^ 13)).U.get [0 + 2 * 0, k] *
            (((Real.sqrt ((limitedSvd svd eps dflt (rearrange oneB 2 2) (1 / 10 ^ 13)).s.getD k 0) : ℝ) : ℂ) *
             ((Real.sqrt ((limitedSvd svd eps dflt (rearrange oneB 2 2) (1 / 10 ^ 13)).s.getD k 0) : ℝ) : ℂ)) *
            star ((limitedSvd svd eps dflt (rearrange oneB 2 2) (1 / 10 ^ 13)).V.get [k, j + 2 * j']) = u * star (B j j') := by
      intro k
      by_cases hk : k < (limitedSvd svd eps dflt (rearrange oneB 2 2) (1 / 10 ^ 13)).s.length
      · obtain ⟨e1, e2, e3, ρ, e4, e5⟩ := limitedSvd_entries hg (eps := eps) hd0 (1 / 10 ^ 13) (A := rearrange oneB 2 2)
          (m := 2 * 2) (n := 2 * 2) rfl (by norm_num) (by norm_num) hk
        obtain ⟨u, hu⟩ := hV k (by simpa using e1)
        refine ⟨(svd (rearrange oneB 2 2)).U.get [0, k] * (ρ : ℂ) * star u, fun _ j j' hj hj' => ?_⟩
        have hs0 : 0 ≤ (svd (rearrange oneB 2 2)).s.getD k 0 := by
          by_cases h : k < (svd (rearrange oneB 2 2)).s.length
          · rw [List.getD_eq_getElem _ _ h]; exact hn _ _ (List.getElem_mem h)
          · simp [h]
        have := congrArg star (hu j j' hj hj')
        rw [star_mul', star_mul', RCLike.star_def, Complex.conj_ofReal] at this
        rw [e2, e3, e5 k hk, ← Complex.ofReal_mul, Real.mul_self_sqrt (mul_nonneg hs0 e4), Complex.ofReal_mul]
        rw [show (star (B j j') : ℂ) = (starRingEnd ℂ) (B j j') from rfl, show (star u : ℂ) = (starRingEnd ℂ) u from rfl,
          mul_assoc ((svd (rearrange oneB 2 2)).U.get [0, k] * (ρ : ℂ)), ← this]
        rw [show ∀ x : ℂ, (star x : ℂ) = (starRingEnd ℂ) x from fun _ => rfl]
        ring
      · exact ⟨0, fun h => absurd h hk⟩
    choose u hu using hterm
    refine ⟨∑ k ∈ Finset.range (limitedSvd svd eps dflt (rearrange oneB 2 2) (1 / 10 ^ 13)).s.length, u k, ?_⟩
    intro j j' hj hj'
    rw [k4 0 0 j j' (by omega) (by omega) hj hj', Finset.sum_mul]
    exact Finset.sum_congr rfl fun k hk => hu k (Finset.mem_range.1 hk) j j' hj hj'
  obtain ⟨X, hX⟩ := hX
  have c0 := hcon (0 + 2 * 0) (0 + 2 * 0) (by norm_num) (by norm_num)
  have c1 := hcon (0 + 2 * 0) (0 + 2 * 1) (by norm_num) (by norm_num)
  rw [hX 0 0 (by norm_num) (by norm_num)] at c0
  rw [hX 0 1 (by norm_num) (by norm_num)] at c1
  simp [B, oneB] at c0 c1
  have h1 : z * X = 1 := by simpa using c0
  have h2 : z * X * Complex.I = -Complex.I := by linear_combination -c1
  rw [h1, one_mul] at h2
  have := congrArg Complex.im h2
  simp at this
  norm_num at this

end MPS.Props
