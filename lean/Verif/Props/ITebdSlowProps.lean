import Verif.ITebdSlowLemmas2
import Verif.Props.ITebdProps7
import Mathlib.Algebra.BigOperators.Field

/-!
# C109: expected values with powers of the transfer matrix
-/

set_option linter.unusedSectionVars false
set_option linter.unusedSimpArgs false

namespace MPS.Props
open Tensor MPS MPS.ITebd
variable {K : Type} [RCLike K]

/-- number of sites from `evenDown i` to the last site of the cell of `j` -/
def cellSites (i j : Int) : Nat := (j + 1 - j % 2 + 1 - evenDown i).toNat

/-- **C109**, string orders: the value is the expected value on a ring which contains all the cells between the two sites and 1024 cells
more. -/
theorem C109_string_order {psi : State K} (h : Ok psi) {Oi Om Oj : Tensor K} {i j : Int} (hij : i < j) (hi : Acts psi i Oi) (hj : Acts psi j Oj)
    (hm : ∀ k, i < k → k < j → Acts psi k Om) (h0 : ringNorm psi (evenDown i - 2048) (2048 + cellSites i j) ≠ 0) :
    evenDown i - 2048 ≤ i ∧ j < evenDown i - 2048 + (2048 + cellSites i j) ∧
    slowStringOrder psi Oi i Om Oj j = ringValue psi (evenDown i - 2048) (2048 + cellSites i j)
      (siteOps (evenDown i - 2048) (2048 + cellSites i j) (placed psi Oi i Om Oj j)) := by
  refine ⟨by unfold evenDown; omega, by unfold cellSites evenDown; omega, ?_⟩
  unfold slowStringOrder slowOrder
  rw [if_neg (by omega)]
  have e1 : evenDown i = if i % 2 = 1 then i - 1 else i := by unfold evenDown; split <;> omega
  have e2 : j + 1 - j % 2 = if j % 2 = 1 then j else j + 1 := by split <;> omega
  refine slowBody_eq h (le_of_lt hij) e1 e2 (slowOp_acts hij hi hj hm) (fun k hk => ?_) ?_ h0
  · unfold placed
    rw [if_neg (by omega), if_neg (by omega), if_neg (by omega)]
  · unfold cellSites evenDown; push_cast; omega

/-- **C109**: on equal sites the two operators are multiplied -/
theorem C109_same_site {psi : State K} (h : Ok psi) {Oi Om Oj : Tensor K} {i : Int} (hi : Oi.dims = [(psi.matrix i).dim 1, (psi.matrix i).dim 1])
    (hj : Oj.dims = [(psi.matrix i).dim 1, (psi.matrix i).dim 1]) (h0 : ringNorm psi (evenDown i - 2048) 2050 ≠ 0) :
    slowStringOrder psi Oi i Om Oj i = ringValue psi (evenDown i - 2048) 2050
      (siteOps (evenDown i - 2048) 2050 (fun k => if k = i then mmult Oi Oj else ones psi k)) := by
  unfold slowStringOrder slowOrder
  rw [if_neg (by omega)]
  have e1 : evenDown i = if i % 2 = 1 then i - 1 else i := by unfold evenDown; split <;> omega
  have e2 : i + 1 - i % 2 = if i % 2 = 1 then i else i + 1 := by split <;> omega
  have hpos := (h.dims i).2.2.1
  have hmm : (mmult Oi Oj).isEmpty = false := by
    have := (mmult_mat hi hj).1
    simp [isEmpty, size, this]
    omega
  refine slowBody_eq h (le_refl _) e1 e2 (fun k => ?_) (fun k hk => ?_) ?_ h0
  · obtain ⟨x, y⟩ := slowOp_same (Om := Om) hi hj k
    refine ⟨x, y.trans ?_⟩
    split
    · simp [orOne, hmm]
    · rfl
  · rw [if_neg (by omega)]
  · unfold evenDown; push_cast; omega

/-- **C109**: exchanging the two operators together with their sites changes nothing -/
theorem C109_swap (psi : State K) (Oi Om Oj : Tensor K) {i j : Int} (hij : i ≠ j) :
    slowStringOrder psi Oi i Om Oj j = slowStringOrder psi Oj j Om Oi i := by
  unfold slowStringOrder slowOrder
  by_cases h : i > j
  · rw [if_pos h, if_neg (by omega)]
  · rw [if_neg h, if_pos (by omega)]

/-- **C109**, two operators -/
theorem C109_expected2 {psi : State K} (h : Ok psi) {O1 O2 : Tensor K} {i j : Int} (hij : i < j) (hi : Acts psi i O1) (hj : Acts psi j O2)
    (h0 : ringNorm psi (evenDown i - 2048) (2048 + cellSites i j) ≠ 0) :
    slowExpected2 psi O1 i O2 j = ringValue psi (evenDown i - 2048) (2048 + cellSites i j)
      (siteOps (evenDown i - 2048) (2048 + cellSites i j) (fun k => if k = i then orOne ((psi.matrix k).dim 1) O1
        else if k = j then orOne ((psi.matrix k).dim 1) O2 else ones psi k)) := by
  unfold slowExpected2
  rw [(C109_string_order h hij hi hj (fun _ _ _ => Or.inl rfl) h0).2.2]
  congr 1
  refine siteOps_congr fun k _ => ?_
  unfold placed
  split
  · rfl
  · split
    · rfl
    · split
      · rfl
      · rfl

/-- **C109**, one operator: the value is the expected value on a ring of 1025 cells of `Op` on a site of the parity of `site`. -/
theorem C109_expected {psi : State K} (h : Ok psi) {Op : Tensor K} (site : Int) (hop : Acts psi site Op) (h0 : ringNorm psi (-2048) 2050 ≠ 0) :
    slowExpected1 psi Op site = ringValue psi (-2048) 2050
      (siteOps (-2048) 2050 (fun k => if k = site % 2 then orOne ((psi.matrix k).dim 1) Op else ones psi k)) := by
  have hn : 2048 + cellSites 0 1 = 2050 := rfl
  have he : evenDown 0 - 2048 = -2048 := rfl
  unfold slowExpected1
  have hemp : (Tensor.empty : Tensor K).isEmpty = true := by simp [Tensor.empty, isEmpty, size]
  rcases Int.emod_two_eq_zero_or_one site with hp | hp
  · rw [if_neg (by omega)]
    have := (C109_string_order h (i := 0) (j := 1) (Oi := Op) (Om := Tensor.empty) (Oj := Tensor.empty) (by norm_num)
      (by unfold Acts at *; rwa [matrix_parity psi (p := 0) (q := site) (by omega)]) (Or.inl hemp) (fun _ _ _ => Or.inl hemp)
      (by rw [hn, he]; exact h0)).2.2
    rw [this, hn, he, hp]
    refine congrArg (ringValue psi (-2048) 2050) (siteOps_congr fun k _ => ?_)
    unfold placed
    split
    · rfl
    · split
      · simp [orOne, hemp, ones]
      · split
        · simp [orOne, hemp, ones]
        · rfl
  · rw [if_pos hp]
    have := (C109_string_order h (i := 0) (j := 1) (Oi := Tensor.empty) (Om := Tensor.empty) (Oj := Op) (by norm_num)
      (Or.inl hemp) (by unfold Acts at *; rwa [matrix_parity psi (p := 1) (q := site) (by omega)]) (fun _ _ _ => Or.inl hemp)
      (by rw [hn, he]; exact h0)).2.2
    rw [this, hn, he, hp]
    refine congrArg (ringValue psi (-2048) 2050) (siteOps_congr fun k _ => ?_)
    unfold placed
    split
    · rename_i h1
      rw [if_neg (by omega)]
      simp [orOne, hemp, ones]
    · split
      · rfl
      · split
        · simp [orOne, hemp, ones]
        · rfl

/-- **C109**, operators on two neighbouring sites: the value is the expected value on a ring of 1025 cells which starts with these two sites. -/
theorem C109_expected12 {psi : State K} (h : Ok psi) {op : Tensor K} (site : Int)
    (hop : op.dims = [(psi.matrix 0).dim 1 * (psi.matrix 1).dim 1, (psi.matrix 0).dim 1 * (psi.matrix 1).dim 1])
    (h0 : ringNorm psi site 2050 ≠ 0) :
    slowExpected12 psi op site = ringValue psi site 2050 (widen 0 2 (pairElt ((psi.matrix site).dim 1) op)) := by
  unfold slowExpected12
  have rv : ∀ p q : Int, p % 2 = q % 2 → psi.rightVector p = psi.rightVector q := by
    intro p q hpq; have := rightVector_shift psi hpq 0; simpa using this
  rcases Int.emod_two_eq_zero_or_one site with hp | hp
  · rw [if_neg (by omega)]
    have e1 := matrix_parity psi (p := 0) (q := site) (by omega)
    have e2 := matrix_parity psi (p := 1) (q := site + 1) (by omega)
    rw [rv 0 site (by omega), rv 1 (site + 1) (by omega), e1, e2]
    rw [e1, e2] at hop
    exact slowPair_eq h site hop h0
  · rw [if_pos (by omega)]
    have e1 := matrix_parity psi (p := 1) (q := site) (by omega)
    have e2 := matrix_parity psi (p := 0) (q := site + 1) (by omega)
    rw [rv 1 site (by omega), rv 0 (site + 1) (by omega), e1, e2]
    rw [e1, e2] at hop
    exact slowPair_eq h site (by rw [hop, Nat.mul_comm]) h0

/-- **C109**, energy: the sum of the energies of the bonds of a cell -/
theorem C109_energy {psi : State K} (h : Ok psi) {op : Tensor K}
    (hop : op.dims = [(psi.matrix 0).dim 1 * (psi.matrix 1).dim 1, (psi.matrix 0).dim 1 * (psi.matrix 1).dim 1])
    (h0 : ringNorm psi 0 2050 ≠ 0) (h1 : ringNorm psi 1 2050 ≠ 0) :
    slowEnergy psi op = ringValue psi 0 2050 (widen 0 2 (pairElt ((psi.matrix 0).dim 1) op)) +
      ringValue psi 1 2050 (widen 0 2 (pairElt ((psi.matrix 1).dim 1) op)) := by
  unfold slowEnergy
  rw [C109_expected12 h 0 hop h0, C109_expected12 h 1 hop h1]

/-- the numerator of `ringValue` as a trace of a transfer matrix -/
theorem ringForm_transfer {psi : State K} (p : Int) (n : Nat) (O : List Nat → List Nat → K) :
    MPS.inner (winDims psi p n) (ringAmp psi p n) (actOp (winDims psi p n) O (ringAmp psi p n)) =
      ∑ a ∈ Finset.range ((psi.matrix p).dim 0), ∑ a' ∈ Finset.range ((psi.matrix p).dim 0), transferO (window psi p n) (winDims psi p n) O a a' a a' := by
  unfold transferO MPS.inner actOp ringAmp
  simp only [← sumCfg_sum]
  refine sumCfg_congr fun s _ => ?_
  rw [← sumCfg_mul_left]
  refine sumCfg_congr fun t _ => ?_
  rw [star_sum, Finset.sum_mul]
  refine Finset.sum_congr rfl fun x _ => ?_
  rw [Finset.mul_sum, Finset.mul_sum]
  exact Finset.sum_congr rfl fun y _ => by ring

theorem transferO_one {As : List (Tensor K)} (ds : List Nat) (a a' b b' : Nat) :
    transferO As ds oneElt a a' b b' = sumCfg ds fun s => star (path As s a b) * path As s a' b' := by
  unfold transferO oneElt
  rw [← delta_cfg (fun s t => star (path As s a b) * path As t a' b')]
  exact sumCfg_congr fun s _ => sumCfg_congr fun t _ => by split <;> simp

/-- **C109**: what the rings approximate.  If the correlations die out, the expected value of an operator on a ring tends to its expected
value on the infinite chain when more and more cells are added. -/
theorem C109_limit {psi : State K} (h : Ok psi) (p : Int) {η : K} (hη : η ≠ 0) (hd : DiesOut psi p η) {n : Nat} (hn : n % 2 = 0)
    (O : List Nat → List Nat → K) (h0 : winForm psi p n oneElt ≠ 0) :
    Filter.Tendsto (fun m : Nat => ringValue psi p (2 * m + n) (widen (2 * m) n O)) Filter.atTop (nhds (winValue psi p n O)) := by
  have hD : (psi.matrix (p + n)).dim 0 = (psi.matrix p).dim 0 := by rw [matrix_parity psi (p := p + n) (q := p) (by omega)]
  -- the ring with an operator on its last sites
  have form : ∀ (m : Nat) (O : List Nat → List Nat → K), MPS.inner (winDims psi p (2 * m + n)) (ringAmp psi p (2 * m + n))
      (actOp (winDims psi p (2 * m + n)) (widen (2 * m) n O) (ringAmp psi p (2 * m + n))) =
      ∑ a ∈ Finset.range ((psi.matrix p).dim 0), ∑ a' ∈ Finset.range ((psi.matrix p).dim 0), ∑ c ∈ Finset.range ((psi.matrix p).dim 0),
        ∑ c' ∈ Finset.range ((psi.matrix p).dim 0), transferO (window psi p (2 * m)) (winDims psi p (2 * m)) oneElt a a' c c' *
          transferO (window psi p n) (winDims psi p n) O c c' a a' := by
    intro m O
    rw [ringForm_transfer]
    refine Finset.sum_congr rfl fun a ha => Finset.sum_congr rfl fun a' ha' => ?_
    have hm : psi.matrix (p + ((2 * m : Nat) : Int)) = psi.matrix p := matrix_parity psi (by push_cast; omega)
    have w1 := h.window_wf (2 * m) p
    have w2 := h.window_wf n (p + ((2 * m : Nat) : Int))
    rw [hm] at w1 w2
    rw [window_add, winDims_add, transferO_append w1 w2 (O1 := oneElt) (O2 := O) ?_ a a' a a' (Finset.mem_range.1 ha) (Finset.mem_range.1 ha')]
    · rw [window_shift psi (p := p + ((2 * m : Nat) : Int)) (q := p) (by push_cast; omega),
        winDims_shift psi (p := p + ((2 * m : Nat) : Int)) (q := p) (by push_cast; omega)]
    · intro s t hs ht s' t' hs' ht'
      have l1 : s.length = 2 * m := by rw [hs.length_eq, winDims_length]
      have l2 : t.length = 2 * m := by rw [ht.length_eq, winDims_length]
      have l3 : s'.length = n := by rw [hs'.length_eq, winDims_length]
      have l4 : t'.length = n := by rw [ht'.length_eq, winDims_length]
      unfold widen oneElt
      have e1 : (s ++ s').take (2 * m) = s := by rw [← l1]; simp
      have e2 : (t ++ t').take (2 * m) = t := by rw [← l2]; simp
      have e3 : (s ++ s').drop (2 * m) = s' := by rw [← l1]; simp
      have e4 : (t ++ t').drop (2 * m) = t' := by rw [← l2]; simp
      have e5 : (s ++ s').drop (2 * m + n) = [] := List.drop_eq_nil_of_le (by simp [l1, l3])
      have e6 : (t ++ t').drop (2 * m + n) = [] := List.drop_eq_nil_of_le (by simp [l2, l4])
      rw [e1, e2, e3, e4, e5, e6, List.take_of_length_le (by omega : s'.length ≤ n), List.take_of_length_le (by omega : t'.length ≤ n)]
      by_cases hst : s = t <;> simp [hst]
  have lim : ∀ O : List Nat → List Nat → K, Filter.Tendsto (fun m : Nat => MPS.inner (winDims psi p (2 * m + n)) (ringAmp psi p (2 * m + n))
      (actOp (winDims psi p (2 * m + n)) (widen (2 * m) n O) (ringAmp psi p (2 * m + n))) / η ^ m) Filter.atTop (nhds (winForm psi p n O)) := by
    intro O
    have e : ∀ m, MPS.inner (winDims psi p (2 * m + n)) (ringAmp psi p (2 * m + n))
      (actOp (winDims psi p (2 * m + n)) (widen (2 * m) n O) (ringAmp psi p (2 * m + n))) / η ^ m =
      ∑ a ∈ Finset.range ((psi.matrix p).dim 0), ∑ a' ∈ Finset.range ((psi.matrix p).dim 0), ∑ c ∈ Finset.range ((psi.matrix p).dim 0),
        ∑ c' ∈ Finset.range ((psi.matrix p).dim 0), (sumCfg (winDims psi p (2 * m)) (fun s =>
          star (path (window psi p (2 * m)) s a c) * path (window psi p (2 * m)) s a' c') / η ^ m) *
          transferO (window psi p n) (winDims psi p n) O c c' a a' := by
      intro m
      rw [form]
      simp only [Finset.sum_div, transferO_one]
      refine Finset.sum_congr rfl fun a _ => Finset.sum_congr rfl fun a' _ => Finset.sum_congr rfl fun c _ => Finset.sum_congr rfl fun c' _ => ?_
      rw [mul_div_right_comm]
    simp only [e]
    have target : winForm psi p n O = ∑ a ∈ Finset.range ((psi.matrix p).dim 0), ∑ a' ∈ Finset.range ((psi.matrix p).dim 0),
        ∑ c ∈ Finset.range ((psi.matrix p).dim 0), ∑ c' ∈ Finset.range ((psi.matrix p).dim 0),
        (if a = a' ∧ c = c' then (psi.leftVector p).get [c] ^ 2 else 0) * transferO (window psi p n) (winDims psi p n) O c c' a a' := by
      rw [winForm_transfer h, hD, Finset.sum_comm]
      refine Finset.sum_congr rfl fun a ha => ?_
      rw [Finset.sum_eq_single_of_mem a ha (fun a' _ hne => Finset.sum_eq_zero fun c _ => Finset.sum_eq_zero fun c' _ => by
        rw [if_neg (fun hh => hne hh.1.symm), zero_mul])]
      refine Finset.sum_congr rfl fun c hc => ?_
      rw [Finset.sum_eq_single_of_mem c hc (fun c' _ hne => by rw [if_neg (fun hh => hne hh.2.symm), zero_mul]), if_pos ⟨rfl, rfl⟩]
    rw [target]
    refine tendsto_finset_sum _ fun a ha => tendsto_finset_sum _ fun a' ha' => tendsto_finset_sum _ fun c hc => tendsto_finset_sum _ fun c' hc' => ?_
    exact (hd a (Finset.mem_range.1 ha) a' (Finset.mem_range.1 ha') c (Finset.mem_range.1 hc) c' (Finset.mem_range.1 hc')).mul_const _
  have hone : ∀ m, MPS.inner (winDims psi p (2 * m + n)) (ringAmp psi p (2 * m + n))
      (actOp (winDims psi p (2 * m + n)) (widen (2 * m) n oneElt) (ringAmp psi p (2 * m + n))) = ringNorm psi p (2 * m + n) := by
    intro m
    rw [← ring_one]
    unfold MPS.inner actOp
    refine sumCfg_congr fun s hs => ?_
    congr 1
    refine sumCfg_congr fun t ht => ?_
    rw [widen_one psi p (2 * m) n 0 s hs t ht]
  have l1 := lim O
  have l2 := lim oneElt
  simp only [hone] at l2
  have := l1.div l2 h0
  unfold winValue
  refine this.congr fun m => ?_
  unfold ringValue
  have : η ^ m ≠ 0 := pow_ne_zero _ hη
  simp only [Pi.div_apply]
  rw [div_div_div_cancel_right₀ this]

/-- **C109**: with bonds of dimension one, that is, for product states, the ring is the infinite chain -/
theorem C109_product {psi : State K} (h : Ok psi) (hD : ∀ k, (psi.matrix k).dim 0 = 1) (p : Int) (n : Nat)
    (hl : (psi.leftVector p).get [0] ≠ 0) (O : List Nat → List Nat → K) : ringValue psi p n O = winValue psi p n O := by
  unfold ringValue winValue
  rw [← ring_one, ringForm_transfer, ringForm_transfer, winForm_transfer h, winForm_transfer h, hD, hD]
  simp only [Finset.sum_range_one]
  rw [mul_div_mul_left _ _ (pow_ne_zero _ hl)]

/-- a state which is not a product: on every ring, the GHZ state has norm `√2` -/
theorem C109_ghz_norm : ∃ psi, ghzInf = some psi ∧ Ok psi ∧ ∀ (p : Int) (n : Nat), 0 < n → ringNorm psi p n = 2 := by
  obtain ⟨psi, h1, h2, h3⟩ := C64_ghz
  refine ⟨psi, h1, h2, fun p n hn => ?_⟩
  have hpsi : psi = uniform ghzT := by
    have : ghzInf = some (uniform ghzT) := by
      unfold ghzInf State.new
      exact if_pos ⟨rfl, rfl, rfl, rfl, rfl⟩
    rw [this] at h1; exact (Option.some.inj h1).symm
  have hdim : (psi.matrix p).dim 0 = 2 := by rw [hpsi, uniform_matrix]; rfl
  have hamp : ∀ s, IsCfg (winDims psi p n) s → ringAmp psi p n s = (if s = List.replicate n 0 then 1 else 0) + if s = List.replicate n 1 then 1 else 0 := by
    intro s hs
    unfold ringAmp
    rw [hdim]
    have e : ∀ a, path (window psi p n) s a a = winAmp psi p n a a s := by
      intro a; unfold winAmp; rw [hpsi, uniform_left, one_mul]
    simp only [Finset.sum_range_succ, Finset.sum_range_zero, zero_add, e]
    rw [(h3 p n 0 0 (by norm_num) (by norm_num)).2 s hs, (h3 p n 1 1 (by norm_num) (by norm_num)).2 s hs]
    simp
  have hne : List.replicate n 0 ≠ List.replicate n 1 := by
    obtain ⟨n, rfl⟩ := Nat.exists_eq_succ_of_ne_zero hn.ne'
    simp [List.replicate_succ]
  have hc : ∀ x < 2, IsCfg (winDims psi p n) (List.replicate n x) := by
    intro x hx
    rw [(h3 p n 0 0 (by norm_num) (by norm_num)).1]
    unfold IsCfg
    rw [List.forall₂_iff_get]
    exact ⟨by simp, fun i h1 h2 => by simpa using hx⟩
  unfold ringNorm MPS.inner
  rw [sumCfg_congr fun s hs => by rw [hamp s hs]]
  have : ∀ s, star ((if s = List.replicate n 0 then (1 : ℝ) else 0) + if s = List.replicate n 1 then 1 else 0) *
      ((if s = List.replicate n 0 then 1 else 0) + if s = List.replicate n 1 then 1 else 0) =
      (if List.replicate n 0 = s then 1 else 0) + if List.replicate n 1 = s then 1 else 0 := by
    intro s
    by_cases e0 : s = List.replicate n 0
    · subst e0; simp [hne, hne.symm]
    · by_cases e1 : s = List.replicate n 1
      · subst e1; simp [hne, hne.symm]
      · simp [e0, e1, Ne.symm e0, Ne.symm e1]
  simp only [this, sumCfg_add]
  rw [sumCfg_pick (winDims psi p n) (fun _ => (1 : ℝ)) (hc 0 (by norm_num)), sumCfg_pick (winDims psi p n) (fun _ => (1 : ℝ)) (hc 1 (by norm_num))]
  norm_num

/-- the tensors of a chain of dimers `(|00⟩ + |11⟩)/√2` on the sites `(0,1), (2,3), ...`; the bond inside a dimer has dimension two -/
noncomputable def dimers : State ℝ :=
  State.ofParts ⟨[1, 2, 2], fun i => if i.getD 1 0 = i.getD 2 0 then 1 else 0⟩ ⟨[2], fun _ => 1 / Real.sqrt 2⟩
    ⟨[2, 2, 1], fun i => if i.getD 0 0 = i.getD 1 0 then 1 else 0⟩ ⟨[1], fun _ => 1⟩ false

theorem dimers_ok : Ok dimers := by
  constructor <;> simp [dimers, State.ofParts, dim, nrm]

theorem dimers_cell (a a' b b' : Nat) (hb : b < 2) (hb' : b' < 2) (ha : a < 2) (ha' : a' < 2) :
    transferO (window dimers 1 2) (winDims dimers 1 2) oneElt a a' b b' = if a = a' ∧ b = b' then 1 / 2 else 0 := by
  have w1 : window dimers 1 2 = [siteT dimers 1, siteT dimers 2] := by simp [window, List.range_succ]
  have w2 : winDims dimers 1 2 = [2, 2] := by
    simp [winDims, List.range_succ, dimers, State.ofParts, State.matrix, dim, nrm]
  have hp : ∀ (x y s t : Nat), y < 2 → path [siteT dimers 1, siteT dimers 2] [s, t] x y = (if x = s ∧ t = y then 1 / Real.sqrt 2 else 0) := by
    intro x y s t hy
    rw [path_cons, show (siteT dimers 1).dim 2 = 1 from rfl, Finset.sum_range_one, path_one (A := siteT dimers 2) (D := 1) (d := 2) (E := 2) rfl hy]
    simp only [siteT, State.matrix, State.rightVector, dimers, State.ofParts, scale]
    by_cases h1 : x = s <;> by_cases h2 : t = y <;> simp [h1, h2]
  rw [transferO_one, w1, w2]
  simp only [sumCfg_cons, sumCfg]
  simp only [Finset.sum_range_succ, Finset.sum_range_zero, zero_add]
  simp only [hp _ _ _ _ hb, hp _ _ _ _ hb']
  have s2 : (1 / Real.sqrt 2) * (1 / Real.sqrt 2) = 1 / 2 := by
    rw [div_mul_div_comm, one_mul, Real.mul_self_sqrt (by norm_num)]
  have s3 : (Real.sqrt 2)⁻¹ * (Real.sqrt 2)⁻¹ = 2⁻¹ := by rw [← s2.trans (one_div 2)]; simp
  interval_cases a <;> interval_cases a' <;> interval_cases b <;> interval_cases b' <;> simp [s2, s3]

/-- a case with bonds of dimension two in which the correlations die out -/
theorem C109_dimers : Ok dimers ∧ DiesOut dimers 1 1 ∧ winForm dimers 1 2 oneElt = 1 := by
  have hD : ∀ m : Nat, (dimers.matrix (1 + ((2 * m : Nat) : Int))).dim 0 = 2 := by
    intro m
    rw [matrix_parity dimers (p := 1 + ((2 * m : Nat) : Int)) (q := 1) (by push_cast; omega)]; rfl
  have cells : ∀ m : Nat, ∀ a < 2, ∀ a' < 2, ∀ b < 2, ∀ b' < 2,
      transferO (window dimers 1 (2 * (m + 1))) (winDims dimers 1 (2 * (m + 1))) oneElt a a' b b' = if a = a' ∧ b = b' then 1 / 2 else 0 := by
    intro m
    induction m with
    | zero => intro a ha a' ha' b hb b' hb'; exact dimers_cell a a' b b' hb hb' ha ha'
    | succ m ih =>
      intro a ha a' ha' b hb b' hb'
      rw [show 2 * (m + 1 + 1) = 2 * (m + 1) + 2 by ring, window_add, winDims_add,
        transferO_append (dimers_ok.window_wf (2 * (m + 1)) 1) (dimers_ok.window_wf 2 _) (O1 := oneElt) (O2 := oneElt)
        (fun s t hs ht s' t' _ _ => oneElt_append (by rw [hs.length_eq, ht.length_eq])) a a' b b' ha ha']
      rw [window_shift dimers (p := 1 + ((2 * (m + 1) : Nat) : Int)) (q := 1) (by push_cast; omega),
        winDims_shift dimers (p := 1 + ((2 * (m + 1) : Nat) : Int)) (q := 1) (by push_cast; omega), hD]
      simp only [Finset.sum_range_succ, Finset.sum_range_zero, zero_add]
      rw [ih a ha a' ha' 0 (by norm_num) 0 (by norm_num), ih a ha a' ha' 0 (by norm_num) 1 (by norm_num),
        ih a ha a' ha' 1 (by norm_num) 0 (by norm_num), ih a ha a' ha' 1 (by norm_num) 1 (by norm_num),
        dimers_cell 0 0 b b' hb hb' (by norm_num) (by norm_num), dimers_cell 0 1 b b' hb hb' (by norm_num) (by norm_num),
        dimers_cell 1 0 b b' hb hb' (by norm_num) (by norm_num), dimers_cell 1 1 b b' hb hb' (by norm_num) (by norm_num)]
      by_cases h1 : a = a' <;> by_cases h2 : b = b' <;> simp [h1, h2] <;> norm_num
  have s2 : (1 / Real.sqrt 2) ^ 2 = 1 / 2 := by rw [div_pow, Real.sq_sqrt (by norm_num)]; norm_num
  have hl : ∀ b, (dimers.leftVector 1).get [b] = 1 / Real.sqrt 2 := fun b => rfl
  refine ⟨dimers_ok, ?_, ?_⟩
  · intro a ha a' ha' b hb b' hb'
    have e : (dimers.matrix 1).dim 0 = 2 := rfl
    rw [e] at ha ha' hb hb'
    refine tendsto_const_nhds.congr' ?_
    filter_upwards [Filter.eventually_ge_atTop 1] with m hm
    obtain ⟨m, rfl⟩ := Nat.exists_eq_succ_of_ne_zero (by omega : m ≠ 0)
    rw [← transferO_one, cells m a ha a' ha' b hb b' hb', hl, s2, one_pow, div_one]
  · rw [winForm_transfer dimers_ok]
    have e1 : (dimers.matrix 1).dim 0 = 2 := rfl
    have e2 : (dimers.matrix (1 + ((2 : Nat) : Int))).dim 0 = 2 := hD 1
    rw [e1, e2]
    simp only [Finset.sum_range_succ, Finset.sum_range_zero, zero_add, hl, s2]
    rw [dimers_cell 0 0 0 0 (by norm_num) (by norm_num) (by norm_num) (by norm_num), dimers_cell 0 0 1 1 (by norm_num) (by norm_num) (by norm_num) (by norm_num),
      dimers_cell 1 1 0 0 (by norm_num) (by norm_num) (by norm_num) (by norm_num), dimers_cell 1 1 1 1 (by norm_num) (by norm_num) (by norm_num) (by norm_num)]
    norm_num

/-- the hypotheses of the theorems on expected values hold for the GHZ state -/
example : ∃ psi, ghzInf = some psi ∧ slowExpected12 psi (kron2 pauliZ pauliX) 3 =
    ringValue psi 3 2050 (widen 0 2 (pairElt ((psi.matrix 3).dim 1) (kron2 pauliZ pauliX))) := by
  obtain ⟨psi, h1, h2, h3⟩ := C109_ghz_norm
  refine ⟨psi, h1, C109_expected12 h2 3 ?_ (by rw [h3 3 2050 (by norm_num)]; norm_num)⟩
  have hpsi : psi = uniform ghzT := by
    have : ghzInf = some (uniform ghzT) := by
      unfold ghzInf State.new
      exact if_pos ⟨rfl, rfl, rfl, rfl, rfl⟩
    rw [this] at h1; exact (Option.some.inj h1).symm
  rw [hpsi, uniform_matrix, uniform_matrix]; rfl

end MPS.Props
