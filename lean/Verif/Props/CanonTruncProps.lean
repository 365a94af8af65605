import Verif.CanonTrunc3
import Verif.CanonProj
import Verif.EckartYoung
import Verif.SvdSorted
import Verif.Props.CanonProps

/-!
# C117: how far `canonical_form` moves a state

`set_canonical` drops singular values of the tensor of one site.  Their weight is a weight of the state only if the other tensors are
isometries, which is what `canonical_form` is meant to establish and does not have at the beginning.
-/

set_option linter.unusedSectionVars false
set_option linter.unusedSimpArgs false

namespace MPS.Props
open MPS Tensor Trotter Minim
variable {K : Type} [RCLike K]

/-- the state is canonical with respect to the end where the sweep of `canonical_form(psi, sense)` begins: the last site for
`sense < 0`, the first one otherwise -/
def CanonicalAtStart (ds : List Nat) (ψ : List (Tensor K)) (sense : Int) : Prop :=
  if sense < 0 then ∀ j, j + 1 < ds.length → LeftIso (site ψ j) else ∀ j, 0 < j → j < ds.length → RightIso (site ψ j)

/-- **C117**, for states in canonical form with respect to the other end: `canonical_form` is a projection, it changes the state by the
norm lost, and by no more than the tolerance at each bond -/
theorem C117_canonical_form_partial {svd : Tensor K → SvdRes K} (hg : GoodSvd svd) (eps : ℝ) {dflt : ℝ} (hd0 : 0 < dflt) {ds : List Nat}
    {ψ : List (Tensor K)} (hw : WF 1 ψ ds 1) (hne : ψ ≠ []) (sense : Int) (hc : CanonicalAtStart ds ψ sense) :
    let y := (canonicalForm svd eps dflt ψ sense).1
    WF 1 y ds 1 ∧ MPS.inner ds (amp y) (amp ψ) = MPS.inner ds (amp y) (amp y) ∧
      distSq ds ψ y = normSq ds ψ - normSq ds y ∧ distSq ds ψ y ≤ (ds.length - 1 : Nat) * max dflt eps * normSq ds ψ := by
  intro y
  have hlen := hw.length
  have hN : 0 < ds.length := by rw [← hlen]; exact List.length_pos_iff.mpr hne
  have hcent : Cent ds ψ (if sense < 0 then ds.length - 1 else 0) := by
    by_cases hs : sense < 0
    · simp only [CanonicalAtStart, hs, if_true] at hc ⊢
      exact ⟨hw, fun j hj => hc j (by omega), fun j h1 h2 => by omega⟩
    · simp only [CanonicalAtStart, hs, if_false] at hc ⊢
      exact ⟨hw, fun j hj => by omega, fun j h1 h2 => hc j h1 h2⟩
  obtain ⟨c1, c2⟩ := form_cut hg eps hd0 hN sense hcent
  have e := c2.dist
  have hn := c2.nrm
  have hl := c2.le
  simp only [] at e hn hl
  refine ⟨c1.wf, c2.ov, ?_, ?_⟩
  · show distSq ds ψ (canonicalForm svd eps dflt ψ sense).1 = _ - normSq ds (canonicalForm svd eps dflt ψ sense).1
    rw [e, hn]; ring
  · show distSq ds ψ (canonicalForm svd eps dflt ψ sense).1 ≤ _
    rw [e]; exact hl

/-- **C117**, the second of two sweeps in opposite directions -/
theorem C117_second_sweep_partial {svd : Tensor K → SvdRes K} (hg : GoodSvd svd) (eps : ℝ) {dflt : ℝ} (hd0 : 0 < dflt) {ds : List Nat}
    {ψ : List (Tensor K)} (hw : WF 1 ψ ds 1) (hne : ψ ≠ []) (sense : Int) :
    let φ := (canonicalForm svd eps dflt ψ (if sense < 0 then 1 else -1)).1
    let y := (canonicalForm svd eps dflt φ sense).1
    WF 1 y ds 1 ∧ distSq ds φ y = normSq ds φ - normSq ds y ∧ distSq ds φ y ≤ (ds.length - 1 : Nat) * max dflt eps * normSq ds φ := by
  intro φ y
  have hlen := hw.length
  have hN : 0 < ds.length := by rw [← hlen]; exact List.length_pos_iff.mpr hne
  obtain ⟨s1, s2, s3, s4⟩ := eitherForm_spec hg eps hw (Or.inl hd0) (if (if sense < 0 then (1 : Int) else -1) < 0 then 0 else ψ.length - 1)
    (by have : 0 < ψ.length := by omega
        generalize (if sense < 0 then (1 : Int) else -1) = z
        split <;> omega)
  have hφ : WF 1 φ ds 1 := s1.wf
  have hφne : φ ≠ [] := by intro h0; have := hφ.length; rw [h0] at this; simp at this; omega
  have hc : CanonicalAtStart ds φ sense := by
    unfold CanonicalAtStart
    by_cases hs : sense < 0
    · simp only [hs, if_true, show ¬ (1 : Int) < 0 by decide, if_false] at s3 ⊢
      intro j hj
      have := s3 j (by omega)
      simpa [φ, canonicalForm, canonicalFormAt, hs] using this
    · simp only [hs, if_false, show (-1 : Int) < 0 by decide, if_true] at s4 ⊢
      intro j h0 hj
      have := s4 j h0 (by omega)
      simpa [φ, canonicalForm, canonicalFormAt, hs] using this
  obtain ⟨a1, -, a3, a4⟩ := C117_canonical_form_partial hg eps hd0 hφ hφne sense hc
  exact ⟨a1, a3, a4⟩

/-! ### States which are not in canonical form -/

/-- a diagonal tensor: `x` at index 0, `z` elsewhere -/
def diagTensor (dims : List Nat) (p q : Nat) (x z : K) : Tensor K :=
  ⟨dims, fun I => if I.getD p 0 = I.getD q 0 then (if I.getD p 0 = 0 then x else z) else 0⟩

/-- the state `∑ |i,i⟩` of two sites of dimension `d`, the weights of which have been moved from the second tensor to the first one -/
def skewed (d : Nat) (δ : K) : List (Tensor K) := [diagTensor [1, d, d] 1 2 1 (1 / δ), diagTensor [d, d, 1] 0 1 1 δ]

theorem skewed_wf {d : Nat} (hd : 0 < d) (δ : K) : WF 1 (skewed d δ) [d, d] 1 :=
  WF.cons rfl Nat.one_pos hd hd (WF.cons rfl hd hd Nat.one_pos (WF.nil 1))

theorem amp_two {A B : Tensor K} {d l d2 : Nat} (hA : A.dims = [1, d, l]) (hB : B.dims = [l, d2, 1]) (i j : Nat) :
    amp [A, B] [i, j] = ∑ k ∈ Finset.range l, A.get [0, i, k] * B.get [k, j, 0] := by
  simp [amp, path, dim, hA, hB]

theorem amp_skewed {d : Nat} {δ : K} (hδ : δ ≠ 0) {i j : Nat} (hi : i < d) : amp (skewed d δ) [i, j] = if i = j then 1 else 0 := by
  rw [skewed, amp_two rfl rfl]
  simp only [diagTensor, List.getD_cons_succ, List.getD_cons_zero]
  rw [Finset.sum_eq_single i]
  · rw [if_pos rfl]
    by_cases h : i = j
    · subst h
      by_cases h0 : i = 0
      · simp [h0]
      · simp [h0, hδ]
    · simp [h]
  · intro k _ hk
    rw [if_neg (Ne.symm hk), zero_mul]
  · intro h; exact absurd (Finset.mem_range.2 hi) h

/-- the identity matrix is its own singular value decomposition -/
theorem identity_svd (d : Nat) : IsSVD (K := K) ⟨[d, d], fun I => if I.getD 0 0 = I.getD 1 0 then 1 else 0⟩ d d
    ⟨⟨[d, d], fun I => if I.getD 0 0 = I.getD 1 0 then 1 else 0⟩, List.replicate d 1, ⟨[d, d], fun I => if I.getD 0 0 = I.getD 1 0 then 1 else 0⟩⟩ := by
  have hs : ∀ k < d, (List.replicate d (1 : ℝ)).getD k 0 = 1 := by
    intro k hk
    rw [List.getD_eq_getElem _ _ (by simpa using hk)]; simp
  refine ⟨by simp, by simp, by simp, ?_, ?_, ?_⟩
  · intro i j hi hj
    simp only [Nat.min_self, List.getD_cons_succ, List.getD_cons_zero]
    rw [Finset.sum_eq_single i]
    · rw [hs i hi]; simp
    · intro k _ hk; rw [if_neg (Ne.symm hk)]; simp
    · intro h; exact absurd (Finset.mem_range.2 hi) h
  · intro k k' hk hk'
    simp only [Nat.min_self, List.getD_cons_succ, List.getD_cons_zero] at *
    rw [Finset.sum_eq_single k]
    · simp
    · intro i _ hi; rw [if_neg hi]; simp
    · intro h; exact absurd (Finset.mem_range.2 hk) h
  · intro k k' hk hk'
    simp only [Nat.min_self, List.getD_cons_succ, List.getD_cons_zero] at *
    rw [Finset.sum_eq_single k]
    · simp [eq_comm]
    · intro i _ hi; rw [if_neg (Ne.symm hi)]; simp
    · intro h; exact absurd (Finset.mem_range.2 hk) h

/-- a matrix of rank `l` is at a squared distance of at least `d - l` from the identity -/
theorem far_from_identity (d l : Nat) (X Y : Nat → Nat → K) :
    (d : ℝ) - l ≤ ∑ i ∈ Finset.range d, ∑ j ∈ Finset.range d, ‖(if i = j then (1 : K) else 0) - ∑ k ∈ Finset.range l, X i k * Y k j‖ ^ 2 := by
  have hs : ∀ k, (List.replicate d (1 : ℝ)).getD k 0 = if k < d then 1 else 0 := by
    intro k
    by_cases hk : k < d
    · rw [List.getD_eq_getElem _ _ (by simpa using hk), if_pos hk]; simp
    · rw [List.getD_eq_default _ _ (by simpa using hk), if_neg hk]
  have := eckart_young (identity_svd (K := K) d) (fun i => by simp only [hs]; split <;> norm_num)
    (fun i j hij => by simp only [hs]; split <;> split <;> first | omega | norm_num) l X Y
  simp only [List.getD_cons_succ, List.getD_cons_zero] at this
  refine le_trans ?_ this
  unfold discarded
  rw [Finset.sum_congr rfl (g := fun _ => (1 : ℝ)) fun j hj => by
    rw [hs, if_pos (by simpa using (Finset.mem_Ico.1 hj).2)]; norm_num]
  simp only [Finset.sum_const, Nat.card_Ico, List.length_replicate, nsmul_eq_mul, mul_one]
  rcases Nat.le_total l d with h | h
  · rw [Nat.cast_sub h]
  · have : (d : ℝ) ≤ l := by exact_mod_cast h
    have h0 : (0 : ℝ) ≤ ((d - l : Nat) : ℝ) := Nat.cast_nonneg _
    linarith

/-- **C117**, false in general: for every tolerance between 0 and 1, and in particular the default one, the state `∑ |i,i⟩` of two sites
of dimension `d` can be written with tensors of which `canonical_form` keeps a bond dimension 2 -/
theorem C117_skewed_violated {svd : Tensor K → SvdRes K} (hg : GoodSvd svd) (hs : SortedSvd svd) (eps : ℝ) {dflt : ℝ} (hd0 : 0 < dflt)
    (hd1 : dflt < 1) {d : Nat} (hd : 0 < d) :
    let ψ := skewed d (((dflt / d : ℝ)) : K)
    WF 1 ψ [d, d] 1 ∧ normSq [d, d] ψ = d ∧ (d : ℝ) - 2 ≤ distSq [d, d] ψ (canonicalForm svd eps dflt ψ (-1)).1 := by
  intro ψ
  have hdr : (0 : ℝ) < d := by exact_mod_cast hd
  set δ : K := ((dflt / d : ℝ) : K) with hδ
  have hδ0 : δ ≠ 0 := by
    rw [hδ]; exact RCLike.ofReal_ne_zero.2 (div_pos hd0 hdr).ne'
  have hw := skewed_wf (K := K) hd δ
  have hamp : ∀ i < d, ∀ j, amp ψ [i, j] = if i = j then 1 else 0 := fun i hi j => amp_skewed hδ0 hi
  refine ⟨hw, ?_, ?_⟩
  · unfold normSq
    simp only [sumCfg_cons, sumCfg_nil]
    have : ∀ i ∈ Finset.range d, ∑ j ∈ Finset.range d, ‖amp ψ [i, j]‖ ^ 2 = 1 := by
      intro i hi
      rw [Finset.sum_eq_single i]
      · rw [hamp i (Finset.mem_range.1 hi)]; simp
      · intro j _ hj; rw [hamp i (Finset.mem_range.1 hi), if_neg (Ne.symm hj)]; simp
      · intro h; exact absurd hi h
    rw [Finset.sum_congr rfl this]; simp
  · set B : Tensor K := diagTensor [d, d, 1] 0 1 1 δ with hB
    set sp := splitLeft svd eps dflt B true with hsp
    have e : canonicalForm svd eps dflt ψ (-1) = ([fold (diagTensor [1, d, d] 1 2 1 (1 / δ)) (-1) sp.V 0, sp.U], 0 + sp.lost) := by
      rfl
    obtain ⟨l, hl0, hVd, hUd, -⟩ := splitLeft_proj hg eps hd0 (t := B) (a := d) (d := d) (b := 1) rfl hd hd Nat.one_pos
    rw [← hsp] at hVd hUd
    -- the singular values of the second tensor
    have hsz : B.size / B.dims.getD 0 0 = d := by simp [hB, diagTensor, Tensor.size, hd]
    set A := reshape B [d, d] with hA
    have hsvd := hg A d d rfl hd hd
    have hAget : ∀ i j, i < d → j < d → A.get [i, j] = if i = j then (if i = 0 then 1 else δ) else 0 := by
      intro i j hi hj
      have : A.get [i, j] = B.get [i, j, 0] := by
        apply reshape_get
        · simp [hB, diagTensor, hi, hj]
        · simp [hB, diagTensor, flat]
      rw [this]; rfl
    have hl : l = whereToTruncate eps dflt (svd A).s (splitTol true) (min d d : Nat) := by
      have h1 : sp.U.dims = [whereToTruncate eps dflt (svd A).s (splitTol true) (min d d : Nat), d, 1] := by
        have h0 : B.dims.getD 0 0 = d := rfl
        rw [h0] at hsz
        simp only [hsp, splitLeft, h0, hsz, ← hA]
        rfl
      rw [hUd] at h1
      simpa using h1
    have hrank1 := eckart_young hsvd (fun i => by
        rcases Nat.lt_or_ge i (svd A).s.length with h | h
        · rw [List.getD_eq_getElem _ _ h]; exact (hs A).1 _ (List.getElem_mem h)
        · rw [List.getD_eq_default _ _ h]) (hs A).2 1 (fun i _ => if i = 0 then 1 else 0) (fun _ j => if j = 0 then 1 else 0)
    have hsum : ∑ i ∈ Finset.range d, ∑ j ∈ Finset.range d,
        ‖A.get [i, j] - ∑ k ∈ Finset.range 1, (if i = 0 then (1 : K) else 0) * (if j = 0 then 1 else 0)‖ ^ 2 ≤ d * ‖δ‖ ^ 2 := by
      have : ∀ i ∈ Finset.range d, ∑ j ∈ Finset.range d,
          ‖A.get [i, j] - ∑ k ∈ Finset.range 1, (if i = 0 then (1 : K) else 0) * (if j = 0 then 1 else 0)‖ ^ 2 ≤ ‖δ‖ ^ 2 := by
        intro i hi
        rw [Finset.sum_eq_single i]
        · rw [hAget i i (Finset.mem_range.1 hi) (Finset.mem_range.1 hi)]
          by_cases h0 : i = 0
          · simp [h0]
          · simp [h0]
        · intro j hj hne
          rw [hAget i j (Finset.mem_range.1 hi) (Finset.mem_range.1 hj), if_neg (Ne.symm hne)]
          by_cases h0 : i = 0
          · have : j ≠ 0 := by omega
            simp [this]
          · simp [h0]
        · intro h; exact absurd hi h
      refine (Finset.sum_le_sum this).trans ?_
      simp
    have htot : 1 ≤ discarded (svd A).s 0 := by
      rw [← hsvd.total]
      have h1 : ‖A.get [0, 0]‖ ^ 2 ≤ ∑ j ∈ Finset.range d, ‖A.get [0, j]‖ ^ 2 :=
        Finset.single_le_sum (f := fun j => ‖A.get [0, j]‖ ^ 2) (fun _ _ => by positivity) (Finset.mem_range.2 hd)
      have h2 : ∑ j ∈ Finset.range d, ‖A.get [0, j]‖ ^ 2 ≤ ∑ i ∈ Finset.range d, ∑ j ∈ Finset.range d, ‖A.get [i, j]‖ ^ 2 :=
        Finset.single_le_sum (f := fun i => ∑ j ∈ Finset.range d, ‖A.get [i, j]‖ ^ 2)
          (fun _ _ => Finset.sum_nonneg fun _ _ => by positivity) (Finset.mem_range.2 hd)
      have h3 : A.get [0, 0] = 1 := by rw [hAget 0 0 hd hd]; simp
      rw [h3] at h1
      simp at h1
      linarith
    have hδn : (d : ℝ) * ‖δ‖ ^ 2 ≤ dflt := by
      have h1 : ‖δ‖ = dflt / d := by rw [hδ, RCLike.norm_ofReal, abs_of_pos (div_pos hd0 hdr)]
      rw [h1]
      have hd1' : (1 : ℝ) ≤ d := by exact_mod_cast hd
      have : (d : ℝ) * (dflt / d) ^ 2 = dflt * (dflt / d) := by field_simp
      rw [this]
      have : dflt / d ≤ 1 := by rw [div_le_one hdr]; linarith
      nlinarith
    have hl2 : l ≤ 2 := by
      by_contra hcon
      push Not at hcon
      have h1 := (C18_tight eps dflt (svd A).s dflt hd0.le hd1 (min d d : Nat)).1 hd0 1
        (by rw [← C18_default eps dflt (svd A).s (splitTol true) (by simp [splitTol]) hd0.le, ← hl]; omega)
      have h2 : dflt ≤ max dflt eps * discarded (svd A).s 0 := by
        have h3 : dflt ≤ max dflt eps := le_max_left _ _
        nlinarith
      linarith
    rw [e]
    unfold distSq
    simp only [sumCfg_cons, sumCfg_nil]
    obtain ⟨fd, -⟩ := fold_BV (B := diagTensor (K := K) [1, d, d] 1 2 1 (1 / δ)) hVd rfl
    have hfar := far_from_identity (K := K) d l (fun i k => (fold (diagTensor [1, d, d] 1 2 1 (1 / δ)) (-1) sp.V 0).get [0, i, k])
      (fun k j => sp.U.get [k, j, 0])
    have h2 : (l : ℝ) ≤ 2 := by exact_mod_cast hl2
    refine le_trans (by linarith) (hfar.trans (le_of_eq ?_))
    refine Finset.sum_congr rfl fun i hi => Finset.sum_congr rfl fun j _ => ?_
    rw [hamp i (Finset.mem_range.1 hi), amp_two fd hUd]

/-- **C117**, the conclusion: whatever the tolerance (between 0 and 1), `canonical_form` may lose any fraction of the state below 1 -/
theorem C117_violated {svd : Tensor K → SvdRes K} (hg : GoodSvd svd) (hs : SortedSvd svd) (eps : ℝ) {dflt : ℝ} (hd0 : 0 < dflt)
    (hd1 : dflt < 1) {c : ℝ} (hc : c < 1) : ∃ (ds : List Nat) (ψ : List (Tensor K)), WF 1 ψ ds 1 ∧ ds.length = 2 ∧ 0 < normSq ds ψ ∧
      c * normSq ds ψ < distSq ds ψ (canonicalForm svd eps dflt ψ (-1)).1 := by
  obtain ⟨n, hn⟩ := exists_nat_gt (2 / (1 - c))
  obtain ⟨a1, a2, a3⟩ := C117_skewed_violated hg hs eps hd0 hd1 (d := n + 1) (by omega)
  refine ⟨[n + 1, n + 1], _, a1, rfl, ?_, ?_⟩
  · rw [a2]; positivity
  · rw [a2]
    refine lt_of_lt_of_le ?_ a3
    rw [div_lt_iff₀ (by linarith)] at hn
    push_cast
    nlinarith

/-- functions as the theorems require exist, and the default tolerance is between 0 and 1 -/
theorem C117_example : ∃ svd : Tensor K → SvdRes K, GoodSvd svd ∧ SortedSvd svd := exists_goodSvd_sorted

/-- **C120.**  For every state of an open chain, every site, tolerance and SVD, `y = canonical_form_at(psi, k)` is the point of its ray which is closest
to `psi`: `⟨y|psi⟩ = ⟨y|y⟩`, so that `|psi - y|² = |psi|² - |y|²`, the norm never grows, and no multiple of `y` is closer to `psi`. -/
theorem C120_canonical_form_at {svd : Tensor K → SvdRes K} (hg : GoodSvd svd) (eps : ℝ) {dflt : ℝ} (hd0 : 0 < dflt) {ds : List Nat}
    {ψ : List (Tensor K)} (hw : WF 1 ψ ds 1) (k : Nat) (hk : k < ds.length) :
    let y := (canonicalFormAt svd eps dflt ψ k).1
    WF 1 y ds 1 ∧ MPS.inner ds (amp y) (amp ψ) = MPS.inner ds (amp y) (amp y) ∧ distSq ds ψ y = normSq ds ψ - normSq ds y ∧
      normSq ds y ≤ normSq ds ψ ∧ ∀ c : K, distSq ds ψ y ≤ sumCfg ds fun s => ‖amp ψ s - c * amp y s‖ ^ 2 := by
  intro y
  obtain ⟨h1, h2⟩ := form_proj hg eps hd0 hw k hk
  have h3 := proj_dist h2
  have h4 : 0 ≤ distSq ds ψ y := sumCfg_nonneg _ _ fun _ _ => by positivity
  refine ⟨h1, h2, h3, by have h3' : distSq ds ψ y = normSq ds ψ - normSq ds y := h3
                         linarith, fun c => ?_⟩
  have e := Obc.dist_expand ds (fun s => c * amp y s) (amp ψ)
  have e1 : (sumCfg ds fun s => star (c * amp y s) * amp ψ s) = star c * ((normSq ds y : ℝ) : K) := by
    have : (sumCfg ds fun s => star (c * amp y s) * amp ψ s) = star c * MPS.inner ds (amp y) (amp ψ) := by
      unfold MPS.inner
      rw [← sumCfg_mul_left]
      exact sumCfg_congr fun s _ => by rw [star_mul']; ring
    rw [this, h2, inner_self_ofReal]; rfl
  have e2 : (sumCfg ds fun s => ‖c * amp y s‖ ^ 2) = ‖c‖ ^ 2 * normSq ds y := by
    unfold normSq
    rw [← sumCfg_mul_left]
    exact sumCfg_congr fun s _ => by rw [norm_mul, mul_pow]
  have e3 : (sumCfg ds fun s => ‖amp ψ s - c * amp y s‖ ^ 2) = sumCfg ds fun s => ‖c * amp y s - amp ψ s‖ ^ 2 :=
    sumCfg_congr fun s _ => by rw [norm_sub_rev]
  have h3' : distSq ds ψ y = normSq ds ψ - normSq ds y := h3
  have hre : RCLike.re (star c * ((normSq ds y : ℝ) : K)) = RCLike.re c * normSq ds y := by
    rw [RCLike.re_mul_ofReal]; simp
  rw [e3, e, e1, e2, hre, h3']
  have hn : (sumCfg ds fun s => ‖amp ψ s‖ ^ 2) = normSq ds ψ := rfl
  rw [hn]
  have hc : RCLike.re c ≤ ‖c‖ := RCLike.re_le_norm c
  have hy := Trotter.normSq_nonneg ds y
  nlinarith [mul_nonneg hy (sq_nonneg (‖c‖ - 1)), mul_nonneg hy (sub_nonneg.2 hc)]

/-- **C120** for `canonical_form(psi, sense)` -/
theorem C120_canonical_form {svd : Tensor K → SvdRes K} (hg : GoodSvd svd) (eps : ℝ) {dflt : ℝ} (hd0 : 0 < dflt) {ds : List Nat}
    {ψ : List (Tensor K)} (hw : WF 1 ψ ds 1) (hne : ψ ≠ []) (sense : Int) :
    let y := (canonicalForm svd eps dflt ψ sense).1
    WF 1 y ds 1 ∧ MPS.inner ds (amp y) (amp ψ) = MPS.inner ds (amp y) (amp y) ∧ distSq ds ψ y = normSq ds ψ - normSq ds y ∧
      normSq ds y ≤ normSq ds ψ ∧ ∀ c : K, distSq ds ψ y ≤ sumCfg ds fun s => ‖amp ψ s - c * amp y s‖ ^ 2 := by
  have hl := hw.length
  have hp := List.length_pos_iff.2 hne
  exact C120_canonical_form_at hg eps hd0 hw _ (by split <;> omega)

/-- the hypotheses are met by the state of `C117_skewed_violated`, which loses a part of its norm -/
example : ∃ (svd : Tensor ℂ → SvdRes ℂ) (ψ : List (Tensor ℂ)) (ds : List Nat), GoodSvd svd ∧ WF 1 ψ ds 1 ∧ ψ ≠ [] ∧
    normSq ds (canonicalForm svd (1 / 8) (1 / 8) ψ (-1)).1 ≠ normSq ds ψ := by
  obtain ⟨svd, hg, hs⟩ := exists_goodSvd_sorted (K := ℂ)
  obtain ⟨a1, a2, a3⟩ := C117_skewed_violated hg hs (1 / 8) (dflt := 1 / 8) (by norm_num) (by norm_num) (d := 3) (by norm_num)
  have h := (C120_canonical_form hg (1 / 8) (dflt := 1 / 8) (by norm_num) a1 (by simp [skewed]) (-1)).2.2.1
  refine ⟨svd, _, _, hg, a1, by simp [skewed], fun e => ?_⟩
  rw [h, e, sub_self] at a3
  norm_num at a3

end MPS.Props
