import Verif.CanonLemmas3
import Verif.SvdExists

/-!
# Properties of canonical forms: C14, C15, C16, C17

All theorems hold for every function `svd` which returns singular value decompositions (`GoodSvd`; such functions
exist, `exists_goodSvd`), for real (`K = ℝ`) and complex (`K = ℂ`) states.  `eps` is the machine epsilon and `dflt`
the value of the flag `MPS_TRUNCATION_TOLERANCE`.  The second component of the result of the model's functions is the
total weight (sum of squares) of the singular values which were dropped.
-/

set_option linter.unusedSectionVars false
set_option linter.unusedSimpArgs false

namespace MPS.Props
open MPS Tensor
variable {K : Type} [RCLike K]

/-- either the truncation tolerance is positive (the default), or it is zero and the state is not the zero vector -/
def TolOk (dflt : ℝ) (ds : List Nat) (ψ : List (Tensor K)) : Prop :=
  0 < dflt ∨ (dflt = 0 ∧ ∃ s, IsCfg ds s ∧ amp ψ s ≠ 0)

theorem TolOk.start {dflt : ℝ} {ds : List Nat} {ψ : List (Tensor K)} {D : Nat} (hw : WF D ψ ds D) (hne : ψ ≠ [])
    (h : TolOk dflt ds ψ) : StartOk dflt D ds ψ := by
  rcases h with h | ⟨h, s, hs, ha⟩
  · exact Or.inl h
  · refine Or.inr ⟨h, s, hs, ?_⟩
    rw [amp_of_WF hw hne] at ha
    obtain ⟨x, hx, hp⟩ := Finset.exists_ne_zero_of_sum_ne_zero ha
    exact ⟨x, Finset.mem_range.1 hx, x, hp⟩

theorem canon_core {svd : Tensor K → SvdRes K} (hg : GoodSvd svd) (eps dflt : ℝ) {ds : List Nat} {ψ : List (Tensor K)}
    (h : IsMPS ds ψ) (ht : TolOk dflt ds ψ) (k : Nat) (hk : k < ds.length) :
    let y := canonicalFormAt svd eps dflt ψ k
    IsMPS ds y.1 ∧ (y.2 = 0 → ∀ s, IsCfg ds s → amp y.1 s = amp ψ s) ∧ (dflt = 0 ∨ 1 ≤ dflt → y.2 = 0) ∧ 0 ≤ y.2 ∧
    (∀ j, j < k → LeftIso (site y.1 j)) ∧ (∀ j, k < j → j < ds.length → RightIso (site y.1 j)) := by
  obtain ⟨hne, D, hw⟩ := h
  intro y
  obtain ⟨h1, h2, h3, h4⟩ := eitherForm_spec hg eps hw (ht.start hw hne) k (by rw [hw.length]; exact hk)
  have hyne : y.1 ≠ [] := by
    intro hh
    have : y.1.length = ψ.length := h2
    rw [hh] at this
    exact hne (List.length_eq_zero_iff.1 this.symm)
  refine ⟨⟨hyne, D, h1.wf⟩, fun h0 s hs => ?_, h1.lossless, h1.nonneg, h3, fun j hj hj2 => h4 j hj (by rw [hw.length]; exact hj2)⟩
  rw [amp_of_WF (show WF D y.1 ds D from h1.wf) hyne, amp_of_WF hw hne]
  exact Finset.sum_congr rfl fun x hx => h1.same h0 s hs x (Finset.mem_range.1 hx) x

/-- **C14.**  `canonical_form_at(psi, k)` is a matrix product state on the same local dimensions, with exactly the same
amplitudes whenever no non-zero singular value was dropped; with tolerance 0 none is ever dropped. -/
theorem C14_canonical_form_at {svd : Tensor K → SvdRes K} (hg : GoodSvd svd) (eps dflt : ℝ) {ds : List Nat}
    {ψ : List (Tensor K)} (h : IsMPS ds ψ) (ht : TolOk dflt ds ψ) (k : Nat) (hk : k < ds.length) :
    let y := canonicalFormAt svd eps dflt ψ k
    IsMPS ds y.1 ∧ (y.2 = 0 → ∀ s, IsCfg ds s → amp y.1 s = amp ψ s) ∧ (dflt = 0 ∨ 1 ≤ dflt → y.2 = 0) := by
  obtain ⟨h1, h2, h3, -⟩ := canon_core hg eps dflt h ht k hk
  exact ⟨h1, h2, h3⟩

/-- **C14.**  The same for `canonical_form(psi, sense)`. -/
theorem C14_canonical_form {svd : Tensor K → SvdRes K} (hg : GoodSvd svd) (eps dflt : ℝ) {ds : List Nat}
    {ψ : List (Tensor K)} (h : IsMPS ds ψ) (ht : TolOk dflt ds ψ) (sense : Int) :
    let y := canonicalForm svd eps dflt ψ sense
    IsMPS ds y.1 ∧ (y.2 = 0 → ∀ s, IsCfg ds s → amp y.1 s = amp ψ s) ∧ (dflt = 0 ∨ 1 ≤ dflt → y.2 = 0) := by
  have hl : ψ.length = ds.length := by obtain ⟨_, D, hw⟩ := h; exact hw.length
  have hp : 0 < ψ.length := List.length_pos_iff.mpr h.1
  exact C14_canonical_form_at hg eps dflt h ht _ (by split <;> omega)

/-- **C15.**  In `canonical_form_at(psi, k)` all tensors to the left of `k` are left isometries and all tensors to the
right of `k` are right isometries (whatever is truncated). -/
theorem C15_canonical_form_at {svd : Tensor K → SvdRes K} (hg : GoodSvd svd) (eps dflt : ℝ) {ds : List Nat}
    {ψ : List (Tensor K)} (h : IsMPS ds ψ) (ht : TolOk dflt ds ψ) (k : Nat) (hk : k < ds.length) :
    let y := canonicalFormAt svd eps dflt ψ k
    y.1.length = ds.length ∧ (∀ j, j < k → LeftIso (site y.1 j)) ∧ (∀ j, k < j → j < ds.length → RightIso (site y.1 j)) := by
  obtain ⟨⟨_, D, hw⟩, -, -, -, h1, h2⟩ := canon_core hg eps dflt h ht k hk
  exact ⟨hw.length, h1, h2⟩

/-- **C15.**  `canonical_form(psi, -1)` is centred on the first site: all others are right isometries;
`canonical_form(psi, +1)` is centred on the last site: all others are left isometries. -/
theorem C15_canonical_form {svd : Tensor K → SvdRes K} (hg : GoodSvd svd) (eps dflt : ℝ) {ds : List Nat}
    {ψ : List (Tensor K)} (h : IsMPS ds ψ) (ht : TolOk dflt ds ψ) (sense : Int) :
    let y := canonicalForm svd eps dflt ψ sense
    (sense < 0 → ∀ j, 0 < j → j < ds.length → RightIso (site y.1 j)) ∧
    (0 ≤ sense → ∀ j, j + 1 < ds.length → LeftIso (site y.1 j)) := by
  have hl : ψ.length = ds.length := by obtain ⟨_, D, hw⟩ := h; exact hw.length
  have hp : 0 < ψ.length := List.length_pos_iff.mpr h.1
  intro y
  constructor
  · intro hs
    have : y = canonicalFormAt svd eps dflt ψ 0 := by simp only [y, canonicalForm, if_pos hs]
    rw [this]
    exact (C15_canonical_form_at hg eps dflt h ht 0 (by omega)).2.2
  · intro hs j hj
    have : y = canonicalFormAt svd eps dflt ψ (ψ.length - 1) := by simp only [y, canonicalForm, if_neg (not_lt.mpr hs)]
    rw [this]
    exact (C15_canonical_form_at hg eps dflt h ht (ψ.length - 1) (by omega)).2.1 j (by omega)

/-- the hypotheses of C14 and C15 can be met: a decomposition exists, and a two-site state with tolerance 0 -/
example : (∃ svd : Tensor ℝ → SvdRes ℝ, GoodSvd svd) ∧
    IsMPS [2, 1] [⟨[1, 2, 2], fun _ => (1 : ℝ)⟩, ⟨[2, 1, 1], fun _ => (1 : ℝ)⟩] ∧
    TolOk 0 [2, 1] [⟨[1, 2, 2], fun _ => (1 : ℝ)⟩, ⟨[2, 1, 1], fun _ => (1 : ℝ)⟩] := by
  refine ⟨exists_goodSvd, ⟨by simp, 1, WF.cons rfl (by omega) (by omega) (by omega)
    (WF.single rfl (by omega) (by omega) (by omega))⟩, Or.inr ⟨rfl, [0, 0], ?_, ?_⟩⟩
  · exact List.Forall₂.cons (by omega) (List.Forall₂.cons (by omega) List.Forall₂.nil)
  · simp [amp, path, dim, Finset.sum_range_succ]

/-! ### C16 -/

theorem path_set_smul {a b : Nat} {ψ : List (Tensor K)} {ds : List Nat} (h : WF a ψ ds b) (k : Nat) (hk : k < ψ.length)
    (c : K) : WF a (ψ.set k (smul c (site ψ k))) ds b ∧
      ∀ s, IsCfg ds s → ∀ u < a, ∀ v, path (ψ.set k (smul c (site ψ k))) s u v = c * path ψ s u v := by
  obtain ⟨pre, X, post, rfl, hlen⟩ := split_at ψ k hk
  have hX : site (pre ++ X :: post) k = X := by simp [site, ← hlen]
  have hset : (pre ++ X :: post).set k (smul c X) = pre ++ smul c X :: post := by
    simp [List.set_append, ← hlen]
  rw [hX, hset]
  obtain ⟨ds1, ds', e, rfl, w1, w2⟩ := h.split
  cases w2 with
  | @cons e d f b A As ds3 hXd hc hd he w3 =>
  refine ⟨w1.append (WF.cons hXd hc hd he w3), fun s hs u hu v => ?_⟩
  obtain ⟨s1, s', rfl, hs1, hs'⟩ := isCfg_split hs
  have l1 : s1.length = pre.length := by rw [hs1.length, w1.length]
  rw [path_append w1 l1 hu, path_append w1 l1 hu, Finset.mul_sum]
  refine Finset.sum_congr rfl fun x _ => ?_
  cases s' with
  | nil => cases hs'
  | cons i s' =>
    rw [path_cons, path_cons]
    have : (smul c X).dim 2 = X.dim 2 := rfl
    rw [this, Finset.mul_sum, Finset.mul_sum, Finset.mul_sum]
    refine Finset.sum_congr rfl fun y _ => ?_
    simp only [smul]; ring

/-- **C16**, open chains (outer bonds of size 1): `normal_form_at(psi, k)` is `canonical_form_at(psi, k)` divided by
its norm, and has norm 1, provided this norm is not zero.  When no non-zero singular value was dropped and `psi` is not
zero, the amplitudes are those of `psi` divided by `norm2(psi)`. -/
theorem C16_normal_form_at {svd : Tensor K → SvdRes K} (hg : GoodSvd svd) (eps dflt : ℝ) {ds : List Nat}
    {ψ : List (Tensor K)} (hne : ψ ≠ []) (hw : WF 1 ψ ds 1) (ht : TolOk dflt ds ψ) (k : Nat) (hk : k < ds.length) :
    let y := canonicalFormAt svd eps dflt ψ k
    let z := normalFormAt svd eps dflt ψ k
    IsMPS ds z.1 ∧ z.2 = y.2 ∧
    (∀ s, IsCfg ds s → amp z.1 s = ((1 / norm2 y.1 : ℝ) : K) * amp y.1 s) ∧
    (norm2 y.1 ≠ 0 → norm2 z.1 = 1) ∧
    (z.2 = 0 → norm2 ψ ≠ 0 → norm2 z.1 = 1 ∧ ∀ s, IsCfg ds s → amp z.1 s = ((1 / norm2 ψ : ℝ) : K) * amp ψ s) := by
  intro y z
  have hmps : IsMPS ds ψ := ⟨hne, 1, hw⟩
  obtain ⟨h1, h2, h3, h4⟩ := eitherForm_spec hg eps hw (ht.start hw hne) k (by rw [hw.length]; exact hk)
  have hylen : y.1.length = ψ.length := h2
  have hky : k < y.1.length := by rw [hylen, hw.length]; exact hk
  have hyne : y.1 ≠ [] := by
    intro hh; rw [hh] at hky; simp at hky
  have hyw : WF 1 y.1 ds 1 := h1.wf
  have hymps : IsMPS ds y.1 := ⟨hyne, 1, hyw⟩
  have ampy : ∀ (φ : List (Tensor K)), φ ≠ [] → WF 1 φ ds 1 → ∀ s, amp φ s = path φ s 0 0 := by
    intro φ hφ hwφ s; rw [amp_of_WF hwφ hφ]; simp
  -- the norm of the central tensor
  have hnorm : frob (site y.1 k) = norm2 y.1 := by
    obtain ⟨a', d, b', hdims, hsum⟩ := canonical_norm hyw k hky h3 (fun j hj hj2 => h4 j hj (by rw [← hylen]; exact hj2))
    have e1 := inner_self_ofReal (𝕜 := K) ds (amp y.1)
    rw [norm2_spec hymps, eq_comm, Real.sqrt_eq_iff_mul_self_eq (sumCfg_nonneg _ _ fun s _ => sq_nonneg ‖amp y.1 s‖)
      (show 0 ≤ frob (site y.1 k) from Real.sqrt_nonneg _), ← pow_two, frob_sq hdims]
    have e2 : ((∑ x ∈ Finset.range a', ∑ i ∈ Finset.range d, ∑ v ∈ Finset.range b',
        ‖(site y.1 k).get [x, i, v]‖ ^ 2 : ℝ) : K) = ((sumCfg ds (fun s => ‖amp y.1 s‖ ^ 2) : ℝ) : K) := by
      rw [← e1]
      have hs : MPS.inner ds (amp y.1) (amp y.1) = sumCfg ds (fun s => star (path y.1 s 0 0) * path y.1 s 0 0) := by
        unfold MPS.inner
        simp only [ampy y.1 hyne hyw]
      rw [hs]
      simp only [Finset.sum_range_one] at hsum
      rw [show sumCfg ds (fun s => star (path y.1 s 0 0) * path y.1 s 0 0) = _ from hsum]
      push_cast
      refine Finset.sum_congr rfl fun x _ => Finset.sum_congr rfl fun i _ => Finset.sum_congr rfl fun v _ => ?_
      have := RCLike.conj_mul ((site y.1 k).get [x, i, v])
      simpa using this.symm
    exact_mod_cast e2.symm
  have hz1 : z.1 = y.1.set k (smul ((1 / norm2 y.1 : ℝ) : K) (site y.1 k)) := by
    rw [← hnorm]; rfl
  have hz2 : z.2 = y.2 := rfl
  obtain ⟨p1, p2⟩ := path_set_smul hyw k hky ((1 / norm2 y.1 : ℝ) : K)
  rw [← hz1] at p1 p2
  have hzne : z.1 ≠ [] := by
    intro hh
    have : z.1.length = y.1.length := by rw [hz1]; simp
    rw [hh] at this; exact hyne (List.length_eq_zero_iff.1 this.symm)
  have hamp : ∀ s, IsCfg ds s → amp z.1 s = ((1 / norm2 y.1 : ℝ) : K) * amp y.1 s := by
    intro s hs
    rw [ampy z.1 hzne p1, ampy y.1 hyne hyw, p2 s hs 0 (by omega) 0]
  have hzmps : IsMPS ds z.1 := ⟨hzne, 1, p1⟩
  have hone : norm2 y.1 ≠ 0 → norm2 z.1 = 1 := by
    intro hn
    rw [norm2_spec hzmps]
    have : sumCfg ds (fun s => ‖amp z.1 s‖ ^ 2) = (1 / norm2 y.1) ^ 2 * sumCfg ds (fun s => ‖amp y.1 s‖ ^ 2) := by
      rw [← sumCfg_mul_left]
      refine sumCfg_congr fun s hs => ?_
      rw [hamp s hs, norm_mul, mul_pow, RCLike.norm_ofReal, sq_abs]
    have h2 : sumCfg ds (fun s => ‖amp y.1 s‖ ^ 2) = norm2 y.1 ^ 2 := by
      rw [norm2_spec hymps, Real.sq_sqrt (sumCfg_nonneg _ _ fun _ _ => by positivity)]
    rw [this, h2]
    have : (1 / norm2 y.1) ^ 2 * norm2 y.1 ^ 2 = 1 := by field_simp
    rw [this, Real.sqrt_one]
  refine ⟨hzmps, hz2, hamp, hone, fun h0 hn => ?_⟩
  rw [hz2] at h0
  have hsame : ∀ s, IsCfg ds s → amp y.1 s = amp ψ s := (canon_core hg eps dflt hmps ht k hk).2.1 h0
  have hnn : norm2 y.1 = norm2 ψ := by
    rw [norm2_spec hymps, norm2_spec hmps]
    congr 1
    exact sumCfg_congr fun s hs => by rw [hsame s hs]
  refine ⟨hone (by rw [hnn]; exact hn), fun s hs => ?_⟩
  rw [hamp s hs, hnn, hsame s hs]

/-- **C16**, `normal_form(psi, sense)`. -/
theorem C16_normal_form {svd : Tensor K → SvdRes K} (hg : GoodSvd svd) (eps dflt : ℝ) {ds : List Nat}
    {ψ : List (Tensor K)} (hne : ψ ≠ []) (hw : WF 1 ψ ds 1) (ht : TolOk dflt ds ψ) (sense : Int) (hn : norm2 ψ ≠ 0) :
    let z := normalForm svd eps dflt ψ sense
    z.2 = 0 → norm2 z.1 = 1 ∧ ∀ s, IsCfg ds s → amp z.1 s = ((1 / norm2 ψ : ℝ) : K) * amp ψ s := by
  have hl : ψ.length = ds.length := hw.length
  have hp : 0 < ψ.length := List.length_pos_iff.mpr hne
  intro z h0
  exact (C16_normal_form_at hg eps dflt hne hw ht (if sense < 0 then 0 else ψ.length - 1)
    (by split <;> omega)).2.2.2.2 h0 hn

/-- a periodic state: one site with the 2×2 identity matrix -/
def pbcState : List (Tensor ℝ) := [⟨[2, 1, 2], fun i => if i.getD 0 0 = i.getD 2 0 then 1 else 0⟩]

/-- **C16**, why the claim is restricted to open chains: on periodic chains the tensor norm is not the norm of the state.  The "normal form" of a
one-site periodic state has norm `√2`, whatever the decomposition used. -/
theorem C16_periodic_violated (svd : Tensor ℝ → SvdRes ℝ) (eps dflt : ℝ) :
    IsMPS [1] pbcState ∧ norm2 pbcState ≠ 0 ∧ norm2 (normalFormAt svd eps dflt pbcState 0).1 ≠ 1 := by
  have h1 : IsMPS [1] pbcState := ⟨by simp [pbcState], 2, WF.single rfl (by omega) (by omega) (by omega)⟩
  have hf : frob (site pbcState 0) ^ 2 = 2 := by
    rw [frob_sq (a := 2) (d := 1) (b := 2) rfl]
    simp only [Finset.sum_range_succ, Finset.sum_range_zero, site, pbcState]
    norm_num
  have hz : (normalFormAt svd eps dflt pbcState 0).1
      = [smul ((1 / frob (site pbcState 0) : ℝ) : ℝ) (site pbcState 0)] := rfl
  have hzm : IsMPS [1] (normalFormAt svd eps dflt pbcState 0).1 := by
    rw [hz]; exact ⟨by simp, 2, WF.single rfl (by omega) (by omega) (by omega)⟩
  refine ⟨h1, ?_, ?_⟩
  · rw [norm2_spec h1]
    simp [sumCfg_cons, amp, path, pbcState, dim, Finset.sum_range_succ]
  · rw [norm2_spec hzm, hz]
    intro hh
    have h2 : sumCfg [1] (fun s => ‖amp [smul ((1 / frob (site pbcState 0) : ℝ) : ℝ) (site pbcState 0)] s‖ ^ 2) = 1 := by
      have := congrArg (· ^ 2) hh
      simp only [one_pow] at this
      rwa [Real.sq_sqrt (sumCfg_nonneg _ _ fun _ _ => by positivity)] at this
    have h3 : ∀ c : ℝ, sumCfg [1] (fun s => ‖amp [smul c (site pbcState 0)] s‖ ^ 2) = (2 * c) ^ 2 := by
      intro c
      simp [sumCfg_cons, amp, path, pbcState, dim, Finset.sum_range_succ, smul, site]
      ring
    have h4 := h3 (1 / frob (site pbcState 0))
    have h5 : (2 * (1 / frob (site pbcState 0))) ^ 2 = 1 := by
      rw [← h4]; exact h2
    have : frob (site pbcState 0) ≠ 0 := by
      intro h0; rw [h0] at hf; norm_num at hf
    have h6 : (2 * (1 / frob (site pbcState 0))) ^ 2 = 4 / frob (site pbcState 0) ^ 2 := by
      rw [mul_pow, div_pow]; ring
    rw [h6, hf] at h5
    norm_num at h5

end MPS.Props
