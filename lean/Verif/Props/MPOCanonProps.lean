import Verif.MPOCanonLemmas2

/-!
# Properties C34 (apply_canonical), C35 (fidelity of operators), C36 (simplify of operators)
-/

set_option linter.unusedSectionVars false
set_option linter.unusedSimpArgs false

namespace MPS.Props
open MPS Tensor
variable {K : Type} [RCLike K]

theorem effTol_cases (dflt : ℝ) (hd0 : 0 ≤ dflt) (trunc : Bool) :
    0 < effTol dflt (splitTol trunc) ∨ effTol dflt (splitTol trunc) = 0 := by
  cases trunc
  · right; exact effTol_zeros dflt
  · rw [effTol_default]
    rcases hd0.lt_or_eq with h | h
    · exact Or.inl h
    · exact Or.inr h.symm

/-- **C34.**  On open chains, `apply_canonical(O, psi, sense, truncate)` is in canonical form in the given sense, and
represents `O|psi⟩`, exactly as `apply(O, psi)`, whenever no non-zero singular value is dropped; with `truncate = false`
none is dropped.  The result must not be the zero vector, unless `truncate` is true and the tolerance is positive
(see `C34_zero_violated`). -/
theorem C34_apply_canonical {svd : Tensor K → SvdRes K} (hg : GoodSvd svd) (eps : ℝ) {dflt : ℝ} (hd0 : 0 ≤ dflt)
    {O ψ : List (Tensor K)} {ds : List Nat} (hne : ψ ≠ []) (hO : WFO 1 O ds 1) (hψ : WF 1 ψ ds 1) (sense : Int) (trunc : Bool)
    (hok : (trunc = true ∧ 0 < dflt) ∨ ∃ s, IsCfg ds s ∧ actOp ds (opElt O) (amp ψ) s ≠ 0) :
    ∃ χ lost, applyCanonical svd eps dflt O ψ sense trunc = some (χ, lost) ∧ WF 1 χ ds 1 ∧ 0 ≤ lost ∧
      (trunc = false → lost = 0) ∧
      (sense > 0 → ∀ j, j + 1 < ds.length → LeftIso (site χ j)) ∧
      (sense ≤ 0 → ∀ j, 0 < j → j < ds.length → RightIso (site χ j)) ∧
      (lost = 0 → (∀ s, IsCfg ds s → amp χ s = actOp ds (opElt O) (amp ψ) s) ∧
        ∃ χ', applyMPO O ψ = some χ' ∧ ∀ s, IsCfg ds s → amp χ s = amp χ' s) := by
  have hlen : O.length = ψ.length := by rw [hO.length, hψ.length]
  have hOne : O ≠ [] := by
    intro h; apply hne; rw [h] at hlen; exact List.length_eq_zero_iff.1 hlen.symm
  have hact : ∀ s, actOp ds (opElt O) (amp ψ) s = piece ds O ψ s 0 0 := by
    intro s
    unfold actOp piece
    refine sumCfg_congr fun t _ => ?_
    rw [opElt_of_WFO hO hOne, amp_of_WF hψ hne]
    simp
  have hpos : PieceOk dflt trunc (∃ s, IsCfg ds s ∧ piece ds O ψ s 0 0 ≠ 0) := by
    rcases hok with ⟨rfl, h⟩ | ⟨s, hs, h⟩
    · left; rw [effTol_default]; exact h
    · rcases effTol_cases dflt hd0 trunc with h1 | h1
      · exact Or.inl h1
      · exact Or.inr ⟨h1, s, hs, by rw [← hact]; exact h⟩
  obtain ⟨χ', hap, -, hamp'⟩ := applyMPO_spec ⟨hOne, 1, hO⟩ ⟨hne, 1, hψ⟩
  have fin : ∀ (χ : List (Tensor K)) (lost : ℝ), WF 1 χ ds 1 → (lost = 0 → ∀ s, IsCfg ds s → path χ s 0 0 = piece ds O ψ s 0 0) →
      (lost = 0 → (∀ s, IsCfg ds s → amp χ s = actOp ds (opElt O) (amp ψ) s) ∧
        ∃ χ', applyMPO O ψ = some χ' ∧ ∀ s, IsCfg ds s → amp χ s = amp χ' s) := by
    intro χ lost hw hp h0
    have hχne : χ ≠ [] := by
      intro h; have := hw.length; rw [h, ← hψ.length] at this; exact hne (List.length_eq_zero_iff.1 this.symm)
    have h1 : ∀ s, IsCfg ds s → amp χ s = actOp ds (opElt O) (amp ψ) s := by
      intro s hs
      rw [amp_of_WF hw hχne, hact]
      simpa using hp h0 s hs
    exact ⟨h1, χ', hap, fun s hs => by rw [h1 s hs, hamp' s hs]⟩
  unfold applyCanonical
  rw [if_pos hlen]
  by_cases hs : sense > 0
  · rw [if_pos hs]
    have hpos' : PieceOk dflt trunc (∃ s, IsCfg ds s ∧ ∃ x < 1, ∑ u ∈ Finset.range 1, ∑ v ∈ Finset.range 1,
        (⟨[1, 1, 1], fun _ => 1⟩ : Tensor K).get [x, u, v] * piece ds O ψ s u v ≠ 0) := by
      rcases hpos with h | ⟨h, s, hs, h1⟩
      · exact Or.inl h
      · exact Or.inr ⟨h, s, hs, 0, by omega, by simpa using h1⟩
    obtain ⟨h1, h2, h3, h4, h5⟩ := applyRight_spec hg eps hd0 trunc hO hψ hOne ⟨[1, 1, 1], fun _ => 1⟩ 1 rfl (by omega) hpos'
    refine ⟨_, _, rfl, h1, h2, ?_, fun _ => h4, fun h => by omega, fin _ _ h1 fun h0 s hs => ?_⟩
    · rintro rfl; exact h3 (Or.inl (effTol_zeros dflt))
    · have := h5 h0 s hs 0 (by omega)
      simpa using this
  · rw [if_neg hs]
    obtain ⟨h1, h2, h3, h4, h5⟩ := applyLeftAll_spec hg eps hd0 trunc hO hψ hOne hpos
    refine ⟨_, _, rfl, h1, h2, ?_, fun h => absurd h hs, fun _ => h4, fin _ _ h1 h5⟩
    rintro rfl; exact h3 (Or.inl (effTol_zeros dflt))

/-- **C34**, sizes must agree -/
theorem C34_size_mismatch (svd : Tensor K → SvdRes K) (eps dflt : ℝ) {O ψ : List (Tensor K)} (h : O.length ≠ ψ.length)
    (sense : Int) (trunc : Bool) : applyCanonical svd eps dflt O ψ sense trunc = none := by
  unfold applyCanonical; rw [if_neg h]

/-- **C34**, why the result must not vanish: with `truncate = false`, applying the identity to a two-site state which is
zero gives a tensor with an empty bond (dimension 0), not a matrix product state. -/
theorem C34_zero_violated {svd : Tensor ℝ → SvdRes ℝ} (hg : GoodSvd svd) (eps dflt : ℝ) :
    let O : List (Tensor ℝ) := [⟨[1, 1, 1, 1], fun _ => 1⟩, ⟨[1, 1, 1, 1], fun _ => 1⟩]
    let ψ : List (Tensor ℝ) := [zeros [1, 1, 1], zeros [1, 1, 1]]
    WFO 1 O [1, 1] 1 ∧ WF 1 ψ [1, 1] 1 ∧
    ∀ χ lost, applyCanonical svd eps dflt O ψ 1 false = some (χ, lost) → (site χ 0).dims = [1, 1, 0] := by
  intro O ψ
  refine ⟨WFO.cons rfl (by omega) (by omega) (by omega) (WFO.cons rfl (by omega) (by omega) (by omega) (WFO.nil _)),
    WF.cons rfl (by omega) (by omega) (by omega) (WF.single rfl (by omega) (by omega) (by omega)), ?_⟩
  intro χ lost h
  have hχ : site χ 0 = (splitRight svd eps dflt (rightSite ⟨[1, 1, 1], fun _ => 1⟩ ⟨[1, 1, 1, 1], fun _ => 1⟩ (zeros [1, 1, 1])) false).U := by
    unfold applyCanonical at h
    rw [if_pos (show O.length = ψ.length from rfl), if_pos (by omega), Option.some.injEq] at h
    have := congrArg (fun x : List (Tensor ℝ) × ℝ => site x.1 0) h
    simp only at this
    rw [← this]
    rfl
  rw [hχ]
  set t : Tensor ℝ := rightSite ⟨[1, 1, 1], fun _ => 1⟩ ⟨[1, 1, 1, 1], fun _ => 1⟩ (zeros [1, 1, 1]) with ht
  have htd : t.dims = [1, 1, 1] := rightSite_dims (b := 1) (c := 1) (a := 1) (d := 1) (c' := 1) (a' := 1) rfl rfl rfl
  have hsz : t.size = 1 := by simp [size, htd]
  have hsvd := hg (reshape t [1, 1]) 1 1 rfl (by omega) (by omega)
  have h00 : (reshape t [1, 1]).get [0, 0] = 0 := by
    have h1 : (reshape t [1, 1]).get [0, 0] = t.get [0, 0, 0] := by
      apply reshape_get
      · rw [htd]; simp
      · rw [htd]; rfl
    have h2 := rightSite_get (L := (⟨[1, 1, 1], fun _ => 1⟩ : Tensor ℝ)) (O := (⟨[1, 1, 1, 1], fun _ => 1⟩ : Tensor ℝ)) (A := zeros [1, 1, 1])
      (b := 1) (c := 1) (a := 1) (d := 1) (c' := 1) (a' := 1) rfl rfl rfl (x := 0) (i := 0) (z := 0) (w := 0)
      (by omega) (by omega) (by omega) (by omega)
    simp only [Nat.mul_zero, Nat.add_zero] at h2
    rw [h1, ht, h2]
    simp [zeros]
  set res := svd (reshape t [1, 1]) with hres
  have hl : res.s.length = 1 := hsvd.lenS
  obtain ⟨x, hx⟩ := List.length_eq_one_iff.1 hl
  have hx0 : x = 0 := by
    have hp := hsvd.prod 0 0 (by omega) (by omega)
    have hu := hsvd.isoU 0 0 (by simp) (by simp)
    have hv := hsvd.isoV 0 0 (by simp) (by simp)
    rw [h00, hx] at hp
    simp at hp hu hv
    rcases hp with (hp | hp) | hp
    · rw [hp] at hu; simp at hu
    · exact hp
    · rw [hp] at hv; simp at hv
  have hw : whereToTruncate eps dflt res.s 0 1 = 0 := by
    rw [hx, hx0]
    simp [whereToTruncate, zerosLoop, effDim]
  show ((splitRight svd eps dflt t false).U).dims = _
  simp only [splitRight, reshape_dims, htd, rank, hsz, splitTol]
  simp [← hres, hw]

/-- the hypotheses of C34 can be met by two-site operators and states with non-trivial bonds -/
example : ∃ O ψ : List (Tensor ℝ), WFO 1 O [2, 2] 1 ∧ WF 1 ψ [2, 2] 1 ∧ ψ ≠ [] ∧
    ∃ s, IsCfg [2, 2] s ∧ actOp [2, 2] (opElt O) (amp ψ) s ≠ 0 := by
  refine ⟨[⟨[1, 2, 2, 2], fun _ => 1⟩, ⟨[2, 2, 2, 1], fun _ => 1⟩], [⟨[1, 2, 3], fun _ => 1⟩, ⟨[3, 2, 1], fun _ => 1⟩],
    WFO.cons rfl (by omega) (by omega) (by omega) (WFO.cons rfl (by omega) (by omega) (by omega) (WFO.nil _)),
    WF.cons rfl (by omega) (by omega) (by omega) (WF.single rfl (by omega) (by omega) (by omega)), by simp, [0, 0], ?_, ?_⟩
  · exact List.Forall₂.cons (by omega) (List.Forall₂.cons (by omega) List.Forall₂.nil)
  · simp [actOp, sumCfg, opElt, amp, opPath, path, dim, Finset.sum_range_succ]

/-! ### C36 -/

/-- **C36.**  `simplify(O, sense)` is a matrix product operator with the same matrix elements as `O` whenever no non-zero
singular value is dropped, as always with tolerance 0. -/
theorem C36_simplify {svd : Tensor K → SvdRes K} (hg : GoodSvd svd) (eps dflt : ℝ) {ds : List Nat} {O : List (Tensor K)}
    (h : IsMPO ds O) (ht : 0 < dflt ∨ (dflt = 0 ∧ ∃ s t, IsCfg ds s ∧ IsCfg ds t ∧ opElt O s t ≠ 0)) (sense : Int) :
    let r := simplifyMPO svd eps dflt O sense
    IsMPO ds r.1 ∧ (dflt = 0 ∨ 1 ≤ dflt → r.2 = 0) ∧
    (r.2 = 0 → ∀ s t, IsCfg ds s → IsCfg ds t → opElt r.1 s t = opElt O s t) := by
  intro r
  have hm := h.toMPS
  have htol : TolOk dflt (sq ds) (mpoToMPS O) := by
    rcases ht with ht | ⟨h0, s, t, hs, ht, hne⟩
    · exact Or.inl ht
    · exact Or.inr ⟨h0, pairCfg ds s t, pairCfg_isCfg hs ht, by rw [amp_mpoToMPS h hs ht]; exact hne⟩
  obtain ⟨h1, h2, h3⟩ := C14_canonical_form hg eps dflt hm htol sense
  obtain ⟨hne, D, hw⟩ := h
  have hr1 : r.1 = List.zipWith backSite O (canonicalForm svd eps dflt (mpoToMPS O) sense).1 := rfl
  have hr2 : r.2 = (canonicalForm svd eps dflt (mpoToMPS O) sense).2 := rfl
  set y := canonicalForm svd eps dflt (mpoToMPS O) sense with hy
  obtain ⟨hyne, D', hyw⟩ := h1
  obtain ⟨b1, b2⟩ := back_spec hw hyw
  have hrne : r.1 ≠ [] := by
    rw [hr1]
    intro hh
    rw [List.zipWith_eq_nil_iff] at hh
    tauto
  rw [← hr1] at b1 b2
  refine ⟨⟨hrne, D', b1⟩, by rw [hr2]; exact h3, ?_⟩
  intro h0 s t hs ht
  rw [opElt_of_WFO b1 hrne, ← amp_mpoToMPS ⟨hne, D, hw⟩ hs ht, ← h2 (by rw [← hr2]; exact h0) _ (pairCfg_isCfg hs ht),
    amp_of_WF hyw hyne]
  exact Finset.sum_congr rfl fun x hx => b2 hs ht x (Finset.mem_range.1 hx) x

/-! ### C35 -/

/-- `tr(A⁺ B) = ∑_{s,t} conj(A_{st}) B_{st}` -/
def opInner (ds : List Nat) (A B : List (Tensor K)) : K :=
  sumCfg ds fun s => sumCfg ds fun t => star (opElt A s t) * opElt B s t

/-- `tr(A⁺A)`, a real number -/
noncomputable def opNormSq (ds : List Nat) (A : List (Tensor K)) : ℝ :=
  sumCfg ds fun s => sumCfg ds fun t => ‖opElt A s t‖ ^ 2

/-- the truncation tolerance is positive, or zero and the operator is not zero -/
def OpTolOk (dflt : ℝ) (ds : List Nat) (A : List (Tensor K)) : Prop :=
  0 < dflt ∨ (dflt = 0 ∧ ∃ s t, IsCfg ds s ∧ IsCfg ds t ∧ opElt A s t ≠ 0)

theorem OpTolOk.tol {dflt : ℝ} {ds : List Nat} {A : List (Tensor K)} (h : IsMPO ds A) (ht : OpTolOk dflt ds A) :
    TolOk dflt (sq ds) (mpoToMPS A) := by
  rcases ht with ht | ⟨h0, s, t, hs, ht, hne⟩
  · exact Or.inl ht
  · exact Or.inr ⟨h0, pairCfg ds s t, pairCfg_isCfg hs ht, by rw [amp_mpoToMPS h hs ht]; exact hne⟩

theorem fidelity_core {svd : Tensor K → SvdRes K} (hg : GoodSvd svd) (eps dflt : ℝ) {ds : List Nat} {A B : List (Tensor K)}
    (hA : IsMPO ds A) (hB : IsMPO ds B) (tA : OpTolOk dflt ds A) (tB : OpTolOk dflt ds B) :
    let p := canonicalForm svd eps dflt (mpoToMPS A) (-1)
    let q := canonicalForm svd eps dflt (mpoToMPS B) (-1)
    IsMPS (sq ds) p.1 ∧ IsMPS (sq ds) q.1 ∧ (dflt = 0 ∨ 1 ≤ dflt → p.2 = 0 ∧ q.2 = 0) ∧
    fidelityMPO svd eps dflt A B = some (‖MPS.inner (sq ds) (amp p.1) (amp q.1)‖ / (norm2 p.1 * norm2 q.1), p.2, q.2) ∧
    (p.2 = 0 → ∀ s t, IsCfg ds s → IsCfg ds t → amp p.1 (pairCfg ds s t) = opElt A s t) ∧
    (q.2 = 0 → ∀ s t, IsCfg ds s → IsCfg ds t → amp q.1 (pairCfg ds s t) = opElt B s t) := by
  intro p q
  obtain ⟨p1, p2, p3⟩ := C14_canonical_form hg eps dflt hA.toMPS (tA.tol hA) (-1)
  obtain ⟨q1, q2, q3⟩ := C14_canonical_form hg eps dflt hB.toMPS (tB.tol hB) (-1)
  refine ⟨p1, q1, fun h => ⟨p3 h, q3 h⟩, ?_, ?_, ?_⟩
  · show (scprod p.1 q.1 1).map _ = _
    rw [scprod_spec p1 q1, Option.map_some]
    congr 2
    rw [norm_div, RCLike.norm_ofReal, abs_of_nonneg]
    apply mul_nonneg <;> exact Real.sqrt_nonneg _
  · intro h0 s t hs ht
    rw [p2 h0 _ (pairCfg_isCfg hs ht), amp_mpoToMPS hA hs ht]
  · intro h0 s t hs ht
    rw [q2 h0 _ (pairCfg_isCfg hs ht), amp_mpoToMPS hB hs ht]

/-- **C35.**  `fidelity(A, B) = |tr(A⁺B)| / √(tr(A⁺A) tr(B⁺B))` when no non-zero singular value is dropped (as always
with tolerance 0). -/
theorem C35_fidelity {svd : Tensor K → SvdRes K} (hg : GoodSvd svd) (eps dflt : ℝ) {ds : List Nat} {A B : List (Tensor K)}
    (hA : IsMPO ds A) (hB : IsMPO ds B) (tA : OpTolOk dflt ds A) (tB : OpTolOk dflt ds B) :
    ∃ f l1 l2, fidelityMPO svd eps dflt A B = some (f, l1, l2) ∧ (dflt = 0 ∨ 1 ≤ dflt → l1 = 0 ∧ l2 = 0) ∧
      (l1 = 0 → l2 = 0 → f = ‖opInner ds A B‖ / Real.sqrt (opNormSq ds A * opNormSq ds B)) := by
  obtain ⟨p1, q1, h0, h1, h2, h3⟩ := fidelity_core hg eps dflt hA hB tA tB
  refine ⟨_, _, _, h1, h0, fun e1 e2 => ?_⟩
  rw [norm2_spec p1, norm2_spec q1, sumCfg_sq, sumCfg_sq, MPS.inner, sumCfg_sq, opInner, opNormSq, opNormSq,
    Real.sqrt_mul (sumCfg_nonneg _ _ fun s _ => sumCfg_nonneg _ _ fun t _ => by positivity)]
  congr 1
  · congr 1
    exact sumCfg_congr fun s hs => sumCfg_congr fun t ht => by rw [h2 e1 s t hs ht, h3 e2 s t hs ht]
  · congr 2
    · exact sumCfg_congr fun s hs => sumCfg_congr fun t ht => by rw [h2 e1 s t hs ht]
    · exact sumCfg_congr fun s hs => sumCfg_congr fun t ht => by rw [h3 e2 s t hs ht]

/-- **C35.**  The fidelity is symmetric, whatever is dropped. -/
theorem C35_symmetric {svd : Tensor K → SvdRes K} (hg : GoodSvd svd) (eps dflt : ℝ) {ds : List Nat} {A B : List (Tensor K)}
    (hA : IsMPO ds A) (hB : IsMPO ds B) (tA : OpTolOk dflt ds A) (tB : OpTolOk dflt ds B) :
    (fidelityMPO svd eps dflt A B).map (·.1) = (fidelityMPO svd eps dflt B A).map (·.1) := by
  obtain ⟨-, -, -, h1, -⟩ := fidelity_core hg eps dflt hA hB tA tB
  obtain ⟨-, -, -, h2, -⟩ := fidelity_core hg eps dflt hB hA tB tA
  rw [h1, h2]
  simp only [Option.map_some]
  rw [← MPS.inner_star, norm_star, mul_comm]

/-- **C35.**  The fidelity lies between 0 and 1, whatever is dropped. -/
theorem C35_bounds {svd : Tensor K → SvdRes K} (hg : GoodSvd svd) (eps dflt : ℝ) {ds : List Nat} {A B : List (Tensor K)}
    (hA : IsMPO ds A) (hB : IsMPO ds B) (tA : OpTolOk dflt ds A) (tB : OpTolOk dflt ds B) :
    ∃ f l, fidelityMPO svd eps dflt A B = some (f, l) ∧ 0 ≤ f ∧ f ≤ 1 := by
  obtain ⟨p1, q1, -, h1, -⟩ := fidelity_core hg eps dflt hA hB tA tB
  refine ⟨_, _, h1, ?_, ?_⟩
  · apply div_nonneg (norm_nonneg _)
    apply mul_nonneg <;> exact Real.sqrt_nonneg _
  · apply div_le_one_of_le₀
    · obtain ⟨_, _, hw⟩ := id p1
      rw [norm2_spec p1, norm2_spec q1]
      exact inner_le _ hw.dims_pos _ _
    · apply mul_nonneg <;> exact Real.sqrt_nonneg _

/-- **C35.**  The fidelity of a non-zero operator with a non-zero multiple of it is 1 (no non-zero singular value
dropped). -/
theorem C35_multiple {svd : Tensor K → SvdRes K} (hg : GoodSvd svd) (eps dflt : ℝ) {ds : List Nat} {A B : List (Tensor K)}
    (hA : IsMPO ds A) (hB : IsMPO ds B) (tA : OpTolOk dflt ds A) (tB : OpTolOk dflt ds B) (c : K) (hc : c ≠ 0)
    (hAB : ∀ s t, IsCfg ds s → IsCfg ds t → opElt B s t = c * opElt A s t) (hn : opNormSq ds A ≠ 0) :
    ∃ f l1 l2, fidelityMPO svd eps dflt A B = some (f, l1, l2) ∧ (l1 = 0 → l2 = 0 → f = 1) := by
  obtain ⟨f, l1, l2, h1, -, h2⟩ := C35_fidelity hg eps dflt hA hB tA tB
  refine ⟨f, l1, l2, h1, fun e1 e2 => ?_⟩
  have hpos : 0 ≤ opNormSq ds A := sumCfg_nonneg _ _ fun s _ => sumCfg_nonneg _ _ fun t _ => by positivity
  have hi : opInner ds A B = c * ((opNormSq ds A : ℝ) : K) := by
    have h3 := MPS.inner_self_ofReal (ds ++ ds) (fun u => opElt A (u.take ds.length) (u.drop ds.length))
    simp only [MPS.inner, sumCfg_append] at h3
    have e3 : (opInner ds A A : K) = ((opNormSq ds A : ℝ) : K) := by
      have cong : ∀ {M : Type} [AddCommMonoid M] (G : K → M), sumCfg ds (fun s => sumCfg ds fun t =>
          G (opElt A ((s ++ t).take ds.length) ((s ++ t).drop ds.length))) = sumCfg ds (fun s => sumCfg ds fun t => G (opElt A s t)) := by
        intro M _ G
        refine sumCfg_congr fun s hs => sumCfg_congr fun t _ => ?_
        rw [List.take_left' hs.length, List.drop_left' hs.length]
      have c1 := cong (fun z => star z * z)
      have c2 := cong (fun z => ‖z‖ ^ 2)
      rw [opInner, opNormSq, ← c1, ← c2]
      exact h3
    rw [← e3, opInner, opInner, ← sumCfg_mul_left]
    refine sumCfg_congr fun s hs => ?_
    rw [← sumCfg_mul_left]
    refine sumCfg_congr fun t ht => ?_
    rw [hAB s t hs ht]; ring
  have hB2 : opNormSq ds B = ‖c‖ ^ 2 * opNormSq ds A := by
    rw [opNormSq, opNormSq, ← sumCfg_mul_left]
    refine sumCfg_congr fun s hs => ?_
    rw [← sumCfg_mul_left]
    refine sumCfg_congr fun t ht => ?_
    rw [hAB s t hs ht, norm_mul, mul_pow]
  rw [h2 e1 e2, hi, hB2, norm_mul, RCLike.norm_ofReal, abs_of_nonneg hpos,
    show opNormSq ds A * (‖c‖ ^ 2 * opNormSq ds A) = (‖c‖ * opNormSq ds A) ^ 2 by ring, Real.sqrt_sq (by positivity)]
  apply div_self
  exact mul_ne_zero (norm_ne_zero_iff.2 hc) hn

/-- the hypotheses of C35 and C36 can be met, with tolerance 0 -/
example : ∃ A : List (Tensor ℂ), IsMPO [2, 2] A ∧ OpTolOk 0 [2, 2] A := by
  refine ⟨[⟨[1, 2, 2, 2], fun _ => 1⟩, ⟨[2, 2, 2, 1], fun _ => 1⟩], ⟨by simp, 1,
    WFO.cons rfl (by omega) (by omega) (by omega) (WFO.cons rfl (by omega) (by omega) (by omega) (WFO.nil _))⟩,
    Or.inr ⟨rfl, [0, 0], [1, 1], ?_, ?_, ?_⟩⟩
  · exact List.Forall₂.cons (by omega) (List.Forall₂.cons (by omega) List.Forall₂.nil)
  · exact List.Forall₂.cons (by omega) (List.Forall₂.cons (by omega) List.Forall₂.nil)
  · simp [opElt, opPath, dim, Finset.sum_range_succ]

end MPS.Props
