import Verif.ArnoldiLemmas2
import Verif.ObcLemmas6
import Verif.Props.MPOCanonProps

/-!
# The pieces of one pass of the Arnoldi iteration
-/

set_option linter.unusedSectionVars false
set_option linter.unusedSimpArgs false

namespace MPS.Arnoldi
open MPS Tensor Form Minim Obc
variable {ds : List Nat}

theorem ne_of_pos {ψ : List (Tensor ℂ)} (hw : WF 1 ψ ds 1) (hpos : 0 < ds.length) : ψ ≠ [] := by
  rintro rfl
  have := hw.length
  simp at this; omega

theorem canon_pack {svd : Tensor ℂ → SvdRes ℂ} (hg : GoodSvd svd) (eps : ℝ) {dflt : ℝ} (hd0 : 0 < dflt) {ψ : List (Tensor ℂ)} (hw : WF 1 ψ ds 1)
    (hpos : 0 < ds.length) :
    let c := canonicalForm svd eps dflt ψ (-1)
    WF 1 c.1 ds 1 ∧ 0 ≤ c.2 ∧ (1 ≤ dflt → c.2 = 0) ∧ (c.2 = 0 → ∀ s, IsCfg ds s → amp c.1 s = amp ψ s) := by
  have hlen := hw.length
  have hne := ne_of_pos hw hpos
  have ec : canonicalForm svd eps dflt ψ (-1) = canonicalFormAt svd eps dflt ψ 0 := by simp [canonicalForm]
  obtain ⟨h1, h2, -, h4⟩ := eitherForm_spec hg eps hw (Props.TolOk.start hw hne (Or.inl hd0)) 0 (by omega)
  obtain ⟨-, c2, c3, c4, -⟩ := Props.canon_core hg eps dflt ⟨hne, 1, hw⟩ (Or.inl hd0) 0 hpos
  rw [ec]
  exact ⟨h1.wf, c4, fun h => c3 (Or.inr h), c2⟩

theorem normal_pack {svd : Tensor ℂ → SvdRes ℂ} (hg : GoodSvd svd) (eps : ℝ) {dflt : ℝ} (hd0 : 0 < dflt) {ψ : List (Tensor ℂ)} (hw : WF 1 ψ ds 1)
    (hpos : 0 < ds.length) :
    let c := normalForm svd eps dflt ψ (-1)
    WF 1 c.1 ds 1 ∧ 0 ≤ c.2 ∧ (1 ≤ dflt → c.2 = 0) ∧
      (c.2 = 0 → normSq ds ψ ≠ 0 → normSq ds c.1 = 1 ∧ ∀ s, IsCfg ds s → amp c.1 s = ((1 / Real.sqrt (normSq ds ψ) : ℝ) : ℂ) * amp ψ s) := by
  have hlen := hw.length
  have hne := ne_of_pos hw hpos
  have ec : normalForm svd eps dflt ψ (-1) = normalFormAt svd eps dflt ψ 0 := by simp [normalForm]
  obtain ⟨h1, h2, -, h4⟩ := eitherForm_spec hg eps hw (Props.TolOk.start hw hne (Or.inl hd0)) 0 (by omega)
  obtain ⟨-, c2, c3, c4, -⟩ := Props.canon_core hg eps dflt ⟨hne, 1, hw⟩ (Or.inl hd0) 0 hpos
  obtain ⟨d1, d2, d3, d4, d5⟩ := Props.C16_normal_form_at hg eps dflt hne hw (Or.inl hd0) 0 hpos
  rw [ec]
  have hz1 : (normalFormAt svd eps dflt ψ 0).1 = (eitherForm svd eps dflt ψ 0 false).1.set 0
      (smul ((1 / frob (site (eitherForm svd eps dflt ψ 0 false).1 0) : ℝ) : ℂ) (site (eitherForm svd eps dflt ψ 0 false).1 0)) := rfl
  have hn : norm2 ψ = Real.sqrt (normSq ds ψ) := norm2_spec ⟨hne, 1, hw⟩
  refine ⟨?_, c4, fun h => c3 (Or.inr h), fun h0 hnz => ?_⟩
  · rw [hz1]
    exact (Props.path_set_smul h1.wf 0 (by rw [h2]; omega) _).1
  · have hpos : 0 < normSq ds ψ := lt_of_le_of_ne (normSqOf_nonneg ds (amp ψ)) (Ne.symm hnz)
    have hne0 : norm2 ψ ≠ 0 := by rw [hn]; exact (Real.sqrt_pos.2 hpos).ne'
    obtain ⟨e1, e2⟩ := d5 h0 hne0
    rw [hn] at e2
    refine ⟨?_, e2⟩
    have e3 := norm2_spec d1
    rw [e1] at e3
    have := Real.sqrt_eq_one.1 e3.symm
    exact this

theorem apply_pack {svd : Tensor ℂ → SvdRes ℂ} (hg : GoodSvd svd) (eps : ℝ) {dflt : ℝ} (hd0 : 0 < dflt) {H ψ : List (Tensor ℂ)} (hH : WFO 1 H ds 1)
    (hw : WF 1 ψ ds 1) (hpos : 0 < ds.length) :
    ∃ χ lost, applyCanonical svd eps dflt H ψ (-1) true = some (χ, lost) ∧ WF 1 χ ds 1 ∧ 0 ≤ lost ∧ (1 ≤ dflt → lost = 0) ∧
      (lost = 0 → ∀ s, IsCfg ds s → amp χ s = act ds H (amp ψ) s) := by
  have hne := ne_of_pos hw hpos
  obtain ⟨χ, lost, h1, h2, h3, -, -, -, h4⟩ := Props.C34_apply_canonical hg eps hd0.le hne hH hw (-1) true (Or.inl ⟨rfl, hd0⟩)
  refine ⟨χ, lost, h1, h2, h3, fun hd => ?_, fun h => (h4 h).1⟩
  have hHne : H ≠ [] := by
    rintro rfl
    have := hH.length
    simp at this; omega
  have := (applyLeftAll_spec hg eps hd0.le true hH hw hHne (Or.inl (by rw [effTol_default]; exact hd0))).2.2.1 (Or.inr (by rw [effTol_default]; exact hd))
  unfold applyCanonical at h1
  rw [if_pos (by rw [hH.length, hw.length]), if_neg (by omega)] at h1
  have e := Option.some.inj h1
  rw [e] at this
  exact this

theorem scprod_pack {a b : List (Tensor ℂ)} (ha : WF 1 a ds 1) (hb : WF 1 b ds 1) (hpos : 0 < ds.length) (sense : Int) :
    scprod a b sense = some (MPS.inner ds (amp a) (amp b)) :=
  scprod_spec ⟨ne_of_pos ha hpos, 1, ha⟩ ⟨ne_of_pos hb hpos, 1, hb⟩ sense

/-! ### the new row and column -/

theorem get_set2 (A : Tensor ℂ) (a b i j : Nat) (v w : ℂ) :
    (setAt (setAt A [a, b] v) [b, a] w).get [i, j] = if i = b ∧ j = a then w else if i = a ∧ j = b then v else A.get [i, j] := by
  simp only [setAt, List.cons.injEq, and_true]

/-- the first `n` passes of the loop that fills the row and the column `ndx` -/
theorem fill_loop {states : List (List (Tensor ℂ))} {cur Hcur : List (Tensor ℂ)} (hs : ∀ j < states.length, WF 1 (states.getD j []) ds 1)
    (hc : WF 1 cur ds 1) (hh : WF 1 Hcur ds 1) (hpos : 0 < ds.length) {ndx : Nat} (hn : states.length = ndx) (N Heff : Tensor ℂ) :
    ∀ n ≤ ndx, ∃ N' H', (List.range n).foldlM (fill1 states cur Hcur ndx) (N, Heff) = some (N', H') ∧ N'.dims = N.dims ∧ H'.dims = Heff.dims ∧
      (∀ i j, i < ndx → j < ndx → N'.get [i, j] = N.get [i, j] ∧ H'.get [i, j] = Heff.get [i, j]) ∧
      (∀ i < n, N'.get [i, ndx] = MPS.inner ds (amp (states.getD i [])) (amp cur) ∧ N'.get [ndx, i] = star (MPS.inner ds (amp (states.getD i [])) (amp cur)) ∧
        H'.get [i, ndx] = MPS.inner ds (amp (states.getD i [])) (amp Hcur) ∧ H'.get [ndx, i] = star (MPS.inner ds (amp (states.getD i [])) (amp Hcur)))
  | 0, _ => ⟨N, Heff, rfl, rfl, rfl, fun _ _ _ _ => ⟨rfl, rfl⟩, fun i hi => by omega⟩
  | n + 1, hle => by
    obtain ⟨N', H', e, d1, d2, h1, h2⟩ := fill_loop hs hc hh hpos hn N Heff n (by omega)
    have hsn := hs n (by omega)
    rw [List.range_succ, List.foldlM_append, e]
    simp only [List.foldlM_cons, List.foldlM_nil, fill1, scprod_pack hsn hc hpos, scprod_pack hsn hh hpos, Option.bind_some, Option.map_some,
      Option.bind_eq_bind, Option.pure_def, bind_pure]
    refine ⟨_, _, rfl, d1, d2, fun i j hi hj => ?_, fun i hi => ?_⟩
    · rw [get_set2, get_set2, if_neg (by omega), if_neg (by omega), if_neg (by omega), if_neg (by omega)]
      exact h1 i j hi hj
    · rcases Nat.lt_succ_iff_lt_or_eq.1 hi with h | rfl
      · simp only [get_set2]
        obtain ⟨a1, a2, a3, a4⟩ := h2 i h
        rw [if_neg (by omega), if_neg (by omega), if_neg (by omega), if_neg (by omega), if_neg (by omega), if_neg (by omega), if_neg (by omega),
          if_neg (by omega)]
        exact ⟨a1, a2, a3, a4⟩
      · have hne : i ≠ ndx := by omega
        have e0 : ∀ (A : Tensor ℂ) (v w : ℂ), (setAt (setAt A [i, ndx] v) [ndx, i] w).get [i, ndx] = v := by
          intro A v w
          rw [get_set2, if_neg (fun h => hne h.1), if_pos ⟨rfl, rfl⟩]
        have e1 : ∀ (A : Tensor ℂ) (v w : ℂ), (setAt (setAt A [i, ndx] v) [ndx, i] w).get [ndx, i] = w := by
          intro A v w
          rw [get_set2, if_pos ⟨rfl, rfl⟩]
        exact ⟨e0 _ _ _, e1 _ _ _, e0 _ _ _, e1 _ _ _⟩

theorem fill_spec {states : List (List (Tensor ℂ))} {cur Hcur : List (Tensor ℂ)} (hs : ∀ j < states.length, WF 1 (states.getD j []) ds 1)
    (hc : WF 1 cur ds 1) (hh : WF 1 Hcur ds 1) (hpos : 0 < ds.length) {ndx : Nat} (hn : states.length = ndx) (N Heff : Tensor ℂ) :
    ∃ N' H', fill states cur Hcur ndx N Heff = some (N', H') ∧ N'.dims = N.dims ∧ H'.dims = Heff.dims ∧
      (∀ i j, i < ndx → j < ndx → N'.get [i, j] = N.get [i, j] ∧ H'.get [i, j] = Heff.get [i, j]) ∧
      (∀ i < ndx, N'.get [i, ndx] = MPS.inner ds (amp (states.getD i [])) (amp cur) ∧ N'.get [ndx, i] = star (MPS.inner ds (amp (states.getD i [])) (amp cur)) ∧
        H'.get [i, ndx] = MPS.inner ds (amp (states.getD i [])) (amp Hcur) ∧ H'.get [ndx, i] = star (MPS.inner ds (amp (states.getD i [])) (amp Hcur))) ∧
      N'.get [ndx, ndx] = 1 ∧ H'.get [ndx, ndx] = ((RCLike.re (MPS.inner ds (amp cur) (amp Hcur)) : ℝ) : ℂ) := by
  obtain ⟨N', H', e, d1, d2, h1, h2⟩ := fill_loop hs hc hh hpos hn N Heff ndx le_rfl
  unfold fill
  rw [e, Option.bind_some, scprod_pack hc hh hpos]
  refine ⟨_, _, rfl, d1, d2, fun i j hi hj => ?_, fun i hi => ?_, ?_, ?_⟩
  · simp only [setAt, List.cons.injEq, and_true]
    rw [if_neg (by omega), if_neg (by omega)]
    exact h1 i j hi hj
  · simp only [setAt, List.cons.injEq, and_true]
    rw [if_neg (by omega), if_neg (by omega), if_neg (by omega), if_neg (by omega)]
    exact h2 i hi
  · simp [setAt]
  · simp [setAt]

end MPS.Arnoldi
