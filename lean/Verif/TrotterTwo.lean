import Verif.TrotterNorm
import Verif.Props.ObcProps3

/-! # The Trotter solvers on two qubits: with two singular values at most, none is ever dropped -/

set_option linter.unusedSectionVars false
set_option linter.unusedSimpArgs false

namespace MPS.Trotter
open MPS Tensor MPS.Props Minim Order

/-- two singular values: nothing is lost -/
theorem wtt_two {eps dflt : ℝ} (he : eps < 1) (hd : 0 ≤ dflt) (s : List ℝ) (hs : s.length ≤ 2) (tol : ℝ) (ht : 0 < effTol dflt tol) (M : Nat)
    (hM : M = s.length) : cumulated s (whereToTruncate eps dflt s tol M) = 0 := by
  rw [cumulated_eq]
  by_cases h1 : 1 ≤ effTol dflt tol
  · exact wtt_lossless eps dflt s tol M (by omega) hd (Or.inr h1)
  have hlim : whereToTruncate eps dflt s tol M = limitLoop s (max (effTol dflt tol) eps * cumulated s 0) s.length s.length 0 := by
    have e : effDim s.length (M : Int) = s.length := by unfold effDim; split <;> omega
    unfold whereToTruncate
    simp only [e]
    have e2 : (if tol < 0 then dflt else tol) = effTol dflt tol := rfl
    rw [e2, if_neg (by linarith), if_neg ht.ne']
  rw [hlim]
  have hmax : max (effTol dflt tol) eps < 1 := max_lt (by linarith) he
  have hle := discarded_nonneg s 0
  rw [← cumulated_eq] at hle
  match s, hs with
  | [], _ => simp [limitLoop, discarded]
  | [a], _ =>
    simp only [limitLoop, List.length_singleton]
    split <;> simp [discarded]
  | [a, b], _ =>
    simp only [limitLoop, List.length_cons, List.length_nil]
    split
    · next h =>
      have h0 : cumulated [a, b] 0 = 0 := by nlinarith
      rw [← cumulated_eq]
      simp only [cumulated, List.drop_zero, List.map_cons, List.map_nil, List.sum_cons, List.sum_nil, add_zero, List.drop_succ_cons] at h0 ⊢
      nlinarith [sq_nonneg a, sq_nonneg b]
    · split <;> simp [discarded]

theorem applyTwo_err {svd : Tensor ℂ → SvdRes ℂ} (hg : GoodSvd svd) {eps : ℝ} (he : eps < 1) {dflt : ℝ} (hd0 : 0 < dflt) (x : Evo)
    (h : WF 1 x.P [2, 2] 1) (U : Tensor ℂ) (dk : Int) (tol : ℝ) (ht : 0 < effTol dflt tol) :
    (applyTwo svd eps dflt x U 0 dk tol 0).err = x.err := by
  obtain ⟨a, b, -, w1, -, p1, -, p3⟩ := WF.around h (show 0 < [2, 2].length by simp)
  obtain ⟨a', b', -, w2, -, p1', -, p3'⟩ := WF.around h (show 1 < [2, 2].length by simp)
  have ha : a = 1 := by
    generalize x.P = P at h w1
    cases h with
    | cons hd _ _ _ _ => simp only [site, List.getD_cons_zero] at w1; rw [hd] at w1; simp at w1; omega
  have hb : b' = 1 := by
    generalize x.P = P at h w2
    cases h with
    | cons hd _ _ _ h' =>
      cases h' with
      | cons hd' _ _ _ h'' =>
        cases h''
        simp only [site, List.getD_cons_succ, List.getD_cons_zero] at w2; rw [hd'] at w2; simp at w2; omega
  subst ha hb
  have e1 : (site x.P 0).dim 0 = 1 := dim0_of w1
  have e2 : (site x.P 0).dim 1 = 2 := dim1_of w1
  have e3 : (site x.P 1).dim 1 = 2 := dim1_of w2
  have e4 : (site x.P 1).dim 2 = 1 := dim2_of w2
  simp only [applyTwo, zero_add, e1, e2, e3, e4, ne_eq, not_true_eq_false, if_false]
  generalize (if U.isEmpty then _ else foldin U (-1) _ 1) = T
  have hsvd := hg (reshape T [1 * 2, 2 * 1]) 2 2 rfl (by omega) (by omega)
  have hlen := hsvd.lenS
  rw [wtt_two he hd0.le _ (by rw [hlen]; simp) tol ht _ rfl]
  simp

theorem sweep_err {svd : Tensor ℂ → SvdRes ℂ} (hg : GoodSvd svd) {eps : ℝ} (he : eps < 1) {dflt : ℝ} (hd0 : 0 < dflt) {k : Nat} {W : Unitary}
    (hW : Fits W [2, 2] k) (x : Evo) (h : WF 1 x.P [2, 2] 1) (sense : Int) (tol : ℝ) (ht : 0 < effTol dflt tol) :
    (sweep svd eps dflt W x sense tol 0).err = x.err := by
  have hlen : x.P.length = 2 := h.length
  have hle := hW.le
  have one : ∀ (y : Evo) (p : Nat), (applyOne svd eps dflt y (site W.U p) p sense 0).err = y.err := by intro y p; simp [applyOne]
  have two := applyTwo_err hg he hd0 x h (site W.U 0) sense tol ht
  unfold sweep
  rw [hlen, hW.k0, hW.kN]
  interval_cases k
  · have e : layerEnd ((0 : Nat) : Int) [2, 2].length = 2 := by decide
    rw [e]
    split
    · simp [loopUp, two]
    · simp [loopDown, two]
  · have e : layerEnd ((1 : Nat) : Int) [2, 2].length = 1 := by decide
    rw [e]
    split
    · simp [loopUp, one]
    · simp [loopDown, one]

/-- `canonical_form(P, -1)` of two qubits -/
theorem canonical_two {svd : Tensor ℂ → SvdRes ℂ} (hg : GoodSvd svd) {eps : ℝ} (he : eps < 1) {dflt : ℝ} (hd0 : 0 < dflt) {P : List (Tensor ℂ)}
    (h : WF 1 P [2, 2] 1) :
    let c := canonicalForm svd eps dflt P (-1)
    WF 1 c.1 [2, 2] 1 ∧ c.2 = 0 ∧ largestBond c.1 ≤ 2 ∧ ∀ s, IsCfg [2, 2] s → amp c.1 s = amp P s := by
  intro c
  have hlen : P.length = 2 := h.length
  have hne : P ≠ [] := by intro hh; rw [hh] at hlen; simp at hlen
  have hok : 0 < effTol dflt (splitTol true) := by rw [effTol_default]; exact hd0
  obtain ⟨a', b', -, w2, -, p1', p2', p3'⟩ := WF.around h (show 1 < [2, 2].length by simp)
  have hb : b' = 1 := by
    generalize P = P at h w2
    cases h with
    | cons hd _ _ _ h' =>
      cases h' with
      | cons hd' _ _ _ h'' =>
        cases h''
        simp only [site, List.getD_cons_succ, List.getD_cons_zero] at w2; rw [hd'] at w2; simp at w2; omega
  subst hb
  have hc : c = setCanonical svd eps dflt P 1 (site P 1) (-1) true := by
    simp only [c, canonicalForm, canonicalFormAt, eitherForm, hlen, canonLoopLeft, canonLoopRight]
    simp [canonLoopRight]
  obtain ⟨r1, r2, r3, r4, r5, -⟩ := setCanonical_left_full hg eps hd0.le h 0 (by omega) true (-1) (by norm_num) (Or.inl hok)
  obtain ⟨l, hl0, hll, hUd, -⟩ := splitLeft_spec hg eps hd0.le w2 p1' p2' p3' true (Or.inl hok)
  have hr : c = ((P.set 1 (splitLeft svd eps dflt (site P 1) true).U).set 0 (fold (site P 0) (-1) (splitLeft svd eps dflt (site P 1) true).V 0),
      (splitLeft svd eps dflt (site P 1) true).lost) := by
    rw [hc]; simp [setCanonical, splitT]
  have hz : c.2 = 0 := by
    rw [hr]
    have hai : (site P 1).size / a' = 2 := by rw [size3 w2, mul_assoc, Nat.mul_div_cancel_left _ p1']; simp
    have hbd : (site P 1).dims.getD 0 0 = a' := by simp [w2]
    simp only [splitLeft, hbd, hai]
    have hsvd := hg (reshape (site P 1) [a', 2]) a' 2 rfl p1' (by omega)
    exact wtt_two he hd0.le _ (by rw [hsvd.lenS]; omega) _ hok _ hsvd.lenS.symm
  have hw : WF 1 c.1 [2, 2] 1 := by rw [hc]; exact r1
  refine ⟨hw, hz, ?_, fun s hs => ?_⟩
  · have hcl : c.1.length = 2 := hw.length
    obtain ⟨A, B, hAB⟩ : ∃ A B, c.1 = [A, B] := by
      match c.1, hcl with
      | [A, B], _ => exact ⟨A, B, rfl⟩
    have hB : B.dim 0 = l := by
      have : site c.1 1 = B := by rw [hAB]; rfl
      rw [← this, hr]
      simp only
      rw [site_set _ _ _ _ (by simp; omega), if_neg (by omega), site_set _ _ _ _ (by omega), if_pos rfl, dim0_of hUd]
    have hA : A.dim 0 = 1 := by
      rw [hAB] at hw
      cases hw with
      | cons hd _ _ _ _ => exact dim0_of hd
    rw [hAB]
    simp only [largestBond, List.foldl_cons, List.foldl_nil, hA, hB]
    simp at hll
    omega
  · have hcne : c.1 ≠ [] := by intro hh; have := hw.length; rw [hh] at this; simp at this
    rw [amp_of_WF hw hcne, amp_of_WF h hne, Finset.sum_range_one, Finset.sum_range_one]
    rw [hc] at hz ⊢
    exact r5 hz s hs 0 (by omega) 0

/-- one call of a `one_step`, on two qubits: `normalize` is ignored and the layer is applied exactly -/
theorem call_two {svd : Tensor ℂ → SvdRes ℂ} (hg : GoodSvd svd) {eps : ℝ} (he : eps < 1) {dflt : ℝ} (hd0 : 0 < dflt)
    (simplifyObc : List (Tensor ℂ) → Int → Nat → Bool → Nat → List (Tensor ℂ) × ℝ) {k : Nat} (U : List Unitary) (x : Evo × Int) (c : Call)
    (hW : Fits (U.getD c.which ⟨0, 0, []⟩) [2, 2] k) (h : WF 1 x.1.P [2, 2] 1) (ht : c.tol < 0 ∨ 0 < c.tol)
    (hc : (c.simplify = true ∧ 2 ≤ c.D) ∨ (c.simplify = false ∧ c.D = 0 ∧ c.normalize = false)) :
    let y := runCall svd eps dflt simplifyObc U x c
    WF 1 y.1.P [2, 2] 1 ∧ y.1.err = x.1.err ∧ y.1.hidden = x.1.hidden ∧
      ∀ s, IsCfg [2, 2] s → amp y.1.P s = actOp [2, 2] (layerElt [2, 2] k (site (U.getD c.which ⟨0, 0, []⟩).U)) (amp x.1.P) s := by
  intro y
  have ht : 0 < effTol dflt c.tol := by
    unfold effTol; rcases ht with h | h
    · rw [if_pos h]; exact hd0
    · rw [if_neg (by linarith)]; exact h
  have hne : x.1.P ≠ [] := by intro hh; have := h.length; rw [hh] at this; simp at this
  rcases hc with ⟨h1, h2⟩ | ⟨h1, h2, h3⟩
  · obtain ⟨s1, s2, s3, s4, s5, s6⟩ := sweep_amp hg eps hd0 hW ⟨x.1.P, 0, x.1.hidden⟩ h hne 1 c.tol ht 0
    have s7 := sweep_err hg he hd0 hW ⟨x.1.P, 0, x.1.hidden⟩ h 1 c.tol ht
    have hy : apply svd eps dflt (U.getD c.which ⟨0, 0, []⟩) ⟨x.1.P, 0, x.1.hidden⟩ 1 c.tol 0 false
        = (sweep svd eps dflt (U.getD c.which ⟨0, 0, []⟩) ⟨x.1.P, 0, x.1.hidden⟩ 1 c.tol 0, -1) := by
      rw [apply_eq]; simp
    set r := sweep svd eps dflt (U.getD c.which ⟨0, 0, []⟩) ⟨x.1.P, 0, x.1.hidden⟩ 1 c.tol 0 with hr
    obtain ⟨c1, c2, c3, c4⟩ := canonical_two hg he hd0 s1
    have hs5 := s5 rfl
    have e : y = (⟨(canonicalForm svd eps dflt r.P (-1)).1, x.1.err, x.1.hidden⟩, -1) := by
      simp only [y, runCall, h1, if_true, applyAndSimplify, hy]
      rw [if_neg (by omega)]
      simp only at s7 hs5
      simp only [s7, c2, hs5, add_zero]
      split <;> simp
    rw [e]
    refine ⟨c1, rfl, rfl, fun s hs => ?_⟩
    simp only
    rw [c4 s hs]
    exact s6 s7 hs5 s hs
  · set sn := (if x.2 = 0 then 1 else x.2) with hsn
    obtain ⟨s1, s2, s3, s4, s5, s6⟩ := sweep_amp hg eps hd0 hW x.1 h hne sn c.tol ht 0
    have s7 := sweep_err hg he hd0 hW x.1 h sn c.tol ht
    have hy : apply svd eps dflt (U.getD c.which ⟨0, 0, []⟩) x.1 x.2 c.tol 0 false
        = (sweep svd eps dflt (U.getD c.which ⟨0, 0, []⟩) x.1 sn c.tol 0, -sn) := by
      rw [apply_eq]; simp [hsn]
    set r := sweep svd eps dflt (U.getD c.which ⟨0, 0, []⟩) x.1 sn c.tol 0 with hr
    have hs5 := s5 rfl
    have e : y = (⟨r.P, x.1.err, x.1.hidden⟩, -sn) := by
      simp only [y, runCall, h1, h2, h3, Bool.false_eq_true, if_false, hy, s7, hs5, sub_self, ite_self, add_zero]
    rw [e]
    exact ⟨s1, rfl, rfl, s6 s7 hs5⟩

end MPS.Trotter
