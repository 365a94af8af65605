import Verif.ITebdLemmas3
import Verif.Props.ITebdProps2

/-!
# C84: expected values in larger windows
-/

set_option linter.unusedSectionVars false

namespace MPS.Props
open MPS Tensor ITebd
variable {K : Type} [RCLike K]

/-- **C84**, two-site operators: if the state is canonical at the bond between cells, up to factors, then
`expected12(psi, Op12, site)` is the expected value of `Op12` in every larger window of complete cells. -/
theorem C84_expected12 (canon : State K → State K) (psi : State K) (h : Ok (usedState canon psi)) {ηl ηr : K}
    (hl : LeftFixed (usedState canon psi) 0 2 ηl) (hr : RightFixed (usedState canon psi) 0 2 ηr) (hl0 : ηl ≠ 0) (hr0 : ηr ≠ 0)
    {Op : Tensor K} (site : Int) (k : Nat) (hk : site % 2 = k)
    (hop : Op.dims = [((usedState canon psi).matrix k).dim 1 * ((usedState canon psi).matrix (k + 1)).dim 1,
      ((usedState canon psi).matrix k).dim 1 * ((usedState canon psi).matrix (k + 1)).dim 1]) (l r : Nat) :
    expected12 canon psi Op site = winValue (usedState canon psi) (-(2 * l)) (2 * l + (2 + 2 * k) + 2 * r)
      (widen (2 * l + k) 2 (pairElt (((usedState canon psi).matrix k).dim 1) Op)) := by
  rw [C83_expected12 canon psi h site k hk hop]
  generalize usedState canon psi = phi at *
  have hk2 : k = 0 ∨ k = 1 := by omega
  have hw := winValue_widen h (-(2 * l)) (2 * l) (2 + 2 * k) (2 * r) (hl.cells h l _ (by omega))
    (hr.cells h r _ (by push_cast; omega)) (pow_ne_zero _ hl0) (pow_ne_zero _ hr0) (widen k 2 (pairElt ((phi.matrix k).dim 1) Op))
  rw [show -(2 * (l : Int)) + ((2 * l : Nat) : Int) = 0 by push_cast; ring] at hw
  rw [← hw]
  refine winValue_congr phi _ _ fun s hs t ht => ?_
  exact widen_widen _ (by omega) (hs.length_eq.trans (winDims_length ..)) (ht.length_eq.trans (winDims_length ..))

/-- **C84**, the list of string orders: under the same condition element `n` is the expected value in every larger window of complete
cells. -/
theorem C84_string_order_many (canon : State K → State K) (psi : State K) (h : Ok (usedState canon psi)) {ηl ηr : K}
    (hl : LeftFixed (usedState canon psi) 0 2 ηl) (hr : RightFixed (usedState canon psi) 0 2 ηr) (hl0 : ηl ≠ 0) (hr0 : ηr ≠ 0)
    {Oi Om Oj : Tensor K} (N : Nat)
    (hi : Oi.dims = [((usedState canon psi).matrix 0).dim 1, ((usedState canon psi).matrix 0).dim 1])
    (hj : ∀ n : Nat, n < N → Oj.dims = [((usedState canon psi).matrix n).dim 1, ((usedState canon psi).matrix n).dim 1])
    (hm : ∀ n : Nat, 0 < n → n + 1 < N → Acts (usedState canon psi) n Om) (l r : Nat → Nat) :
    stringOrderMany canon psi Oi Om Oj N = (List.range N).map fun n : Nat =>
      winExpect (usedState canon psi) (-(2 * l n)) (2 * l n + evenSites n + 2 * r n) (upTo (usedState canon psi) Oi Om Oj n) := by
  rw [C83_string_order_many canon psi h N hi hj hm]
  generalize usedState canon psi = phi at *
  refine List.map_congr_left fun n hn => ?_
  have hev : evenSites n % 2 = 0 ∧ n < evenSites n := by unfold evenSites; omega
  have hw := winValue_widen h (-(2 * l n)) (2 * l n) (evenSites n) (2 * r n) (hl.cells h (l n) _ (by omega))
    (hr.cells h (r n) _ (by push_cast; omega)) (pow_ne_zero _ hl0) (pow_ne_zero _ hr0) (siteOps 0 (evenSites n) (upTo phi Oi Om Oj n))
  have e0 : -(2 * (l n : Int)) + ((2 * l n : Nat) : Int) = 0 := by push_cast; ring
  rw [e0] at hw
  rw [winExpect_value h, winExpect_value h, ← hw]
  refine winValue_congr phi _ _ fun s hs t ht => ?_
  have := siteOps_widen h (-(2 * l n)) (2 * l n) (evenSites n) (2 * r n) (f := upTo phi Oi Om Oj n) (fun k h1 h2 => by
    unfold upTo
    split
    · rw [if_neg (by omega)]
    · rw [if_neg (by omega), if_neg (by omega), if_neg (by omega)]) (fun k h1 h2 => by
    unfold upTo
    split
    · rw [if_neg (by omega)]
    · rw [if_neg (by omega), if_neg (by omega), if_neg (by omega)]) s hs t ht
  rw [this, e0]

/-- **C85**, string orders: if the state is left- and right-canonical at both bonds, the value is the expected value of the operators in
every window which contains the two sites.  Missing: states which are not right-canonical at both bonds, see `C85_violated`. -/
theorem C85_string_order_partial (canon : State K → State K) (psi : State K) (h : Ok (usedState canon psi))
    (hr : RightCanonical (usedState canon psi)) (hl : LeftCanonical (usedState canon psi)) {Oi Om Oj : Tensor K} {i j : Int}
    (hij : i < j) (hi : Acts (usedState canon psi) i Oi) (hj : Acts (usedState canon psi) j Oj)
    (hm : ∀ k, i < k → k < j → Acts (usedState canon psi) k Om) (p : Int) (n : Nat) (hp : p ≤ i) (hn : j < p + n) :
    stringOrder canon psi Oi i Om Oj j = winExpect (usedState canon psi) p n (placed (usedState canon psi) Oi i Om Oj j) := by
  obtain ⟨w1, w2, w3⟩ := C62_string_order canon psi h hij hi hj hm
  rw [w3]
  generalize usedState canon psi = phi at *
  have hf : ∀ k, k < i ∨ i + ((j - i + 1).toNat : Int) ≤ k → placed phi Oi i Om Oj j k = ones phi k := by
    intro k hk
    unfold placed
    rw [if_neg (by omega), if_neg (by omega), if_neg (by omega)]
  rw [winExpect_any h hr hl (q := i) (m := (j - i + 1).toNat) w1 (by omega) hf,
    winExpect_any h hr hl (q := i) (m := (j - i + 1).toNat) hp (by omega) hf]

/-- **C85**, one-site operators, under the same condition -/
theorem C85_expected_partial (canon : State K → State K) (psi : State K) (h : Ok (usedState canon psi))
    (hr : RightCanonical (usedState canon psi)) (hl : LeftCanonical (usedState canon psi)) {Op : Tensor K} (site : Int)
    (hop : Acts (usedState canon psi) site Op) (p : Int) (n : Nat) (hp : p ≤ site) (hn : site < p + n) :
    ITebd.expected1 canon psi Op site = winExpect (usedState canon psi) p n
      (fun k => if k = site then orOne (((usedState canon psi).matrix k).dim 1) Op else ones (usedState canon psi) k) := by
  rw [C62_expected canon psi h site hop]
  generalize usedState canon psi = phi at *
  have hf : ∀ (x : Int) k, k < x ∨ x + ((1 : Nat) : Int) ≤ k →
      (fun k => if k = x then orOne ((phi.matrix k).dim 1) Op else ones phi k) k = ones phi k := by
    intro x k hk
    beta_reduce
    rw [if_neg (by omega)]
  rw [winExpect_any h hr hl (q := site % 2) (m := 1) (by omega) (by omega) (hf (site % 2)),
    winExpect_any h hr hl (q := site) (m := 1) hp (by omega) (hf site)]
  rw [winExpect_value h, winExpect_value h, winValue_shift phi (p := site % 2) (q := site) (by omega)]
  refine congrArg _ (siteOps_congr fun k hk => ?_)
  have : k = 0 := by omega
  subst this
  simp only [Nat.cast_zero, add_zero, if_true]
  rw [matrix_parity phi (p := site % 2) (q := site) (by omega)]

/-- **C85**: under the same condition the list of string orders agrees with the single ones -/
theorem C85_many_partial (canon : State K → State K) (psi : State K) (h : Ok (usedState canon psi))
    (hr : RightCanonical (usedState canon psi)) (hl : LeftCanonical (usedState canon psi)) {Oi Om Oj : Tensor K} (N : Nat)
    (hi : Oi.dims = [((usedState canon psi).matrix 0).dim 1, ((usedState canon psi).matrix 0).dim 1])
    (hj : ∀ n : Nat, n < N → Oj.dims = [((usedState canon psi).matrix n).dim 1, ((usedState canon psi).matrix n).dim 1])
    (hm : ∀ n : Nat, 0 < n → n + 1 < N → Acts (usedState canon psi) n Om) :
    stringOrderMany canon psi Oi Om Oj N = (List.range N).map fun n : Nat => stringOrder canon psi Oi 0 Om Oj n := by
  rw [C83_string_order_many canon psi h N hi hj hm]
  refine List.map_congr_left fun n hn => ?_
  have hn := List.mem_range.1 hn
  have hev : n < evenSites n := by unfold evenSites; omega
  have dpos : ∀ k, 0 < ((usedState canon psi).matrix k).dim 1 := fun k => (h.dims k).2.2.1
  by_cases h0 : n = 0
  · subst h0
    have hmm : (mmult Oi Oj).dims = [((usedState canon psi).matrix 0).dim 1, ((usedState canon psi).matrix 0).dim 1] := by
      simp [mmult, fold, hi, hj 0 hn, nrm, dim]
    rw [show ((0 : Nat) : Int) = 0 from rfl, C62_same_site,
      C85_expected_partial canon psi h hr hl (Op := mmult Oi Oj) 0 (Or.inr hmm) 0 (evenSites 0) (le_refl _) (by unfold evenSites; omega)]
    generalize usedState canon psi = phi at *
    rw [winExpect_value h, winExpect_value h]
    refine congrArg _ (siteOps_congr fun k hk => ?_)
    unfold upTo
    rw [if_pos rfl]
    split
    · rename_i hk0
      rw [hk0, orOne_dims hmm (dpos 0)]
    · rfl
  · rw [C85_string_order_partial canon psi h hr hl (i := 0) (j := n) (by omega) (Or.inr hi) (Or.inr (hj n hn))
      (fun k h1 h2 => by
        lift k to ℕ using by omega
        exact hm k (by omega) (by omega)) 0 (evenSites n) (le_refl _) (by omega)]
    generalize usedState canon psi = phi at *
    rw [winExpect_value h, winExpect_value h]
    refine congrArg _ (siteOps_congr fun k hk => ?_)
    unfold upTo placed
    rw [if_neg h0]
    split
    · rename_i hk0
      rw [hk0, orOne_dims hi (dpos 0)]
    · split
      · rename_i hkn
        rw [hkn, orOne_dims (hj n hn) (dpos n)]
      · rfl

end MPS.Props
