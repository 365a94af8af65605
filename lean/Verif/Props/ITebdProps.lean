import Verif.ITebdLemmas2

/-!
# C62: expected values of infinite states
-/

set_option linter.unusedSectionVars false

namespace MPS.Props
open MPS Tensor ITebd
variable {K : Type} [RCLike K]

/-- `i` rounded down to an even number -/
def evenDown (i : Int) : Int := i - i % 2

/-- number of sites from `evenDown i` to `j` rounded up to an even number -/
def oddSites (i j : Int) : Nat := (j + j % 2 - evenDown i + 1).toNat

theorem orderBody_eq {psi : State K} (h : Ok psi) {Oi Om Oj : Tensor K} {i j : Int} (hij : i < j)
    (hi : Acts psi i Oi) (hj : Acts psi j Oj) (hm : ∀ k, i < k → k < j → Acts psi k Om) :
    orderBody psi Oi i Om Oj j = winExpect psi (evenDown i) (oddSites i j) (placed psi Oi i Om Oj j) := by
  set n := oddSites i j with hn
  have hev : (0 : Int) % 2 = evenDown i % 2 := by unfold evenDown; omega
  have hnv : (n : Int) = j + j % 2 - (i - i % 2) + 1 := by rw [hn]; unfold oddSites evenDown; omega
  unfold orderBody winExpect
  simp only
  rw [orderLoop_eq psi Oi Om Oj (i % 2) (j - i + i % 2) n _ 0 _ (by omega) (fun k hk => by omega) (by omega)]
  simp only
  have e1 := tr_chainR h 0 n (opAt Oi Om Oj (i % 2) (j - i + i % 2)) (fun k h0 hk => by
    have hsh : psi.matrix k = psi.matrix (k + evenDown i) := by
      have := matrix_shift psi hev k
      rwa [zero_add, add_comm] at this
    unfold Acts opAt
    rw [hsh]
    unfold evenDown
    split
    · rw [show k + (i - i % 2) = i by omega]; exact hi
    · split
      · rw [show k + (i - i % 2) = j by omega]; exact hj
      · split
        · exact hm _ (by omega) (by omega)
        · exact Or.inl rfl)
  have e2 := tr_chainR h 0 n (fun _ => Tensor.empty) (fun k _ _ => Or.inl rfl)
  rw [e1, e2, winForm_shift psi hev, winForm_shift psi hev]
  have hsh : ∀ k : Nat, psi.matrix (0 + k) = psi.matrix (evenDown i + k) := fun k => matrix_shift psi hev k
  have e3 : siteOps 0 n (fun k => orOne ((psi.matrix k).dim 1) Tensor.empty) = siteOps (evenDown i) n (ones psi) :=
    siteOps_congr fun k hk => by beta_reduce; rw [hsh k]; rfl
  rw [e3]
  congr 2
  · refine siteOps_congr fun k hk => ?_
    rw [hsh k]
    unfold opAt placed
    have a1 : ((0 : Int) + k = i % 2) ↔ (evenDown i + k = i) := by unfold evenDown; omega
    have a2 : ((0 : Int) + k = j - i + i % 2) ↔ (evenDown i + k = j) := by unfold evenDown; omega
    have a3 : ((0 : Int) + k > i % 2 ∧ (0 : Int) + k < j - i + i % 2) ↔ (i < evenDown i + k ∧ evenDown i + k < j) := by unfold evenDown; omega
    simp only [a1, a2, a3]
    split
    · rfl
    · split
      · rfl
      · split
        · rfl
        · rfl

/-- the state whose tensors are contracted: the state itself if it is flagged canonical, otherwise its `canonical_form()` -/
def usedState (canon : State K → State K) (psi : State K) : State K := if psi.canonical then psi else canon psi

theorem stringOrder_lt (canon : State K → State K) (psi : State K) (Oi Om Oj : Tensor K) {i j : Int} (h : i < j) :
    stringOrder canon psi Oi i Om Oj j = orderBody (usedState canon psi) Oi i Om Oj j := by
  unfold stringOrder orderNe usedState
  rw [if_neg (by omega)]
  simp only
  rw [if_neg (by omega : ¬ i > j)]

/-- **C62**, string orders between different sites: the value is the expected value, in a window which contains both sites, of the
product of `Opi` on site `i`, `Opj` on site `j`, `Opmiddle` on every site strictly in between and the identity elsewhere. -/
theorem C62_string_order (canon : State K → State K) (psi : State K) (h : Ok (usedState canon psi)) {Oi Om Oj : Tensor K} {i j : Int}
    (hij : i < j) (hi : Acts (usedState canon psi) i Oi) (hj : Acts (usedState canon psi) j Oj)
    (hm : ∀ k, i < k → k < j → Acts (usedState canon psi) k Om) :
    evenDown i ≤ i ∧ j < evenDown i + oddSites i j ∧
    stringOrder canon psi Oi i Om Oj j =
      winExpect (usedState canon psi) (evenDown i) (oddSites i j) (placed (usedState canon psi) Oi i Om Oj j) := by
  refine ⟨by unfold evenDown; omega, by unfold oddSites evenDown; omega, ?_⟩
  rw [stringOrder_lt canon psi Oi Om Oj hij]
  exact orderBody_eq h hij hi hj hm

/-- **C62**, two-operator expected values: the same with the identity between the two sites -/
theorem C62_expected2 (canon : State K → State K) (psi : State K) (h : Ok (usedState canon psi)) {O1 O2 : Tensor K} {i j : Int}
    (hij : i < j) (hi : Acts (usedState canon psi) i O1) (hj : Acts (usedState canon psi) j O2) :
    ITebd.expected2 canon psi O1 i O2 j = winExpect (usedState canon psi) (evenDown i) (oddSites i j)
      (fun k => if k = i then orOne (((usedState canon psi).matrix k).dim 1) O1
        else if k = j then orOne (((usedState canon psi).matrix k).dim 1) O2 else ones (usedState canon psi) k) := by
  unfold ITebd.expected2
  rw [(C62_string_order canon psi h hij hi hj (fun _ _ _ => Or.inl rfl)).2.2]
  unfold winExpect
  congr 2
  refine siteOps_congr fun k _ => ?_
  unfold placed
  split
  · rfl
  · split
    · rfl
    · split
      · rfl
      · rfl

/-- **C62**: exchanging the two operators together with their sites changes nothing -/
theorem C62_swap (canon : State K → State K) (psi : State K) (Oi Om Oj : Tensor K) {i j : Int} (hij : i ≠ j) :
    stringOrder canon psi Oi i Om Oj j = stringOrder canon psi Oj j Om Oi i := by
  unfold stringOrder orderNe
  rw [if_neg hij, if_neg (Ne.symm hij)]
  simp only
  by_cases hlt : i < j
  · rw [if_neg (by omega : ¬ i > j), if_pos (by omega : j > i)]
  · rw [if_pos (by omega : i > j), if_neg (by omega : ¬ j > i)]

/-- **C62**: only the distance and the parity of the first site matter -/
theorem C62_translation (canon : State K → State K) (psi : State K) (Oi Om Oj : Tensor K) (i j m : Int) :
    stringOrder canon psi Oi (i + 2 * m) Om Oj (j + 2 * m) = stringOrder canon psi Oi i Om Oj j := by
  unfold stringOrder
  by_cases hij : i = j
  · rw [if_pos hij, if_pos (by omega)]
    unfold ITebd.expected1
    simp only [show (i + 2 * m) % 2 = i % 2 by omega]
  · rw [if_neg hij, if_neg (by omega)]
    unfold orderNe orderBody
    simp only [show (i + 2 * m) % 2 = i % 2 by omega, show (j + 2 * m) % 2 = j % 2 by omega,
      show (i + 2 * m > j + 2 * m) ↔ i > j from by omega, show j + 2 * m - (i + 2 * m) = j - i by omega,
      show i + 2 * m - (j + 2 * m) = i - j by omega]

/-- **C62**: on equal sites the two operators are multiplied -/
theorem C62_same_site (canon : State K → State K) (psi : State K) (Oi Om Oj : Tensor K) (i : Int) :
    stringOrder canon psi Oi i Om Oj i = ITebd.expected1 canon psi (mmult Oi Oj) i := by
  unfold stringOrder
  rw [if_pos rfl]

/-- **C62**, one-site expected values: the value is the expected value, in the window of the sites `0, 1, 2`, of `Op` on site 0 or 1,
whichever has the parity of `site`, and the identity elsewhere -/
theorem C62_expected (canon : State K → State K) (psi : State K) (h : Ok (usedState canon psi)) {Op : Tensor K} (site : Int)
    (hop : Acts (usedState canon psi) site Op) :
    ITebd.expected1 canon psi Op site = winExpect (usedState canon psi) 0 3
      (fun k => if k = site % 2 then orOne (((usedState canon psi).matrix k).dim 1) Op else ones (usedState canon psi) k) := by
  have hacts : Acts (usedState canon psi) (site % 2) Op := by
    unfold Acts at hop ⊢
    rw [show (usedState canon psi).matrix (site % 2) = (usedState canon psi).matrix site from by
      have := matrix_shift (usedState canon psi) (p := site % 2) (q := site) (by omega) 0
      simpa using this]
    exact hop
  have key : ∀ (x y : Tensor K), Acts (usedState canon psi) 0 x → Acts (usedState canon psi) 1 y →
      orderNe canon psi x 0 Tensor.empty y 1 = winExpect (usedState canon psi) 0 3 (placed (usedState canon psi) x 0 Tensor.empty y 1) := by
    intro x y hx hy
    have := orderBody_eq h (i := 0) (j := 1) (Oi := x) (Om := Tensor.empty) (Oj := y) (by omega) hx hy (fun _ _ _ => Or.inl rfl)
    unfold orderNe
    simp only
    rw [if_neg (by omega : ¬ ((0 : Int) > 1))]
    exact this
  unfold ITebd.expected1
  rcases Int.emod_two_eq_zero_or_one site with e | e
  · rw [e] at hacts
    rw [if_neg (by omega), key _ _ hacts (Or.inl rfl), e]
    unfold winExpect
    congr 2
  · rw [e] at hacts
    rw [if_pos e, key _ _ (Or.inl rfl) hacts, e]
    unfold winExpect
    congr 2

end MPS.Props
