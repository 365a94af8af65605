import Verif.ITebdBdryLemmas

/-!
# C110, C111: expected values of infinite states with a boundary vector
-/

set_option linter.unusedSectionVars false
set_option linter.unusedSimpArgs false

namespace MPS.Props
open Tensor MPS MPS.ITebd
variable {K : Type} [RCLike K]

/-- **C110**, string orders: whenever the first site opens a cell, the last one closes a cell and all operators are given, the value is the
expected value on a ring made of the sites from `i` to `j` and of a positive number of cells more. -/
theorem C110_string_order {psi : State K} (h : Ok psi) {power : (Tensor K → Tensor K) → Tensor K → Tensor K} (hpow : GoodPower power)
    {Oi Om Oj : Tensor K} {i j : Int} (hij : i < j) (hi : i % 2 = 0) (hj : j % 2 = 1)
    (oi : Oi.dims = [(psi.matrix i).dim 1, (psi.matrix i).dim 1]) (oj : Oj.dims = [(psi.matrix j).dim 1, (psi.matrix j).dim 1])
    (om : ∀ k, i < k → k < j → Om.dims = [(psi.matrix k).dim 1, (psi.matrix k).dim 1]) {n : Nat} (hn : (n : Int) = j + 1 - i)
    (h0 : ∀ k : Nat, ringNorm psi (i - (2 * (k + 1) : Nat)) (2 * (k + 1) + n) ≠ 0) :
    ∃ k : Nat, bdryStringOrder power psi Oi i Om Oj j = some (ringValue psi (i - (2 * (k + 1) : Nat)) (2 * (k + 1) + n)
      (siteOps (i - (2 * (k + 1) : Nat)) (2 * (k + 1) + n) (placed psi Oi i Om Oj j))) := by
  have full : ∀ (k : Int) (o : Tensor K), o.dims = [(psi.matrix k).dim 1, (psi.matrix k).dim 1] → orOne ((psi.matrix k).dim 1) o = o := by
    intro k o ho
    have := (h.dims k).2.2.1
    have : o.isEmpty = false := by simp [isEmpty, size, ho]; omega
    simp [orOne, this]
  unfold bdryStringOrder bdryOrder
  rw [if_neg (by omega)]
  refine bdryBody_eq h hpow (by omega) hi hj (fun k h1 h2 => ?_) (fun k hk => ?_) hn h0
  · unfold slowOp placed
    rw [if_neg (by omega)]
    by_cases e1 : k = i
    · subst e1
      rw [if_pos rfl, if_neg (by omega), if_pos rfl, full k Oi oi]
      exact ⟨oi, rfl⟩
    · by_cases e2 : k = j
      · subst e2
        rw [if_neg e1, if_pos rfl, if_neg e1, if_pos rfl, full k Oj oj]
        exact ⟨oj, rfl⟩
      · rw [if_neg e1, if_neg e2, if_neg e1, if_neg e2, if_pos ⟨by omega, by omega⟩, full k Om (om k (by omega) (by omega))]
        exact ⟨om k (by omega) (by omega), rfl⟩
  · unfold placed
    rw [if_neg (by omega), if_neg (by omega), if_neg (by omega)]

/-- **C110**: exchanging the two operators together with their sites changes nothing -/
theorem C110_swap (power : (Tensor K → Tensor K) → Tensor K → Tensor K) (psi : State K) (Oi Om Oj : Tensor K) {i j : Int} (hij : i ≠ j) :
    bdryStringOrder power psi Oi i Om Oj j = bdryStringOrder power psi Oj j Om Oi i := by
  unfold bdryStringOrder bdryOrder
  by_cases h : i > j
  · rw [if_pos h, if_neg (by omega)]
  · rw [if_neg h, if_pos (by omega)]

/-- **C110**, two operators on the two sites of a cell -/
theorem C110_expected2 {psi : State K} (h : Ok psi) {power : (Tensor K → Tensor K) → Tensor K → Tensor K} (hpow : GoodPower power)
    {O1 O2 : Tensor K} {i : Int} (hi : i % 2 = 0) (o1 : O1.dims = [(psi.matrix i).dim 1, (psi.matrix i).dim 1])
    (o2 : O2.dims = [(psi.matrix (i + 1)).dim 1, (psi.matrix (i + 1)).dim 1])
    (h0 : ∀ k : Nat, ringNorm psi (i - (2 * (k + 1) : Nat)) (2 * (k + 1) + 2) ≠ 0) :
    ∃ k : Nat, bdryExpected2 power psi O1 i O2 (i + 1) = some (ringValue psi (i - (2 * (k + 1) : Nat)) (2 * (k + 1) + 2)
      (siteOps (i - (2 * (k + 1) : Nat)) (2 * (k + 1) + 2) (fun k => if k = i then O1 else if k = i + 1 then O2 else ones psi k))) := by
  obtain ⟨k, e⟩ := C110_string_order h hpow (Oi := O1) (Om := Tensor.empty) (Oj := O2) (i := i) (j := i + 1) (by omega) hi (by omega) o1 o2
    (fun k h1 h2 => by omega) (n := 2) (by push_cast; omega) h0
  refine ⟨k, ?_⟩
  unfold bdryExpected2
  rw [e]
  refine congrArg some (congrArg (ringValue psi _ _) (siteOps_congr fun q _ => ?_))
  have p1 := (h.dims i).2.2.1
  have p2 := (h.dims (i + 1)).2.2.1
  have n1 : O1.isEmpty = false := by simp [isEmpty, size, o1]; omega
  have n2 : O2.isEmpty = false := by simp [isEmpty, size, o2]; omega
  unfold placed orOne
  rw [n1, n2]
  split
  · rfl
  · split
    · rfl
    · rw [if_neg (by omega)]

/-- **C110**, operators on two neighbouring sites: the value is the expected value on a ring, on its last two sites. -/
theorem C110_expected12 {psi : State K} (h : Ok psi) {power : (Tensor K → Tensor K) → Tensor K → Tensor K} (hpow : GoodPower power)
    {op : Tensor K} (site : Int)
    (hop : op.dims = [(psi.matrix 0).dim 1 * (psi.matrix 1).dim 1, (psi.matrix 0).dim 1 * (psi.matrix 1).dim 1])
    (h0 : ∀ k : Nat, ringNorm psi site (2 * (k + 1) + 2) ≠ 0) :
    ∃ k : Nat, bdryExpected12 power psi op site =
      some (ringValue psi site (2 * (k + 1) + 2) (widen (2 * (k + 1)) 2 (pairElt ((psi.matrix site).dim 1) op))) := by
  unfold bdryExpected12
  have p0 := (h.dims 0).2.2.1
  have p1 := (h.dims 1).2.2.1
  have hne : op.isEmpty = false := by simp [isEmpty, size, hop]; omega
  rw [hne]
  simp only [Bool.false_eq_true, if_false]
  have rv : ∀ p q : Int, p % 2 = q % 2 → psi.rightVector p = psi.rightVector q := by
    intro p q hpq; have := rightVector_shift psi hpq 0; simpa using this
  rcases Int.emod_two_eq_zero_or_one site with hp | hp
  · rw [if_neg (by omega)]
    have e1 := matrix_parity psi (p := 0) (q := site) (by omega)
    have e2 := matrix_parity psi (p := 1) (q := site + 1) (by omega)
    rw [rv 0 site (by omega), rv 1 (site + 1) (by omega), e1, e2]
    rw [e1, e2] at hop
    obtain ⟨k, e⟩ := bdryPair_eq h hpow site hop h0
    exact ⟨k, by rw [e]⟩
  · rw [if_pos (by omega)]
    have e1 := matrix_parity psi (p := 1) (q := site) (by omega)
    have e2 := matrix_parity psi (p := 0) (q := site + 1) (by omega)
    rw [rv 1 site (by omega), rv 0 (site + 1) (by omega), e1, e2]
    rw [e1, e2] at hop
    obtain ⟨k, e⟩ := bdryPair_eq h hpow site (by rw [hop, Nat.mul_comm]) h0
    exact ⟨k, by rw [e]⟩

/-- **C110**, energy: the sum of the energies of the bonds of a cell -/
theorem C110_energy {psi : State K} (h : Ok psi) {power : (Tensor K → Tensor K) → Tensor K → Tensor K} (hpow : GoodPower power)
    {op : Tensor K}
    (hop : op.dims = [(psi.matrix 0).dim 1 * (psi.matrix 1).dim 1, (psi.matrix 0).dim 1 * (psi.matrix 1).dim 1])
    (h0 : ∀ k : Nat, ringNorm psi 0 (2 * (k + 1) + 2) ≠ 0) (h1 : ∀ k : Nat, ringNorm psi 1 (2 * (k + 1) + 2) ≠ 0) :
    ∃ k l : Nat, bdryEnergy power psi op = some (
      ringValue psi 0 (2 * (k + 1) + 2) (widen (2 * (k + 1)) 2 (pairElt ((psi.matrix 0).dim 1) op)) +
      ringValue psi 1 (2 * (l + 1) + 2) (widen (2 * (l + 1)) 2 (pairElt ((psi.matrix 1).dim 1) op))) := by
  obtain ⟨k, e1⟩ := C110_expected12 h hpow 0 hop h0
  obtain ⟨l, e2⟩ := C110_expected12 h hpow 1 hop h1
  exact ⟨k, l, by unfold bdryEnergy; rw [e1, e2]; rfl⟩

/-- the hypothesis on the power method is met by five steps of the map and a factor -/
noncomputable def fiveSteps (f : Tensor K → Tensor K) (v : Tensor K) : Tensor K := smul 3 (f^[5] v)

theorem fiveSteps_good : GoodPower (fiveSteps (K := K)) := fun f v => ⟨5, 3, by norm_num, rfl, fun _ _ => rfl⟩

/-- the hypotheses hold for the GHZ state -/
example : ∃ psi, ghzInf = some psi ∧ ∃ k : Nat, bdryExpected12 fiveSteps psi (kron2 pauliZ pauliX) 3 =
    some (ringValue psi 3 (2 * (k + 1) + 2) (widen (2 * (k + 1)) 2 (pairElt ((psi.matrix 3).dim 1) (kron2 pauliZ pauliX)))) := by
  obtain ⟨psi, h1, h2, h3⟩ := C109_ghz_norm
  refine ⟨psi, h1, C110_expected12 h2 fiveSteps_good 3 ?_ (fun k => by rw [h3 3 _ (by omega)]; norm_num)⟩
  have hpsi : psi = uniform ghzT := by
    have : ghzInf = some (uniform ghzT) := by
      unfold ghzInf State.new
      exact if_pos ⟨rfl, rfl, rfl, rfl, rfl⟩
    rw [this] at h1; exact (Option.some.inj h1).symm
  rw [hpsi, uniform_matrix, uniform_matrix]; rfl

/-- a string order of the GHZ state -/
example : ∃ psi, ghzInf = some psi ∧ ∃ k : Nat, bdryStringOrder fiveSteps psi pauliZ 2 pauliX pauliZ 7 =
    some (ringValue psi (2 - (2 * (k + 1) : Nat)) (2 * (k + 1) + 6)
      (siteOps (2 - (2 * (k + 1) : Nat)) (2 * (k + 1) + 6) (placed psi pauliZ 2 pauliX pauliZ 7))) := by
  obtain ⟨psi, h1, h2, h3⟩ := C109_ghz_norm
  have hpsi : psi = uniform ghzT := by
    have : ghzInf = some (uniform ghzT) := by
      unfold ghzInf State.new
      exact if_pos ⟨rfl, rfl, rfl, rfl, rfl⟩
    rw [this] at h1; exact (Option.some.inj h1).symm
  refine ⟨psi, h1, C110_string_order h2 fiveSteps_good (by norm_num) (by norm_num) (by norm_num) ?_ ?_ (fun k _ _ => ?_) (by norm_num)
    (fun k => by rw [h3 _ _ (by omega)]; norm_num)⟩
  all_goals rw [hpsi, uniform_matrix]; rfl

/-- one empty operator in the loop is enough -/
theorem bdryBody_none (power : (Tensor K → Tensor K) → Tensor K → Tensor K) {Oi Om Oj A lA B lB : Tensor K} {i j k : Int}
    (h1 : i - i % 2 ≤ k) (h2 : k ≤ j + 1 - j % 2) (hk : (slowOp Oi i Om Oj j k).isEmpty = true) :
    bdryBody power Oi i Om Oj j A lA B lB = none := by
  unfold bdryBody
  simp only
  have e1 : (if i % 2 = 1 then i - 1 else i) = i - i % 2 := by split <;> omega
  have e2 : (if j % 2 = 1 then j else j + 1) = j + 1 - j % 2 := by split <;> omega
  rw [e1, e2]
  generalize hx : (leftBdry2 power (scale A (-1) lA) (scale B (-1) lB), leftBdry2 power (scale A (-1) lA) (scale B (-1) lB)) = x
  clear hx
  have key : ∀ (n : Nat), (k - (i - i % 2)).toNat < n → ∀ x, (List.range n).foldlM (fun R (n : Nat) =>
      bdryStep (scale A (-1) lA) (scale B (-1) lB) Oi i Om Oj j R (i - i % 2 + n)) x = none := by
    intro n
    induction n with
    | zero => intro h; omega
    | succ n ih =>
      intro hn x
      rw [List.range_succ, List.foldlM_append]
      by_cases hlt : (k - (i - i % 2)).toNat < n
      · rw [ih hlt]; rfl
      · have : i - i % 2 + (n : Int) = k := by omega
        cases (List.range n).foldlM (fun R (n : Nat) => bdryStep (scale A (-1) lA) (scale B (-1) lB) Oi i Om Oj j R (i - i % 2 + n)) x with
        | none => rfl
        | some y =>
          simp only [Option.bind_eq_bind, Option.bind_some, List.foldlM_cons, List.foldlM_nil, this]
          unfold bdryStep
          simp only [hk, if_true]
          rfl
  rw [key _ (by omega) x]
  rfl

/-- **C111** is violated: expected values of one operator always abort -/
theorem C111_expected_violated (power : (Tensor K → Tensor K) → Tensor K → Tensor K) (psi : State K) (Op : Tensor K) (site : Int) :
    bdryExpected1 power psi Op site = none := by
  unfold bdryExpected1 bdryStringOrder bdryOrder
  have hemp : (Tensor.empty : Tensor K).isEmpty = true := by simp [Tensor.empty, isEmpty, size]
  split
  · rw [if_neg (by omega)]
    exact bdryBody_none power (k := 0) (by omega) (by omega) (by simpa [slowOp] using hemp)
  · rw [if_neg (by omega)]
    exact bdryBody_none power (k := 1) (by omega) (by omega) (by simpa [slowOp] using hemp)

/-- **C111** is violated: string orders abort when the first site does not open a cell or the last one does not close it -/
theorem C111_string_violated (power : (Tensor K → Tensor K) → Tensor K → Tensor K) (psi : State K) (Oi Om Oj : Tensor K) {i j : Int} (hij : i ≤ j)
    (h : i % 2 = 1 ∨ j % 2 = 0) : bdryStringOrder power psi Oi i Om Oj j = none := by
  unfold bdryStringOrder bdryOrder
  rw [if_neg (by omega)]
  have hemp : (Tensor.empty : Tensor K).isEmpty = true := by simp [Tensor.empty, isEmpty, size]
  rcases h with h | h
  · exact bdryBody_none power (k := i - 1) (by omega) (by omega) (by unfold slowOp; rw [if_pos (Or.inl (by omega))]; exact hemp)
  · exact bdryBody_none power (k := j + 1) (by omega) (by omega) (by unfold slowOp; rw [if_pos (Or.inr (by omega))]; exact hemp)

/-- **C111** is violated: expected values of two operators abort unless their sites are those of one cell -/
theorem C111_expected2_violated (power : (Tensor K → Tensor K) → Tensor K → Tensor K) (psi : State K) (O1 O2 : Tensor K) {i j : Int} (hij : i ≤ j)
    (h : ¬ (i % 2 = 0 ∧ j = i + 1)) : bdryExpected2 power psi O1 i O2 j = none := by
  by_cases h1 : i % 2 = 1 ∨ j % 2 = 0
  · exact C111_string_violated power psi O1 _ O2 hij h1
  · unfold bdryExpected2 bdryStringOrder bdryOrder
    rw [if_neg (by omega)]
    have hemp : (Tensor.empty : Tensor K).isEmpty = true := by simp [Tensor.empty, isEmpty, size]
    refine bdryBody_none power (k := i + 1) (by omega) (by omega) ?_
    unfold slowOp
    rw [if_neg (by omega), if_neg (by omega), if_neg (by omega)]
    exact hemp

/-- **C111**, part which holds: when a value is returned, it is the one of C110, that is, an expected value on a ring.  What is missing:
`C111_expected_violated`, `C111_string_violated` and `C111_expected2_violated`. -/
theorem C111_partial {psi : State K} (h : Ok psi) {power : (Tensor K → Tensor K) → Tensor K → Tensor K} (hpow : GoodPower power)
    {Oi Om Oj : Tensor K} {i j : Int} (hij : i < j) (hi : Acts psi i Oi) (hj : Acts psi j Oj)
    (hm : ∀ k, i < k → k < j → Acts psi k Om) {x : K} (hx : bdryStringOrder power psi Oi i Om Oj j = some x)
    (h0 : ∀ p : Int, ∀ n : Nat, n % 2 = 0 → 0 < n → ringNorm psi p n ≠ 0) :
    ∃ (p : Int) (n : Nat), p < i ∧ j < p + n ∧ x = ringValue psi p n (siteOps p n (placed psi Oi i Om Oj j)) := by
  have hb : bdryBody power Oi i Om Oj j (psi.matrix 0) (psi.rightVector 0) (psi.matrix 1) (psi.rightVector 1) = some x := by
    unfold bdryStringOrder bdryOrder at hx
    rwa [if_neg (by omega)] at hx
  have par : i % 2 = 0 ∧ j % 2 = 1 := by
    by_contra hc
    rw [C111_string_violated power psi Oi Om Oj (by omega) (by omega)] at hx
    cases hx
  have ne : ∀ k, i ≤ k → k ≤ j → (slowOp Oi i Om Oj j k).isEmpty = false := by
    intro k h1 h2
    by_contra hc
    rw [bdryBody_none power (k := k) (by omega) (by omega) (by simpa using hc)] at hb
    cases hb
  have oi : Oi.dims = _ := hi.resolve_left (by have := ne i (by omega) (by omega); simp [slowOp] at this; rw [if_neg (by omega), if_neg (by omega)] at this; simp [this])
  have oj : Oj.dims = _ := hj.resolve_left (by have := ne j (by omega) (by omega); simp [slowOp] at this; rw [if_neg (by omega), if_neg (by omega)] at this; simp [this])
  have om : ∀ k, i < k → k < j → Om.dims = [(psi.matrix k).dim 1, (psi.matrix k).dim 1] := by
    intro k h1 h2
    refine (hm k h1 h2).resolve_left ?_
    have := ne k (by omega) (by omega)
    unfold slowOp at this
    rw [if_neg (by omega), if_neg (by omega), if_neg (by omega)] at this
    simp [this]
  obtain ⟨k, e⟩ := C110_string_order h hpow hij par.1 par.2 oi oj om (n := (j + 1 - i).toNat) (by omega)
    (fun k => h0 _ _ (by omega) (by omega))
  rw [hx] at e
  exact ⟨_, _, by push_cast; omega, by push_cast; omega, Option.some.inj e⟩

end MPS.Props
