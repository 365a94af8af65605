import Verif.LatticeLemmas2

/-!
# Properties of `Lattice` (C41-C45, C66)
-/

set_option linter.unusedSectionVars false
set_option linter.unusedSimpArgs false

namespace MPS.Props
open MPS MPS.Lat
variable {R : Type} [CommRing R]

/-- **C41.**  `Lattice(sites, N)` is accepted exactly for `sites ≤ 34`, `N ≤ sites`; its basis lists, strictly
ascending, exactly the words below `2^sites` with `N` occupied sites, and `dimension()` is the binomial coefficient. -/
theorem C41_basis (sites N : Nat) :
    (sites ≤ 34 ∧ N ≤ sites ↔ ∃ L, Lat.new sites N = some L) ∧
    ∀ L, Lat.new sites N = some L →
      L.configurations.Pairwise (· < ·) ∧
      (∀ w, w ∈ L.configurations ↔ w < 2 ^ sites ∧ occupied sites w = N) ∧
      L.dimension = sites.choose N := by
  refine ⟨⟨fun h => ?_, fun ⟨L, h⟩ => ⟨(new_spec h).1, (new_spec h).2.1⟩⟩,
    fun L h => ⟨new_sorted h, new_mem h, new_dimension h⟩⟩
  rw [Lat.new, statesWithN_eq h.1 h.2]
  exact ⟨_, rfl⟩

example : (Lat.new 4 2).map (·.configurations) = some [3, 5, 6, 9, 10, 12] := by decide +kernel

/-- **C42.**  Between different sites, `hopping_operator(dst, frm, kind)` is a square matrix of size `dimension()` whose
entry `(r, c)` is the amplitude of the hop when basis state `r` is basis state `c` after moving a particle from `frm` to
`dst`, and zero otherwise. -/
theorem C42_hopping {sites N : Nat} {L : Lattice} (h : Lat.new sites N = some L) {dst frm : Nat}
    (hd : dst < sites) (hf : frm < sites) (hne : dst ≠ frm) (kind : Kind) :
    let T := hoppingOperator (R := R) L dst frm kind
    T.rows = L.dimension ∧ T.cols = L.dimension ∧
    ∀ r c, r < L.dimension → c < L.dimension →
      (IsHop dst frm (L.configurations.getD c 0) (L.configurations.getD r 0) →
        T.entry r c = hopSign kind dst frm (L.configurations.getD c 0)) ∧
      (¬ IsHop dst frm (L.configurations.getD c 0) (L.configurations.getD r 0) → T.entry r c = 0) := by
  refine ⟨(hoppingOperator_rows h _ _ _).1, (hoppingOperator_rows h _ _ _).2, fun r c hr hc => ?_⟩
  rw [hoppingOperator_entry_ne h hd hf hne kind hr hc]
  have iff : IsHop dst frm (L.configurations.getD c 0) (L.configurations.getD r 0) ↔
      ((L.configurations.getD c 0).testBit frm = true ∧ (L.configurations.getD c 0).testBit dst = false ∧
          L.configurations.getD r 0 = flipWord frm dst (L.configurations.getD c 0)) := by
    unfold IsHop
    refine and_congr_right fun h1 => and_congr_right fun h2 => ?_
    constructor
    · intro hk
      apply Nat.eq_of_testBit_eq
      intro k
      rw [hk, flipWord_testBit, h1, h2]
    · intro e k
      rw [e, flipWord_testBit, h1, h2]
  exact ⟨fun hh => if_pos (iff.mp hh), fun hh => if_neg (fun h2 => hh (iff.mpr h2))⟩

/-- **C42**, equal sites: `hopping_operator(k, k, kind)` is the number operator. -/
theorem C42_hopping_diagonal {sites N : Nat} {L : Lattice} (_h : Lat.new sites N = some L) (k : Nat) (kind : Kind) :
    let T := hoppingOperator (R := R) L k k kind
    T.rows = L.dimension ∧ T.cols = L.dimension ∧
    ∀ r c, r < L.dimension → c < L.dimension →
      T.entry r c = if r = c ∧ (L.configurations.getD c 0).testBit k = true then 1 else 0 := by
  refine ⟨?_, ?_, fun r c _ hc => ?_⟩
  · simp [hoppingOperator, numberOperator, interactionOperator, Sparse.ofTriplets, Lattice.dimension]
  · simp [hoppingOperator, numberOperator, interactionOperator, Sparse.ofTriplets, Lattice.dimension]
  · rw [hoppingOperator, if_pos rfl, numberOperator, interactionOperator_entry L k k hc]
    simp

/-- a fermion hopping over another one picks up a sign: from `{0,1}` (word 3) to `{1,2}` (word 6) -/
example : IsHop 2 0 3 6 ∧ hopSign (R := ℤ) .fermions 2 0 3 = -1 := by
  refine ⟨⟨by decide, by decide, fun k => ?_⟩, ?_⟩
  · rcases Nat.lt_or_ge k 3 with hk | hk
    · interval_cases k <;> decide
    · have h1 : Nat.testBit 6 k = false :=
        Nat.testBit_lt_two_pow (lt_of_lt_of_le (by norm_num : (6 : Nat) < 2 ^ 3) (Nat.pow_le_pow_right (by norm_num) hk))
      have h2 : Nat.testBit 3 k = false :=
        Nat.testBit_lt_two_pow (lt_of_lt_of_le (by norm_num : (3 : Nat) < 2 ^ 3) (Nat.pow_le_pow_right (by norm_num) hk))
      rw [h1, h2, if_neg (by omega), if_neg (by omega)]
  · decide

/-- **C43**, diagonal operators: `number_operator(k)` has entries `n_k`, `interaction_operator(i,j)` has `n_i n_j`. -/
theorem C43_number_interaction (L : Lattice) (i j : Nat) :
    (interactionOperator (R := R) L i j).rows = L.dimension ∧ (numberOperator (R := R) L i).rows = L.dimension ∧
    ∀ r c, r < L.dimension → c < L.dimension →
      ((numberOperator (R := R) L i).entry r c
        = if r = c then (if (L.configurations.getD c 0).testBit i then 1 else 0) else 0) ∧
      ((interactionOperator (R := R) L i j).entry r c
        = if r = c then (if (L.configurations.getD c 0).testBit i then 1 else 0)
            * (if (L.configurations.getD c 0).testBit j then 1 else 0) else 0) := by
  refine ⟨rfl, rfl, fun r c _ hc => ⟨?_, ?_⟩⟩
  · rw [numberOperator, interactionOperator_entry L i i hc]
    by_cases h1 : r = c <;> simp [h1]
  · rw [interactionOperator_entry L i j hc]
    by_cases h1 : r = c <;> cases (L.configurations.getD c 0).testBit i <;>
      cases (L.configurations.getD c 0).testBit j <;> simp [h1]

/-- **C43.**  `Hamiltonian(J, U, mu, kind)` is `Σ_ij (J(i,j) - mu δ_ij) a†_i a_j + Σ_ij U(i,j) n_i n_j`. -/
theorem C43_hamiltonian [DecidableEq R] {sites N : Nat} {L : Lattice} (h : Lat.new sites N = some L) (J U : Tensor R)
    (hJ : J.dims = [sites, sites]) (mu : R) (kind : Kind) (r c : Nat) :
    (hamiltonian L J U mu kind).entry r c
      = ∑ i ∈ Finset.range sites, ∑ j ∈ Finset.range sites,
        ((J.get [i, j] - if i = j then mu else 0) * (hoppingOperator L i j kind).entry r c
          + U.get [i, j] * (interactionOperator L i j).entry r c) := by
  rw [(hamiltonian_entry h J U mu kind).1]
  simp [Tensor.dim, hJ, Tensor.nrm]

example : (Lat.new 34 34).isSome = true ∧ (Lat.new 35 1).isSome = false ∧ (Lat.new 3 4).isSome = false := by
  refine ⟨?_, by decide, by decide⟩
  rw [Lat.new, Option.isSome_map, statesWithN_eq (by omega) (by omega)]
  rfl

/-- **C66, part.**  `Hamiltonian` has `dimension()` rows as soon as one coefficient is not zero.
Missing: with all coefficients zero the result has no rows at all (next theorem). -/
theorem C66_hamiltonian_rows_partial [DecidableEq R] {sites N : Nat} {L : Lattice} (h : Lat.new sites N = some L)
    (J U : Tensor R) (hJ : J.dims = [sites, sites]) (mu : R) (kind : Kind)
    (hnz : ∃ i j, i < sites ∧ j < sites ∧ (J.get [i, j] - (if i = j then mu else 0) ≠ 0 ∨ U.get [i, j] ≠ 0)) :
    (hamiltonian L J U mu kind).rows = L.dimension := by
  obtain ⟨-, h2, h3⟩ := hamiltonian_entry h J U mu kind
  rcases h2 with h2 | h2
  · exfalso
    obtain ⟨i, j, hi, hj, hh⟩ := hnz
    have := h3.mp h2 i (by simpa [Tensor.dim, hJ, Tensor.nrm] using hi) j (by simpa [Tensor.dim, hJ, Tensor.nrm] using hj)
    rcases hh with hh | hh
    · exact hh this.1
    · exact hh this.2
  · exact h2

/-- **C66 fails**: for vanishing coefficients `Hamiltonian` is a matrix without rows, whatever the lattice. -/
theorem C66_hamiltonian_rows_violated [DecidableEq R] {sites N : Nat} {L : Lattice} (h : Lat.new sites N = some L)
    (kind : Kind) :
    (hamiltonian L (Tensor.zeros [sites, sites]) (Tensor.zeros [sites, sites]) (0 : R) kind).rows = 0
      ∧ 0 < L.dimension := by
  refine ⟨?_, new_dimension_pos h⟩
  rw [(hamiltonian_entry h _ _ _ kind).2.2]
  intro i _ j _
  simp [Tensor.zeros]

/-- **C44, part.**  The product used by `eigs` agrees with `Hamiltonian(J, U, 0)` for symmetric `J` without diagonal and
`U` without diagonal such that `U(j,i)` vanishes whenever `U(i,j)` does, `i < j`.
Missing: other `J` and `U`, for which the claim is false (next theorems). -/
theorem C44_apply_partial [DecidableEq R] {sites N : Nat} {L : Lattice} (h : Lat.new sites N = some L) (J U : Tensor R)
    (hJ : J.dims = [sites, sites]) (hsym : ∀ i j, i < sites → j < sites → J.get [i, j] = J.get [j, i])
    (hJd : ∀ i < sites, J.get [i, i] = 0) (hUd : ∀ i < sites, U.get [i, i] = 0)
    (hU : ∀ i j, i < j → j < sites → U.get [i, j] = 0 → U.get [j, i] = 0)
    (kind : Kind) (psi : Nat → R) {r : Nat} (hr : r < L.dimension) :
    applyLattice L J U kind psi r
      = ∑ c ∈ Finset.range L.dimension, (hamiltonian L J U 0 kind).entry r c * psi c := by
  rw [applyLattice_eq h J U hJ hJd kind psi hr]
  have hrhs : ∑ c ∈ Finset.range L.dimension, (hamiltonian L J U 0 kind).entry r c * psi c
      = ∑ i ∈ Finset.range sites, ∑ j ∈ Finset.range sites,
        (J.get [i, j] * (∑ c ∈ Finset.range L.dimension, (hoppingOperator L i j kind).entry r c * psi c)
        + U.get [i, j] * (∑ c ∈ Finset.range L.dimension, (interactionOperator L i j).entry r c * psi c)) := by
    simp only [C43_hamiltonian h J U hJ, ite_self, sub_zero, Finset.sum_mul, Finset.mul_sum]
    rw [Finset.sum_comm]
    apply Finset.sum_congr rfl; intro i _
    rw [Finset.sum_comm]
    apply Finset.sum_congr rfl; intro j _
    rw [← Finset.sum_add_distrib]
    apply Finset.sum_congr rfl; intro c _
    ring
  rw [hrhs]
  simp only [Finset.sum_add_distrib]
  congr 1
  · rw [Finset.sum_comm]
    apply Finset.sum_congr rfl; intro i hi
    apply Finset.sum_congr rfl; intro j hj
    rw [hsym j i (Finset.mem_range.mp hj) (Finset.mem_range.mp hi)]
  · -- interactions: pair (i,j) with (j,i)
    have hI : ∀ i j, ∑ c ∈ Finset.range L.dimension, (interactionOperator (R := R) L i j).entry r c * psi c
        = ∑ c ∈ Finset.range L.dimension, (interactionOperator L j i).entry r c * psi c := by
      intro i j
      apply Finset.sum_congr rfl; intro c hc
      rw [interactionOperator_comm L i j (Finset.mem_range.mp hc)]
    generalize hX : (fun i j => ∑ c ∈ Finset.range L.dimension, (interactionOperator (R := R) L i j).entry r c * psi c) = X
    have hX' : ∀ i j, ∑ c ∈ Finset.range L.dimension, (interactionOperator (R := R) L i j).entry r c * psi c = X i j := by
      intro i j; rw [← hX]
    simp only [hX'] at hI ⊢
    have e1 : ∀ i ∈ Finset.range sites, ∀ j ∈ Finset.range sites,
        (if i ≤ j ∧ U.get [i, j] ≠ 0 then (U.get [i, j] + U.get [j, i]) * X i j else 0)
        = (if i < j then U.get [i, j] * X i j else 0) + (if i < j then U.get [j, i] * X j i else 0) := by
      intro i hi j hj
      have hi := Finset.mem_range.mp hi
      have hj := Finset.mem_range.mp hj
      rcases Nat.lt_trichotomy i j with hlt | heq | hgt
      · by_cases hz : U.get [i, j] = 0
        · simp [hz, hU i j hlt hj hz]
        · rw [if_pos ⟨hlt.le, hz⟩, if_pos hlt, if_pos hlt, hI j i]; ring
      · subst heq; simp [hUd i hi]
      · rw [if_neg (by omega), if_neg (by omega), if_neg (by omega), add_zero]
    rw [Finset.sum_congr rfl (fun i hi => Finset.sum_congr rfl (e1 i hi))]
    simp only [Finset.sum_add_distrib]
    rw [Finset.sum_comm (f := fun i j => if i < j then U.get [j, i] * X j i else 0), ← Finset.sum_add_distrib]
    apply Finset.sum_congr rfl; intro i hi
    rw [← Finset.sum_add_distrib]
    apply Finset.sum_congr rfl; intro j hj
    have hi := Finset.mem_range.mp hi
    rcases Nat.lt_trichotomy i j with hlt | heq | hgt
    · rw [if_pos hlt, if_neg (by omega), add_zero]
    · subst heq; simp [hUd i hi]
    · rw [if_neg (by omega), if_pos hgt, zero_add]

/-- a lattice of two sites and one particle: basis `[1, 2]` -/
theorem two_sites : Lat.new 2 1 = some ⟨2, 1, [1, 2]⟩ := by decide +kernel

/-- the hypotheses of `C44_apply_partial` are met by ordinary hopping -/
example : (∀ i < 2, ∀ j < 2, (⟨[2, 2], fun l => if l = [0, 1] ∨ l = [1, 0] then -1 else 0⟩ : Tensor ℤ).get [i, j]
    = (⟨[2, 2], fun l => if l = [0, 1] ∨ l = [1, 0] then -1 else 0⟩ : Tensor ℤ).get [j, i]) := by decide

/-- **C44 fails** for an on-site term: with `J = 0` and `U = diag(1,0)` on two sites and one particle `eigs` uses twice
the interaction of `Hamiltonian`. -/
theorem C44_apply_violated_U :
    ∃ (U : Tensor ℤ) (psi : Nat → ℤ), applyLattice ⟨2, 1, [1, 2]⟩ (Tensor.zeros [2, 2]) U .fermions psi 0 = 2 ∧
      ∑ c ∈ Finset.range 2, (hamiltonian ⟨2, 1, [1, 2]⟩ (Tensor.zeros [2, 2]) U 0 .fermions).entry 0 c * psi c = 1 := by
  refine ⟨⟨[2, 2], fun l => if l = [0, 0] then 1 else 0⟩, fun _ => 1, ?_, ?_⟩ <;> decide +kernel

/-- **C44 fails** for non-symmetric hopping: `eigs` uses the transposed matrix. -/
theorem C44_apply_violated_J {sites N : Nat} {L : Lattice} (h : Lat.new sites N = some L) [DecidableEq R]
    (J : Tensor R) (hJ : J.dims = [sites, sites]) (hJd : ∀ i < sites, J.get [i, i] = 0) (kind : Kind) (psi : Nat → R)
    {r : Nat} (hr : r < L.dimension) :
    applyLattice L J (Tensor.zeros [sites, sites]) kind psi r
      = ∑ c ∈ Finset.range L.dimension, (hamiltonian L J (Tensor.zeros [sites, sites]) 0 kind).entry c r * psi c := by
  rw [applyLattice_eq h J _ hJ hJd kind psi hr]
  simp only [C43_hamiltonian h J _ hJ, ite_self, sub_zero, Tensor.zeros, zero_mul, add_zero, ne_eq, not_true_eq_false,
    and_false, if_false, Finset.sum_mul, Finset.mul_sum]
  rw [Finset.sum_comm' (s := Finset.range L.dimension) (t := fun _ => Finset.range sites)
    (t' := Finset.range sites) (s' := fun _ => Finset.range L.dimension) (by intros; simp [and_comm])]
  apply Finset.sum_congr rfl; intro i hi
  rw [Finset.sum_comm]
  apply Finset.sum_congr rfl; intro c hc
  apply Finset.sum_congr rfl; intro j hj
  have hi := Finset.mem_range.mp hi
  have hj := Finset.mem_range.mp hj
  have hc := Finset.mem_range.mp hc
  by_cases hij : i = j
  · subst hij; rw [hJd i hi]; ring
  · rw [hoppingOperator_transpose h hj hi (Ne.symm hij) kind hc hr]; ring

/-- **C45, part** (at most 31 sites in the right part).  `bipartition(k)` terminates (with any sufficient number of
iterations of the searches) and returns the ascending lists of the configurations of the parts with an admissible number
of particles, and, for every basis state `w`, the position, in the product basis whose fastest index is the right one, of
the pair (the upper `k` sites of `w`, the lower `size-k` sites of `w`); different basis states have different positions.
Missing: larger right parts, for which the function does not terminate (next theorem). -/
theorem C45_bipartition_partial {sites N : Nat} {L : Lattice} (h : Lat.new sites N = some L) {k : Nat} (hk : 0 < k)
    (hks : k < sites) (h31 : sites - k ≤ 31) :
    ∃ (left right : List Nat), left.Pairwise (· < ·) ∧ right.Pairwise (· < ·) ∧
      (∀ w, w ∈ left ↔ w < 2 ^ k ∧ occupied k w ≤ N ∧ N ≤ occupied k w + (sites - k)) ∧
      (∀ w, w ∈ right ↔ w < 2 ^ (sites - k) ∧ occupied (sites - k) w ≤ N ∧ N ≤ occupied (sites - k) w + k) ∧
      ∃ ndx : List Nat, (∃ F, ∀ fuel ≥ F, bipartition fuel L k = some (left, right, ndx)) ∧
        ndx.length = L.dimension ∧ ndx.Nodup ∧
        ∀ c < L.dimension, ∃ il ir, il < left.length ∧ ir < right.length ∧
          left.getD il 0 = L.configurations.getD c 0 / 2 ^ (sites - k) ∧
          right.getD ir 0 = L.configurations.getD c 0 % 2 ^ (sites - k) ∧
          ndx.getD c 0 = ir + right.length * il := by
  obtain ⟨h1, h2, h3, h4, h5⟩ := new_spec h
  set sr := sites - k with hsr
  have hb : sr + k = sites := by omega
  have hleft := statesInRange_eq (sites := k) (a := N - sr) (b := min k N) (by omega)
  have hright := statesInRange_eq (sites := sr) (a := N - k) (b := min sr N) (by omega)
  set left := (List.range (2 ^ k)).filter fun c => decide (N - sr ≤ occupied k c) && decide (occupied k c ≤ min k N)
    with hl
  set right := (List.range (2 ^ sr)).filter fun c => decide (N - k ≤ occupied sr c) && decide (occupied sr c ≤ min sr N)
    with hr
  have sl : left.Pairwise (· < ·) := List.pairwise_lt_range.filter _
  have srt : right.Pairwise (· < ·) := List.pairwise_lt_range.filter _
  have ml : ∀ w, w ∈ left ↔ w < 2 ^ k ∧ occupied k w ≤ N ∧ N ≤ occupied k w + sr := by
    intro w
    have := occupied_le k w
    rw [hl, List.mem_filter, List.mem_range]
    simp only [Bool.and_eq_true, decide_eq_true_eq]
    omega
  have mr : ∀ w, w ∈ right ↔ w < 2 ^ sr ∧ occupied sr w ≤ N ∧ N ≤ occupied sr w + k := by
    intro w
    have := occupied_le sr w
    rw [hr, List.mem_filter, List.mem_range]
    simp only [Bool.and_eq_true, decide_eq_true_eq]
    omega
  -- the two parts of a configuration are listed
  have hparts : ∀ w ∈ L.configurations, (w / 2 ^ sr) ∈ left ∧ (w % 2 ^ sr) ∈ right := by
    intro w hw
    obtain ⟨hw1, hw2⟩ := (new_mem h w).mp hw
    have hsplit := occupied_split k sr w
    rw [hb, hw2, Nat.shiftRight_eq_div_pow] at hsplit
    have b1 := occupied_le sr (w % 2 ^ sr)
    have b2 := occupied_le k (w / 2 ^ sr)
    have hwl : w / 2 ^ sr < 2 ^ k := by
      rw [Nat.div_lt_iff_lt_mul (by positivity), ← pow_add, Nat.add_comm, hb]; exact hw1
    exact ⟨(ml _).mpr ⟨hwl, by omega, by omega⟩, (mr _).mpr ⟨Nat.mod_lt _ (by positivity), by omega, by omega⟩⟩
  -- positions
  have hpos : ∀ (l : List Nat) (x : Nat), ∃ p, x ∈ l → p < l.length ∧ l.getD p 0 = x := by
    intro l x
    by_cases hx : x ∈ l
    · obtain ⟨p, hp⟩ := mem_getD hx; exact ⟨p, fun _ => hp⟩
    · exact ⟨0, fun hh => absurd hh hx⟩
  choose pos hpos using hpos
  let g := fun w => pos right (w % 2 ^ sr) + pos left (w / 2 ^ sr) * right.length
  refine ⟨left, right, sl, srt, ml, mr, L.configurations.map g, ⟨max left.length right.length, fun fuel hf => ?_⟩,
    by rw [List.length_map]; rfl, ?_, fun c hc => ?_⟩
  · unfold bipartition
    rw [h3, h4, if_neg (by omega), ← hsr]
    simp only [hleft, hright]
    have hm : L.configurations.mapM (fun w => (do
        let il ← findConfiguration fuel (w >>> sr) left
        let ir ← findConfiguration fuel (rightBits w sr) right
        pure (ir + il * right.length) : Option Nat)) = some (L.configurations.map g) := by
      apply mapM_some
      intro w hw
      obtain ⟨p1, p2⟩ := hparts w hw
      obtain ⟨q1, q2⟩ := hpos left _ p1
      obtain ⟨q3, q4⟩ := hpos right _ p2
      have e1 : w >>> sr = w / 2 ^ sr := Nat.shiftRight_eq_div_pow _ _
      have e2 : rightBits w sr = w % 2 ^ sr := by
        rw [rightBits, if_pos h31, Nat.one_shiftLeft, Nat.and_two_pow_sub_one_eq_mod]
      rw [e1, e2, findConfiguration_found sl q1 q2 (by omega), findConfiguration_found srt q3 q4 (by omega)]
      rfl
    simp only [Option.bind_eq_bind] at hm
    simp only [Option.bind_eq_bind, Option.bind_some, hm]
    rfl
  · have hn : L.configurations.Nodup := (new_sorted h).imp (fun h => Nat.ne_of_lt h)
    rw [List.nodup_map_iff_inj_on hn]
    intro x hx y hy e
    obtain ⟨p1, p2⟩ := hparts x hx
    obtain ⟨p3, p4⟩ := hparts y hy
    obtain ⟨a1, a2⟩ := hpos left _ p1
    obtain ⟨a3, a4⟩ := hpos right _ p2
    obtain ⟨b1, b2⟩ := hpos left _ p3
    obtain ⟨b3, b4⟩ := hpos right _ p4
    simp only [g] at e
    have e1 : pos right (x % 2 ^ sr) = pos right (y % 2 ^ sr) := by
      have := congrArg (· % right.length) e
      simp only [Nat.add_mul_mod_self_right] at this
      rwa [Nat.mod_eq_of_lt a3, Nat.mod_eq_of_lt b3] at this
    have e2 : pos left (x / 2 ^ sr) = pos left (y / 2 ^ sr) := by
      rw [e1] at e
      have hp : 0 < right.length := by omega
      exact Nat.eq_of_mul_eq_mul_right hp (by omega)
    have m1 : x % 2 ^ sr = y % 2 ^ sr := by rw [← a4, ← b4, e1]
    have m2 : x / 2 ^ sr = y / 2 ^ sr := by rw [← a2, ← b2, e2]
    rw [← Nat.div_add_mod x (2 ^ sr), ← Nat.div_add_mod y (2 ^ sr), m1, m2]
  · obtain ⟨p1, p2⟩ := hparts _ (basis_mem hc)
    obtain ⟨a1, a2⟩ := hpos left _ p1
    obtain ⟨a3, a4⟩ := hpos right _ p2
    refine ⟨_, _, a1, a3, a2, a4, ?_⟩
    have hc' : c < L.configurations.length := hc
    rw [List.getD_eq_getElem (List.map g _) _ (by simpa using hc'), List.getElem_map, ← List.getD_eq_getElem _ 0 hc',
      Nat.mul_comm]

example : ((Lat.new 4 2).bind fun L => bipartition 10 L 1)
    = some ([0, 1], [1, 2, 3, 4, 5, 6], [2, 4, 5, 6, 7, 9]) := by decide +kernel

/-- **C45, part.**  A cut which leaves one part without sites is rejected, whatever the lattice. -/
theorem C45_empty_part_partial {sites N : Nat} {L : Lattice} (h : Lat.new sites N = some L) {k : Nat} (hk : k = 0 ∨ sites ≤ k) (fuel : Nat) :
    bipartition fuel L k = none := by
  obtain ⟨h1, h2, h3, h4, h5⟩ := new_spec h
  unfold bipartition
  rw [if_pos (by omega)]

/-- **C45 fails** for right parts of 32 or more sites: the mask does not fit in an `int`, the word searched is above every
listed one, and the search never ends (no number of iterations suffices). -/
theorem C45_bipartition_violated {sites N : Nat} {L : Lattice} (h : Lat.new sites N = some L) (hN : 0 < N) (hNs : N < sites)
    {k : Nat} (hk : 0 < k) (h32 : 32 ≤ sites - k) (fuel : Nat) : bipartition fuel L k = none := by
  obtain ⟨h1, h2, h3, h4, h5⟩ := new_spec h
  have hsr : ∃ sr, sr = sites - k := ⟨_, rfl⟩
  obtain ⟨sr, hsr⟩ := hsr
  have hright := statesInRange_eq (sites := sr) (a := N - k) (b := min sr N) (by omega)
  -- a configuration with the last site occupied
  let w := 2 ^ (sites - 1) + (2 ^ (N - 1) - 1)
  have hlow : 2 ^ (N - 1) - 1 < 2 ^ (sites - 1) := by
    have : 2 ^ (N - 1) ≤ 2 ^ (sites - 1) := Nat.pow_le_pow_right (by norm_num) (by omega)
    have : 0 < 2 ^ (N - 1) := by positivity
    omega
  have hs1 : sites - 1 + 1 = sites := by omega
  have hw : w ∈ L.configurations := by
    rw [new_mem h]
    constructor
    · have : 2 ^ sites = 2 ^ (sites - 1) + 2 ^ (sites - 1) := by
        conv_lhs => rw [← hs1, pow_succ]
        ring
      simp only [w]; omega
    · have := occupied_add (sites - 1) (2 ^ (N - 1) - 1) hlow
      rw [hs1, occupied_ones (by omega)] at this
      simp only [w]; omega
  have hbig : ∀ x, x < 2 ^ sr → x < w := by
    intro x hx
    have : 2 ^ sr ≤ 2 ^ (sites - 1) := Nat.pow_le_pow_right (by norm_num) (by omega)
    simp only [w]; omega
  unfold bipartition
  rw [h3, h4, if_neg (by omega), ← hsr]
  simp only [hright]
  cases hleft : statesInRange k (N - sr) (min k N) with
  | none => rfl
  | some left =>
    simp only [Option.bind_eq_bind, Option.bind_some]
    have hnone : ∀ right : List Nat, 2 ≤ right.length → (∀ x ∈ right, x < 2 ^ sr) →
        L.configurations.mapM (fun w => (findConfiguration fuel (w >>> sr) left).bind fun il =>
          (findConfiguration fuel (rightBits w sr) right).bind fun ir => pure (ir + il * right.length)) = none := by
      intro right hlen hx
      apply mapM_none hw
      cases findConfiguration fuel (w >>> sr) left with
      | none => rfl
      | some il =>
        rw [Option.bind_some, rightBits, if_neg (by omega),
          findConfiguration_loops hlen (fun x hxx => hbig x (hx x hxx))]
        rfl
    rw [hnone]
    · rfl
    · -- two different right states
      set right := (List.range (2 ^ sr)).filter fun c => decide (N - k ≤ occupied sr c) && decide (occupied sr c ≤ min sr N)
        with hr
      have hmem : ∀ n, N - k ≤ n → n ≤ min sr N → 2 ^ n - 1 ∈ right := by
        intro n a b
        rw [hr, List.mem_filter, List.mem_range, occupied_ones (by omega)]
        have : 2 ^ n ≤ 2 ^ sr := Nat.pow_le_pow_right (by norm_num) (by omega)
        have : 0 < 2 ^ n := by positivity
        refine ⟨by omega, by simp only [Bool.and_eq_true, decide_eq_true_eq]; omega⟩
      have m1 := hmem (N - k) le_rfl (by omega)
      have m2 := hmem (min sr N) (by omega) le_rfl
      have hne : 2 ^ (N - k) - 1 ≠ 2 ^ (min sr N) - 1 := by
        have : 2 ^ (N - k) < 2 ^ (min sr N) := Nat.pow_lt_pow_right (by norm_num) (by omega)
        have : 0 < 2 ^ (N - k) := by positivity
        omega
      rcases hrl : right with _ | ⟨a, _ | ⟨b, t⟩⟩
      · rw [hrl] at m1; simp at m1
      · rw [hrl] at m1 m2
        simp only [List.mem_singleton] at m1 m2
        exact absurd (m1.trans m2.symm) hne
      · simp
    · intro x hx
      rw [List.mem_filter, List.mem_range] at hx
      exact hx.1

/-- the hypotheses are met, e.g. by `Lattice(33, 1).bipartition(1, ...)` -/
example : ∃ L, Lat.new 33 1 = some L := ((C41_basis 33 1).1).mp ⟨by omega, by omega⟩

/-- **C45 disagrees with the header**, /repo/include/mps/lattice.h:73-80: the left part is not made of the sites
`0 .. k-1` but of the last `k` ones.  For three sites, one particle and `k = 1` the first basis state (word 1: a particle on
site 0) is given the left configuration 0 (empty) and the right one 1. -/
theorem C45_left_part_violated :
    ((Lat.new 3 1).bind fun L => bipartition 10 L 1) = some ([0, 1], [0, 1, 2], [1 + 3 * 0, 2 + 3 * 0, 0 + 3 * 1]) ∧
    (Lat.new 3 1).map (·.configurations) = some [1, 2, 4] := by
  constructor <;> decide +kernel

end MPS.Props
