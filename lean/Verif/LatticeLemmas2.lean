import Verif.LatticeLemmas

/-!
# Lemmas about the lattice model: matrix-vector product and bipartitions
-/

set_option linter.unusedSectionVars false
set_option linter.unusedSimpArgs false

namespace MPS.Lat
open MPS

section Ring
variable {R : Type} [CommRing R]

theorem between_comm (i j w : Nat) : between i j w = between j i w := by
  rw [between, between, min_comm, max_comm]

theorem between_flipWord (i j w : Nat) : between i j (flipWord i j w) = between i j w := by
  unfold between
  apply Finset.sum_congr rfl
  intro k hk
  rw [Finset.mem_Ioo] at hk
  have h1 : k ≠ i := by rintro rfl; rcases Nat.le_total k j with h | h <;> simp [h] at hk
  have h2 : k ≠ j := by rintro rfl; rcases Nat.le_total i k with h | h <;> simp [h] at hk
  rw [flipWord_testBit, if_neg h1, if_neg h2]

theorem flipWord_comm (i j w : Nat) : flipWord i j w = flipWord j i w := by
  apply Nat.eq_of_testBit_eq
  intro k
  rw [flipWord_testBit, flipWord_testBit]
  by_cases h1 : k = i
  · by_cases h2 : k = j
    · rw [if_pos h1, if_pos h2, ← h1, ← h2]
    · rw [if_pos h1, if_neg h2, if_pos h1]
  · by_cases h2 : k = j
    · rw [if_neg h1, if_pos h2, if_pos h2]
    · rw [if_neg h1, if_neg h2, if_neg h2, if_neg h1]

/-- the transpose of a hop is the opposite hop -/
theorem hoppingOperator_transpose {sites N : Nat} {L : Lattice} (h : new sites N = some L) {dst frm : Nat}
    (hd : dst < sites) (hf : frm < sites) (hne : dst ≠ frm) (kind : Kind) {r c : Nat}
    (hr : r < L.dimension) (hc : c < L.dimension) :
    (hoppingOperator (R := R) L dst frm kind).entry c r = (hoppingOperator L frm dst kind).entry r c := by
  rw [hoppingOperator_entry_ne h hd hf hne kind hc hr, hoppingOperator_entry_ne h hf hd (Ne.symm hne) kind hr hc]
  have key : ∀ i j u v : Nat, (u.testBit i = true ∧ u.testBit j = false ∧ v = flipWord i j u) →
      (v.testBit j = true ∧ v.testBit i = false ∧ u = flipWord j i v) := by
    rintro i j u v ⟨a, b, rfl⟩
    refine ⟨?_, ?_, ?_⟩
    · rw [flipWord_testBit]
      by_cases e : j = i
      · subst e; simp_all
      · simp [e, a]
    · rw [flipWord_testBit]; simp [b]
    · rw [flipWord_comm j i, flipWord_flipWord]
  by_cases hh : (L.configurations.getD r 0).testBit frm = true ∧ (L.configurations.getD r 0).testBit dst = false ∧
      L.configurations.getD c 0 = flipWord frm dst (L.configurations.getD r 0)
  · rw [if_pos hh, if_pos (key _ _ _ _ hh), hh.2.2]
    cases kind with
    | hardCoreBosons => rfl
    | fermions =>
      simp only [hopSign]
      rw [between_flipWord, between_comm]
  · rw [if_neg hh, if_neg (fun h2 => hh (key _ _ _ _ h2))]

variable [DecidableEq R]

theorem hop_apply {sites N : Nat} {L : Lattice} (h : new sites N = some L) {i j : Nat}
    (hd : i < sites) (hf : j < sites) (hne : i ≠ j) (kind : Kind) (psi : Nat → R) {r : Nat} (hr : r < L.dimension) :
    ((hoppingInner (R := R) L i j kind).map Prod.fst).getD r 0
      * psi ((sortIndices ((hoppingInner (R := R) L i j kind).map Prod.snd)).getD r 0)
      = ∑ c ∈ Finset.range L.dimension, (hoppingOperator L i j kind).entry c r * psi c := by
  have hl : (hoppingInner (R := R) L i j kind).length = L.dimension := by
    rw [hoppingInner_eq L hne (by have := (new_spec h).1; omega) (by have := (new_spec h).1; omega),
      List.length_map, Lattice.dimension]
  have hs : (sortIndices ((hoppingInner (R := R) L i j kind).map Prod.snd)).length = L.dimension := by
    rw [sortIndices_length, List.length_map, hl]
  have hlt := sortIndices_lt ((hoppingInner (R := R) L i j kind).map Prod.snd) (k := r)
    (by rw [List.length_map, hl]; exact hr)
  rw [List.length_map, hl] at hlt
  have he : ∀ c, (hoppingOperator (R := R) L i j kind).entry c r
      = if (sortIndices ((hoppingInner (R := R) L i j kind).map Prod.snd)).getD r 0 = c
        then ((hoppingInner (R := R) L i j kind).map Prod.fst).getD r 0 else 0 := by
    intro c
    rw [hoppingOperator, if_neg hne]
    simp only []
    exact ofTriplets_entry _ _ _ _ _ (by rw [hs, List.length_map, hl]) (by rw [hs]; exact hr)
  rw [Finset.sum_eq_single ((sortIndices ((hoppingInner (R := R) L i j kind).map Prod.snd)).getD r 0)]
  · rw [he, if_pos rfl]
  · intro c _ hc
    rw [he, if_neg (Ne.symm hc), zero_mul]
  · intro hn
    exact absurd (Finset.mem_range.mpr hlt) hn

theorem int_apply (L : Lattice) (i j : Nat) (psi : Nat → R) {r : Nat} (hr : r < L.dimension) :
    (interactionInner (R := R) L i j).getD r 0 * psi r
      = ∑ c ∈ Finset.range L.dimension, (interactionOperator L i j).entry r c * psi c := by
  rw [Finset.sum_eq_single r]
  · rw [interactionOperator, ofTriplets_entry _ _ _ _ _ (by simp [interactionInner]) (show r < L.configurations.length from hr)]
    simp [List.getElem?_range, show r < L.configurations.length from hr]
  · intro c hc hne
    rw [interactionOperator_entry L i j (Finset.mem_range.mp hc), if_neg (fun h => hne h.1.symm), zero_mul]
  · intro hn
    exact absurd (Finset.mem_range.mpr hr) hn

theorem interactionOperator_comm (L : Lattice) (i j : Nat) {r c : Nat} (hc : c < L.dimension) :
    (interactionOperator (R := R) L i j).entry r c = (interactionOperator L j i).entry r c := by
  rw [interactionOperator_entry L i j hc, interactionOperator_entry L j i hc]
  congr 1
  rw [and_comm (a := (L.configurations.getD c 0).testBit i = true)]

/-- what `apply_lattice` computes, when no diagonal coefficient is present -/
theorem applyLattice_eq {sites N : Nat} {L : Lattice} (h : new sites N = some L) (J U : Tensor R)
    (hJ : J.dims = [sites, sites]) (hJd : ∀ i < sites, J.get [i, i] = 0) (kind : Kind) (psi : Nat → R)
    {r : Nat} (hr : r < L.dimension) :
    applyLattice L J U kind psi r
      = ∑ i ∈ Finset.range sites, ∑ j ∈ Finset.range sites,
        (J.get [i, j] * (∑ c ∈ Finset.range L.dimension, (hoppingOperator L j i kind).entry r c * psi c)
          + (if i ≤ j ∧ U.get [i, j] ≠ 0 then (U.get [i, j] + U.get [j, i]) *
            (∑ c ∈ Finset.range L.dimension, (interactionOperator L i j).entry r c * psi c) else 0)) := by
  have hdim : J.dim 0 = sites := by simp [Tensor.dim, hJ, Tensor.nrm]
  have gen : ∀ (l : List (Nat × Nat)) (out : Nat → R), (∀ ij ∈ l, ij.1 < sites ∧ ij.2 < sites) →
      l.foldl (applyStep L J U kind psi) out r
        = out r + (l.map fun ij =>
          (J.get [ij.1, ij.2] * (∑ c ∈ Finset.range L.dimension, (hoppingOperator L ij.2 ij.1 kind).entry r c * psi c)
          + (if ij.1 ≤ ij.2 ∧ U.get [ij.1, ij.2] ≠ 0 then (U.get [ij.1, ij.2] + U.get [ij.2, ij.1]) *
            (∑ c ∈ Finset.range L.dimension, (interactionOperator L ij.1 ij.2).entry r c * psi c) else 0))).sum := by
    intro l
    induction l with
    | nil => intro out _; simp
    | cons ij l ih =>
      intro out hl
      rw [List.foldl_cons, ih _ (fun x hx => hl x (List.mem_cons_of_mem _ hx)), List.map_cons, List.sum_cons,
        ← add_assoc]
      congr 1
      obtain ⟨h1, h2⟩ := hl ij (by simp)
      have hstep : ∀ o : R, o + J.get [ij.1, ij.2] *
          ((hoppingInner (R := R) L ij.1 ij.2 kind).map Prod.fst).getD r 0
            * psi ((sortIndices ((hoppingInner (R := R) L ij.1 ij.2 kind).map Prod.snd)).getD r 0)
          = o + J.get [ij.1, ij.2] * ∑ c ∈ Finset.range L.dimension, (hoppingOperator L ij.2 ij.1 kind).entry r c * psi c := by
        intro o
        by_cases hij : ij.1 = ij.2
        · rw [← hij, hJd _ h1]; simp
        · rw [mul_assoc, hop_apply h h1 h2 hij kind psi hr]
          congr 2
          apply Finset.sum_congr rfl
          intro c hc
          rw [hoppingOperator_transpose h h1 h2 hij kind hr (Finset.mem_range.mp hc)]
      have hfirst : (if J.get [ij.1, ij.2] ≠ 0 then
          (fun r => out r + J.get [ij.1, ij.2] * ((hoppingInner (R := R) L ij.1 ij.2 kind).map Prod.fst).getD r 0
            * psi ((sortIndices ((hoppingInner (R := R) L ij.1 ij.2 kind).map Prod.snd)).getD r 0)) else out) r
          = out r + J.get [ij.1, ij.2] *
            ∑ c ∈ Finset.range L.dimension, (hoppingOperator L ij.2 ij.1 kind).entry r c * psi c := by
        by_cases hz : J.get [ij.1, ij.2] = 0
        · simp [hz]
        · rw [if_pos hz]; exact hstep _
      unfold applyStep
      simp only [ge_iff_le]
      by_cases hu : ij.1 ≤ ij.2 ∧ U.get [ij.1, ij.2] ≠ 0
      · rw [if_pos hu, if_pos hu, mul_assoc, int_apply L ij.1 ij.2 psi hr, hfirst, add_assoc]
      · rw [if_neg hu, if_neg hu, hfirst, add_zero]
  rw [applyLattice, gen, hdim, sum_pairs (fun i j =>
      (J.get [i, j] * (∑ c ∈ Finset.range L.dimension, (hoppingOperator L j i kind).entry r c * psi c)
          + (if i ≤ j ∧ U.get [i, j] ≠ 0 then (U.get [i, j] + U.get [j, i]) *
            (∑ c ∈ Finset.range L.dimension, (interactionOperator L i j).entry r c * psi c) else 0)))]
  · rw [zero_add]
  · intro ij hij
    rw [hdim, pairs] at hij
    simp only [List.mem_flatMap, List.mem_map, List.mem_range] at hij
    obtain ⟨i, hi, j, hj, rfl⟩ := hij
    exact ⟨hi, hj⟩

end Ring

/-! ### bipartitions -/

theorem getD_lt_of_sorted {l : List Nat} (hs : l.Pairwise (· < ·)) {i j : Nat} (hij : i < j) (hj : j < l.length) :
    l.getD i 0 < l.getD j 0 := by
  rw [List.getD_eq_getElem _ _ (by omega), List.getD_eq_getElem _ _ hj]
  exact List.pairwise_iff_getElem.mp hs i j (by omega) hj hij

theorem findLoop_found {l : List Nat} (hs : l.Pairwise (· < ·)) {w p : Nat} (hp : p < l.length) (hw : l.getD p 0 = w) :
    ∀ (fuel i j : Nat), i < p → p < j → j < l.length → j - i ≤ fuel → findLoop w l fuel i j = some p := by
  intro fuel
  induction fuel with
  | zero => intro i j h1 h2 _ h3; omega
  | succ fuel ih =>
    intro i j h1 h2 h3 h4
    rw [findLoop, if_pos (by omega)]
    simp only []
    have hk1 : i < (i + j) / 2 := by omega
    have hk2 : (i + j) / 2 < j := by omega
    generalize (i + j) / 2 = k at *
    rcases Nat.lt_trichotomy k p with hlt | heq | hgt
    · have := getD_lt_of_sorted hs hlt hp
      rw [if_neg (by omega), if_neg (by omega)]
      exact ih k j hlt h2 h3 (by omega)
    · subst heq
      rw [if_neg (by omega), if_pos hw]
    · have := getD_lt_of_sorted hs hgt (by omega)
      rw [if_pos (by omega)]
      exact ih i k h1 hgt (by omega) (by omega)

theorem findConfiguration_found {l : List Nat} (hs : l.Pairwise (· < ·)) {w p : Nat} (hp : p < l.length)
    (hw : l.getD p 0 = w) {fuel : Nat} (hf : l.length ≤ fuel) : findConfiguration fuel w l = some p := by
  unfold findConfiguration
  simp only []
  split
  · next e =>
    rcases Nat.eq_zero_or_pos p with h0 | h0
    · rw [h0]
    · have := getD_lt_of_sorted hs h0 hp
      omega
  · next e0 =>
    split
    · next e =>
      rcases Nat.lt_or_ge p (l.length - 1) with h0 | h0
      · have := getD_lt_of_sorted hs h0 (by omega)
        omega
      · congr 1; omega
    · next e1 =>
      apply findLoop_found hs hp hw
      · by_contra hc
        have : p = 0 := by omega
        subst this; exact e0 hw.symm
      · by_contra hc
        have : p = l.length - 1 := by omega
        subst this; exact e1 hw.symm
      · omega
      · omega

/-- a word above all the listed ones is searched forever -/
theorem findConfiguration_loops {l : List Nat} {w : Nat} (hl : 2 ≤ l.length) (hw : ∀ x ∈ l, x < w) (fuel : Nat) :
    findConfiguration fuel w l = none := by
  have hlt : ∀ k, k < l.length → l.getD k 0 < w := by
    intro k hk
    rw [List.getD_eq_getElem _ _ hk]
    exact hw _ (List.getElem_mem _)
  have loop : ∀ fuel i j, i < j → j < l.length → findLoop w l fuel i j = none := by
    intro fuel
    induction fuel with
    | zero => intro i j h _; rw [findLoop, if_pos (by omega)]
    | succ fuel ih =>
      intro i j h1 h2
      rw [findLoop, if_pos (by omega)]
      simp only []
      have := hlt ((i + j) / 2) (by omega)
      rw [if_neg (by omega), if_neg (by omega)]
      exact ih _ _ (by omega) h2
  unfold findConfiguration
  simp only []
  rw [if_neg (by have := hlt 0 (by omega); omega), if_neg (by have := hlt (l.length - 1) (by omega); omega)]
  exact loop _ _ _ (by omega) (by omega)

theorem occupied_split (a b w : Nat) : occupied (b + a) w = occupied b (w % 2 ^ b) + occupied a (w >>> b) := by
  rw [occupied, Finset.sum_range_add, occupied, occupied]
  congr 1
  · apply Finset.sum_congr rfl
    intro k hk
    rw [Nat.testBit_mod_two_pow]
    simp [Finset.mem_range.mp hk]
  · apply Finset.sum_congr rfl
    intro k _
    rw [Nat.testBit_shiftRight]

theorem occupied_ones {n m : Nat} (h : n ≤ m) : occupied m (2 ^ n - 1) = n := by
  rw [occupied]
  simp only [Nat.testBit_two_pow_sub_one, decide_eq_true_eq]
  rw [← Finset.sum_filter, Finset.sum_const, smul_eq_mul, mul_one]
  have : (Finset.range m).filter (fun k => k < n) = Finset.range n := by
    ext k
    simp only [Finset.mem_filter, Finset.mem_range]
    omega
  rw [this, Finset.card_range]

theorem mem_getD {l : List Nat} {x : Nat} (h : x ∈ l) : ∃ p, p < l.length ∧ l.getD p 0 = x := by
  obtain ⟨p, hp, e⟩ := List.mem_iff_getElem.mp h
  exact ⟨p, hp, by rw [List.getD_eq_getElem _ _ hp, e]⟩

theorem mapM_some {α β : Type} {f : α → Option β} {g : α → β} : ∀ {l : List α}, (∀ x ∈ l, f x = some (g x)) →
    l.mapM f = some (l.map g) := by
  intro l
  induction l with
  | nil => intro _; rfl
  | cons a l ih =>
    intro h
    rw [List.mapM_cons, h a (by simp), ih (fun x hx => h x (List.mem_cons_of_mem _ hx))]
    rfl

theorem mapM_none {α β : Type} {f : α → Option β} : ∀ {l : List α} {x : α}, x ∈ l → f x = none → l.mapM f = none := by
  intro l
  induction l with
  | nil => intro x h; simp at h
  | cons a l ih =>
    intro x hx hn
    rw [List.mapM_cons]
    cases hfa : f a with
    | none => rfl
    | some v =>
      rcases List.mem_cons.mp hx with rfl | hx
      · rw [hn] at hfa; cases hfa
      · rw [ih hx hn]; rfl

end MPS.Lat
