import Verif.ToolsModel
import Verif.TensorLemmas
import Verif.Spec
import Mathlib.Data.List.GetD
import Mathlib.Tactic.Linarith
import Mathlib.Algebra.Order.BigOperators.Group.Finset
import Mathlib.Analysis.SpecialFunctions.Log.NegMulLog
import Mathlib.Analysis.Convex.Jensen

/-!
# Properties of the tools: C18 (where_to_truncate), C19 (truncate), C53 (Sweeper)
-/

set_option linter.unusedSectionVars false
set_option linter.unusedSimpArgs false

namespace MPS.Props
open MPS Tensor

/-! ### C18 -/

/-- weight discarded when the first `n` values are kept -/
noncomputable def discarded (s : List ℝ) (n : Nat) : ℝ := ∑ j ∈ Finset.Ico n s.length, s.getD j 0 ^ 2

theorem cumulated_eq (s : List ℝ) (i : Nat) : cumulated s i = discarded s i := by
  unfold cumulated discarded
  induction s generalizing i with
  | nil => simp
  | cons x s ih =>
    cases i with
    | zero =>
      have := ih 0
      simp only [List.drop_zero] at this ⊢
      rw [List.map_cons, List.sum_cons, this, List.length_cons,
        Finset.sum_eq_sum_Ico_succ_bot (show 0 < s.length + 1 by omega) (fun j => (x :: s).getD j 0 ^ 2)]
      simp only [List.getD_cons_zero]
      congr 1
      rw [← Finset.sum_Ico_add' (fun j => (x :: s).getD j 0 ^ 2) 0 s.length 1]
      apply Finset.sum_congr rfl
      intro j _
      rw [List.getD_cons_succ]
    | succ i =>
      rw [List.drop_succ_cons, ih, List.length_cons,
        ← Finset.sum_Ico_add' (fun j => (x :: s).getD j 0 ^ 2) i s.length 1]
      apply Finset.sum_congr rfl
      intro j _
      rw [List.getD_cons_succ]

theorem discarded_anti (s : List ℝ) {n m : Nat} (h : n ≤ m) : discarded s m ≤ discarded s n := by
  unfold discarded
  apply Finset.sum_le_sum_of_subset_of_nonneg
  · intro j; simp only [Finset.mem_Ico]; omega
  · intros; positivity

theorem effDim_le (L : Nat) (m : Int) : effDim L m ≤ L := by
  unfold effDim; split <;> omega

theorem effDim_pos {L : Nat} (m : Int) (h : 0 < L) : 0 < effDim L m := by
  unfold effDim; split <;> omega

theorem limitLoop_spec (s : List ℝ) (limit : ℝ) (M : Nat) : ∀ fuel i, i + fuel = M →
    let n := limitLoop s limit M fuel i
    n ≤ M ∧ (0 < fuel → i < n) ∧ (n < M → discarded s n ≤ limit) ∧ (∀ j, i ≤ j → j + 1 < n → limit < discarded s j) := by
  intro fuel
  induction fuel with
  | zero => intro i h; simp [limitLoop]; intro j hj hjM; omega
  | succ fuel ih =>
    intro i h
    rw [limitLoop]
    simp only []
    split
    · next hc =>
      rw [cumulated_eq] at hc
      refine ⟨by omega, fun _ => by omega, fun _ => (discarded_anti s (by omega)).trans hc, fun j h1 h2 => by omega⟩
    · next hc =>
      rw [cumulated_eq] at hc
      obtain ⟨a, b, c, d⟩ := ih (i + 1) (by omega)
      refine ⟨a, fun _ => ?_, c, fun j h1 h2 => ?_⟩
      · rcases Nat.eq_zero_or_pos fuel with h0 | h0
        · subst h0; simp only [limitLoop]; omega
        · have := b h0; omega
      · rcases Nat.eq_or_lt_of_le h1 with rfl | h1
        · exact not_le.mp hc
        · exact d j (by omega) h2

theorem zerosLoop_spec (s : List ℝ) (M : Nat) : ∀ i,
    zerosLoop s M i ≤ M ∧ zerosLoop s M i ≤ i ∧
    (zerosLoop s M i < M → ∀ j, zerosLoop s M i ≤ j → j < i → s.getD j 0 = 0) ∧
    ((∃ j < i, s.getD j 0 ≠ 0) → 0 < M → 0 < zerosLoop s M i) ∧
    (0 < zerosLoop s M i → zerosLoop s M i = M ∨ s.getD (zerosLoop s M i - 1) 0 ≠ 0) := by
  intro i
  induction i with
  | zero => simp [zerosLoop]
  | succ i ih =>
    rw [zerosLoop]
    by_cases h : s.getD i 0 ≠ 0
    · rw [if_pos h]
      split
      · next hi => exact ⟨by omega, le_refl _, fun _ j h1 h2 => by omega, fun _ _ => by omega, fun _ => Or.inr (by simpa using h)⟩
      · next hi => exact ⟨le_refl _, by omega, fun hh => by omega, fun _ h => h, fun _ => Or.inl rfl⟩
    · rw [if_neg h]
      obtain ⟨a, b, c, d, e⟩ := ih
      refine ⟨a, by omega, fun hh j h1 h2 => ?_, fun ⟨j, hj, hn⟩ hM => ?_, e⟩
      · rcases Nat.eq_or_lt_of_le (Nat.le_of_lt_succ h2) with rfl | h3
        · simpa using h
        · exact c hh j h1 h3
      · refine d ⟨j, ?_, hn⟩ hM
        rcases Nat.eq_or_lt_of_le (Nat.le_of_lt_succ hj) with rfl | h3
        · exact absurd hn h
        · exact h3

/-- **C18.**  `where_to_truncate(s, tol, max_dim)`, for a tolerance that is not the default one:
never more than the length, nor than `max_dim` when it is positive; unless `max_dim` binds, the discarded weight is at
most `max(tol, epsilon)` times the total weight (tolerance below 1); tolerance 0 discards only zeros, tolerance ≥ 1
nothing; a non-zero vector never becomes empty. -/
theorem C18_truncate (eps dflt : ℝ) (s : List ℝ) (tol : ℝ) (ht : 0 ≤ tol) (maxDim : Int) :
    let n := whereToTruncate eps dflt s tol maxDim
    let M := if 0 < maxDim ∧ maxDim < s.length then maxDim.toNat else s.length
    n ≤ s.length ∧ (0 < maxDim → (n : Int) ≤ maxDim) ∧
    (1 ≤ tol → n = M) ∧
    (tol = 0 → n < M → ∀ j, n ≤ j → j < s.length → s.getD j 0 = 0) ∧
    (0 < tol → tol < 1 → n < M → discarded s n ≤ max tol eps * discarded s 0) ∧
    ((∃ x ∈ s, x ≠ 0) → 0 < n) := by
  intro n M
  have hM : effDim s.length maxDim = M := by
    simp only [effDim, M]
    split <;> split <;> omega
  have hML : M ≤ s.length := by rw [← hM]; exact effDim_le _ _
  have hMd : 0 < maxDim → (M : Int) ≤ maxDim := by
    intro h; simp only [M]; split <;> omega
  have hMp : 0 < s.length → 0 < M := fun h => by rw [← hM]; exact effDim_pos _ h
  have hn : n = if tol ≥ 1 then M else if tol = 0 then zerosLoop s M s.length
      else limitLoop s (max tol eps * cumulated s 0) M M 0 := by
    simp only [n, whereToTruncate, hM, if_neg (not_lt.mpr ht)]
  have hex : (∃ x ∈ s, x ≠ 0) → 0 < s.length ∧ ∃ j < s.length, s.getD j 0 ≠ 0 := by
    rintro ⟨x, hx, hne⟩
    obtain ⟨j, hj, e⟩ := List.mem_iff_getElem.mp hx
    exact ⟨by omega, j, hj, by rw [List.getD_eq_getElem _ _ hj, e]; exact hne⟩
  by_cases h1 : tol ≥ 1
  · rw [if_pos h1] at hn
    rw [hn]
    exact ⟨hML, hMd, fun _ => rfl, fun h => by linarith, fun _ h => absurd h1 (not_le.mpr h),
      fun h => hMp (hex h).1⟩
  · rw [if_neg h1] at hn
    by_cases h0 : tol = 0
    · rw [if_pos h0] at hn
      obtain ⟨a, b, c, d, -⟩ := zerosLoop_spec s M s.length
      rw [hn]
      exact ⟨b, fun h => by have := hMd h; omega, fun h => absurd h h1, fun _ => c, fun h => absurd h0 (ne_of_gt h),
        fun h => d (hex h).2 (hMp (hex h).1)⟩
    · rw [if_neg h0] at hn
      obtain ⟨a, b, c, -⟩ := limitLoop_spec s (max tol eps * cumulated s 0) M M 0 (by omega)
      rw [hn]
      refine ⟨by omega, fun h => by have := hMd h; omega, fun h => absurd h h1, fun h => absurd h h0,
        fun _ _ h => ?_, fun h => b (hMp (hex h).1)⟩
      have := c h
      simpa only [cumulated_eq] using this

/-- **C18**, default tolerance: a negative tolerance stands for the value of the flag `MPS_TRUNCATION_TOLERANCE`. -/
theorem C18_default (eps dflt : ℝ) (s : List ℝ) (tol : ℝ) (ht : tol < 0) (hd : 0 ≤ dflt) (maxDim : Int) :
    whereToTruncate eps dflt s tol maxDim = whereToTruncate eps dflt s dflt maxDim := by
  simp only [whereToTruncate, if_pos ht, if_neg (not_lt.mpr hd)]

/-- **C18**, no waste: at most one value more than necessary is kept, i.e. keeping two values less would discard more
than tolerated; with tolerance 0 the last value kept is not zero (unless `max_dim` binds). -/
theorem C18_tight (eps dflt : ℝ) (s : List ℝ) (tol : ℝ) (ht : 0 ≤ tol) (ht1 : tol < 1) (maxDim : Int) :
    let n := whereToTruncate eps dflt s tol maxDim
    (0 < tol → ∀ j, j + 1 < n → max tol eps * discarded s 0 < discarded s j) ∧
    (tol = 0 → 0 < n → n = effDim s.length maxDim ∨ s.getD (n - 1) 0 ≠ 0) := by
  intro n
  have hn : n = if tol = 0 then zerosLoop s (effDim s.length maxDim) s.length
      else limitLoop s (max tol eps * cumulated s 0) (effDim s.length maxDim) (effDim s.length maxDim) 0 := by
    simp only [n, whereToTruncate, if_neg (not_lt.mpr ht), if_neg (not_le.mpr ht1), ge_iff_le]
  constructor
  · intro hp j hj
    rw [if_neg (ne_of_gt hp)] at hn
    obtain ⟨-, -, -, d⟩ := limitLoop_spec s (max tol eps * cumulated s 0) (effDim s.length maxDim)
      (effDim s.length maxDim) 0 (by omega)
    rw [hn] at hj
    have := d j (by omega) hj
    rwa [cumulated_eq s 0] at this
  · intro h0 hp
    rw [if_pos h0] at hn
    rw [hn] at hp ⊢
    exact (zerosLoop_spec s _ _).2.2.2.2 hp

/-- non-trivial instance: singular values 3, 4·10⁻¹, 0 with tolerance 0 -/
example : ∃ x ∈ ([3, 0.4, 0] : List ℝ), x ≠ 0 := ⟨3, by simp, by norm_num⟩

/-! ### C53 -/

theorem sweep_run (dk : Int) (hdk : dk = 1 ∨ dk = -1) (k0 kN : Int) : ∀ (m : Nat) (k : Int) (fuel : Nat),
    kN = k + dk * m → m < fuel →
    Sweeper.run fuel ⟨k, k0, kN, dk⟩ = some ((List.range (m + 1)).map (fun i : Nat => k + dk * i), ⟨kN, k0, kN, dk⟩) := by
  intro m
  induction m with
  | zero =>
    intro k fuel h hf
    obtain ⟨f, rfl⟩ : ∃ f, fuel = f + 1 := ⟨fuel - 1, by omega⟩
    simp only [Nat.cast_zero, mul_zero, add_zero] at h
    subst h
    simp [Sweeper.run, Sweeper.dec]
  | succ m ih =>
    intro k fuel h hf
    obtain ⟨f, rfl⟩ : ∃ f, fuel = f + 1 := ⟨fuel - 1, by omega⟩
    have hne : k ≠ kN := by
      rw [h]; push_cast
      rcases hdk with rfl | rfl <;> omega
    have h2 : kN = (k + dk) + dk * m := by rw [h]; push_cast; ring
    rw [Sweeper.run, Sweeper.dec]
    simp only [hne, if_false, if_true]
    rw [ih (k + dk) f h2 (by omega), List.range_succ_eq_map (n := m + 1), List.map_cons, List.map_map]
    simp only [Option.map_some, Nat.cast_zero, mul_zero, add_zero]
    congr 3
    apply List.map_congr_left
    intro i _
    simp only [Function.comp]
    push_cast
    ring

/-- `n` sweeps with a `flip()` after each one: the sites visited in every sweep -/
def manySweeps (fuel : Nat) : Nat → Sweeper → Option (List (List Int))
  | 0, _ => some []
  | n + 1, s => (Sweeper.run fuel s).bind fun r => (manySweeps fuel n r.2.flip).map fun l => r.1 :: l

/-- the sites of a chain of `L` sites, ascending or descending -/
def ascending (L : Nat) : List Int := (List.range L).map fun i : Nat => (i : Int)
@[inherit_doc ascending]
def descending (L : Nat) : List Int := (List.range L).map fun i : Nat => (L : Int) - 1 - i

/-- **C53.**  For every chain length `L > 0`, sense and number of sweeps: each sweep visits every site exactly once,
the first one in ascending order for positive sense and in descending order otherwise, and each following one in the
opposite order to the previous one; it stops by itself (`L` steps suffice). -/
theorem C53_sweeper (L : Nat) (hL : 0 < L) (sense : Int) (n : Nat) :
    ∃ s0, Sweeper.new L sense = some s0 ∧
      manySweeps L n s0 = some ((List.range n).map fun t =>
        if (t % 2 = 0) = (sense > 0) then ascending L else descending L) := by
  have up : ∀ n s, (s = ⟨0, 0, (L : Int) - 1, 1⟩ → manySweeps L n s = some ((List.range n).map fun t =>
        if t % 2 = 0 then ascending L else descending L)) ∧
      (s = ⟨(L : Int) - 1, (L : Int) - 1, 0, -1⟩ → manySweeps L n s = some ((List.range n).map fun t =>
        if t % 2 = 0 then descending L else ascending L)) := by
    intro n
    induction n with
    | zero => intro s; simp [manySweeps]
    | succ n ih =>
      intro s
      constructor
      · rintro rfl
        have := sweep_run 1 (Or.inl rfl) 0 ((L : Int) - 1) (L - 1) 0 L (by push_cast [Nat.cast_sub hL]; ring) (by omega)
        rw [manySweeps, this, Option.bind_some, (ih _).2 (by simp [Sweeper.flip]), List.range_succ_eq_map (n := n), List.map_cons, List.map_map]
        simp only [Option.map_some, Option.some.injEq]
        congr 1
        · rw [show L - 1 + 1 = L by omega]; simp [ascending]
        · apply List.map_congr_left
          intro t _
          simp only [Function.comp]
          rcases Nat.mod_two_eq_zero_or_one t with h | h
          · rw [if_pos h, if_neg (by omega)]
          · rw [if_neg (by omega), if_pos (by omega)]
      · rintro rfl
        have := sweep_run (-1) (Or.inr rfl) ((L : Int) - 1) 0 (L - 1) ((L : Int) - 1) L
          (by push_cast [Nat.cast_sub hL]; ring) (by omega)
        rw [manySweeps, this, Option.bind_some, (ih _).1 (by simp [Sweeper.flip]), List.range_succ_eq_map (n := n), List.map_cons,
          List.map_map]
        simp only [Option.map_some, Option.some.injEq]
        congr 1
        · rw [show L - 1 + 1 = L by omega]
          simp only [Nat.zero_mod, if_true, descending]
          apply List.map_congr_left
          intro i _
          ring
        · apply List.map_congr_left
          intro t _
          simp only [Function.comp]
          rcases Nat.mod_two_eq_zero_or_one t with h | h
          · rw [if_pos h, if_neg (by omega)]
          · rw [if_neg (by omega), if_pos (by omega)]
  unfold Sweeper.new
  rw [if_pos (by omega)]
  by_cases hs : sense > 0
  · rw [if_pos hs]
    refine ⟨_, rfl, ?_⟩
    rw [(up n _).1 rfl]
    congr 1
    apply List.map_congr_left
    intro t _
    simp [hs]
  · rw [if_neg hs]
    refine ⟨_, rfl, ?_⟩
    rw [(up n _).2 rfl]
    congr 1
    apply List.map_congr_left
    intro t _
    by_cases ht : t % 2 = 0 <;> simp [hs, ht]

/-- **C53**, after a sweep the sweeper sits on its last site and says so; the direction is that of the sense. -/
theorem C53_sweeper_end (L : Nat) (hL : 0 < L) (sense : Int) :
    ∃ s0 v s1, Sweeper.new L sense = some s0 ∧ Sweeper.run L s0 = some (v, s1) ∧ s1.isLast = true ∧ s1.dec.1 = false ∧
      s0.dk = (if sense > 0 then 1 else -1) ∧ s1.dk = s0.dk ∧ s1.flip.dk = - s0.dk ∧ s1.flip.k = s1.k := by
  unfold Sweeper.new
  rw [if_pos (by omega)]
  by_cases hs : sense > 0
  · rw [if_pos hs, if_pos hs]
    have := sweep_run 1 (Or.inl rfl) 0 ((L : Int) - 1) (L - 1) 0 L (by push_cast [Nat.cast_sub hL]; ring) (by omega)
    exact ⟨_, _, _, rfl, this, by simp [Sweeper.isLast], by simp [Sweeper.dec], rfl, rfl, rfl, rfl⟩
  · rw [if_neg hs, if_neg hs]
    have := sweep_run (-1) (Or.inr rfl) ((L : Int) - 1) 0 (L - 1) ((L : Int) - 1) L
      (by push_cast [Nat.cast_sub hL]; ring) (by omega)
    exact ⟨_, _, _, rfl, this, by simp [Sweeper.isLast], by simp [Sweeper.dec], rfl, rfl, rfl, rfl⟩

/-! ### C19 -/

section C19
variable {R : Type} [CommRing R]

/-- size of the bond to the left of site `k` (for `k` the number of sites, of the one to the right of the last site) -/
def bond (P : List (Tensor R)) (k : Nat) : Nat :=
  if k < P.length then (site P k).dim 0 else (site P (P.length - 1)).dim 2

/-- size that `truncate` aims at for bond `k`: `Dmax`, or, in open chains, the number of states of the smaller side
if this is less -/
def bondCap (ds : List Nat) (Dmax : Nat) (periodic : Bool) (k : Nat) : Nat :=
  if periodic then Dmax else min Dmax (min (ds.take k).prod (ds.drop k).prod)

theorem prod_pos_of {a b : Nat} {P : List (Tensor R)} {ds : List Nat} (h : WF a P ds b) : 0 < ds.prod := by
  induction h with
  | nil => simp
  | cons _ _ hd _ _ ih => simp [ih, hd]

theorem min_mul_min (M c d : Nat) (hd : 0 < d) : (if min M c * d > M then M else min M c * d) = min M (c * d) := by
  rcases Nat.le_total M c with h | h
  · rw [Nat.min_eq_left h]
    have h1 : M ≤ c * d := h.trans (Nat.le_mul_of_pos_right _ hd)
    rw [Nat.min_eq_left h1]
    split
    · rfl
    · have := Nat.le_mul_of_pos_right M hd; omega
  · rw [Nat.min_eq_right h]; split <;> omega

theorem expFwd_spec (M : Nat) {a b : Nat} {P : List (Tensor R)} {ds : List Nat} (h : WF a P ds b) : ∀ (c i : Nat),
    i < P.length → (expFwd M (min M c) P).getD i 0 = min M (c * (ds.take (i + 1)).prod) := by
  induction h with
  | nil => intro c i hi; simp at hi
  | @cons a d c' b A As ds h1 _ hd _ _ ih =>
    intro c i hi
    simp only [expFwd, dim1_of h1, min_mul_min M c d hd]
    cases i with
    | zero => simp
    | succ i =>
      rw [List.getD_cons_succ, ih (c * d) i (by simpa using hi), List.take_succ_cons, List.prod_cons, mul_assoc]

theorem expBwd_spec (M : Nat) (hM : 0 < M) {a b : Nat} {P : List (Tensor R)} {ds : List Nat} (h : WF a P ds b) :
    (expBwd M P).1 = min M ds.prod ∧ ∀ i, i < P.length → (expBwd M P).2.getD i 0 = min M (ds.drop i).prod := by
  induction h with
  | nil => simp [expBwd]; omega
  | @cons a d c' b A As ds h1 _ hd _ _ ih =>
    obtain ⟨i1, i2⟩ := ih
    have e : (expBwd M (A :: As)).1 = min M (d :: ds).prod := by
      simp only [expBwd, dim1_of h1, i1, min_mul_min M _ d hd, List.prod_cons]
      rw [mul_comm]
    refine ⟨e, fun i hi => ?_⟩
    cases i with
    | zero =>
      rw [List.drop_zero, ← e]
      simp [expBwd]
    | succ i =>
      rw [List.drop_succ_cons, ← i2 i (by simpa using hi)]
      simp [expBwd]

theorem expectedDims_spec (M : Nat) (hM : 0 < M) (periodic : Bool) {a b : Nat} {P : List (Tensor R)} {ds : List Nat}
    (h : WF a P ds b) (i : Nat) (hi : i ≤ P.length) :
    expectedDims P M periodic i = bondCap ds M periodic i := by
  unfold expectedDims bondCap
  by_cases hp : periodic = true
  · simp [hp]
  · rw [if_neg hp, if_neg hp]
    have hpos := prod_pos_of h
    by_cases hL : i = P.length
    · rw [if_pos hL, hL, h.length, List.drop_length, List.take_length]
      simp
      omega
    · rw [if_neg hL]
      simp only []
      rw [(expBwd_spec M hM h).2 i (by omega)]
      by_cases h0 : i = 0
      · subst h0
        simp only [if_true, List.drop_zero, List.take_zero, List.prod_nil]
        split <;> omega
      · rw [if_neg h0]
        have := expFwd_spec M h 1 (i - 1) (by omega)
        rw [show min M 1 = 1 by omega, one_mul, show i - 1 + 1 = i by omega] at this
        rw [this]
        split <;> omega

/-- new size of a bond of size `D` -/
def newBond (increase : Bool) (D cap : Nat) : Nat := if increase then cap else min D cap

theorem truncAxis0 {A : Tensor R} {a d c : Nat} (h : A.dims = [a, d, c]) (n : Nat) (inc : Bool) :
    (truncAxis A 0 n inc).1.dims = [newBond inc a n, d, c] ∧ ((truncAxis A 0 n inc).2 = true ↔ n < a) ∧
    (∀ x i y, x < newBond inc a n → (truncAxis A 0 n inc).1.get [x, i, y] = if x < a then A.get [x, i, y] else 0) := by
  unfold truncAxis newBond
  rw [dim0_of h]
  have e : ∀ x i y, (changeDim A 0 n).get [x, i, y] = if x < a then A.get [x, i, y] else 0 := by
    intro x i y; simp [changeDim, h]
  have ed : (changeDim A 0 n).dims = [n, d, c] := by simp [changeDim, h]
  by_cases h1 : n < a
  · rw [if_pos h1]
    refine ⟨?_, by simp [h1], fun x i y _ => e x i y⟩
    rw [ed]; cases inc <;> simp; omega
  · rw [if_neg h1]
    cases inc
    · simp only [Bool.false_and, Bool.false_eq_true, if_false]
      refine ⟨by rw [h]; simp; omega, by simp; omega, fun x i y hx => by rw [if_pos (by omega)]⟩
    · simp only [Bool.true_and, decide_eq_true_eq, if_true]
      split
      · exact ⟨ed, by simp; omega, fun x i y _ => e x i y⟩
      · refine ⟨by rw [h]; simp; omega, by simp; omega, fun x i y hx => by rw [if_pos (by omega)]⟩

theorem truncAxis2 {A : Tensor R} {a d c : Nat} (h : A.dims = [a, d, c]) (n : Nat) (inc : Bool) :
    (truncAxis A 2 n inc).1.dims = [a, d, newBond inc c n] ∧ ((truncAxis A 2 n inc).2 = true ↔ n < c) ∧
    (∀ x i y, y < newBond inc c n → (truncAxis A 2 n inc).1.get [x, i, y] = if y < c then A.get [x, i, y] else 0) := by
  unfold truncAxis newBond
  rw [dim2_of h]
  have e : ∀ x i y, (changeDim A 2 n).get [x, i, y] = if y < c then A.get [x, i, y] else 0 := by
    intro x i y; simp [changeDim, h]
  have ed : (changeDim A 2 n).dims = [a, d, n] := by simp [changeDim, h]
  by_cases h1 : n < c
  · rw [if_pos h1]
    refine ⟨?_, by simp [h1], fun x i y _ => e x i y⟩
    rw [ed]; cases inc <;> simp; omega
  · rw [if_neg h1]
    cases inc
    · simp only [Bool.false_and, Bool.false_eq_true, if_false]
      refine ⟨by rw [h]; simp; omega, by simp; omega, fun x i y hx => by rw [if_pos (by omega)]⟩
    · simp only [Bool.true_and, decide_eq_true_eq, if_true]
      split
      · exact ⟨ed, by simp; omega, fun x i y _ => e x i y⟩
      · refine ⟨by rw [h]; simp; omega, by simp; omega, fun x i y hx => by rw [if_pos (by omega)]⟩

theorem truncSite_spec {A : Tensor R} {a d c : Nat} (h : A.dims = [a, d, c]) (f : Nat → Nat) (k : Nat) (inc : Bool) :
    (truncSite f inc k A).1.dims = [newBond inc a (f k), d, newBond inc c (f (k + 1))] ∧
    ((truncSite f inc k A).2 = true ↔ f k < a ∨ f (k + 1) < c) ∧
    (∀ x i y, x < newBond inc a (f k) → y < newBond inc c (f (k + 1)) →
      (truncSite f inc k A).1.get [x, i, y] = if x < a ∧ y < c then A.get [x, i, y] else 0) := by
  obtain ⟨a1, a2, a3⟩ := truncAxis0 h (f k) inc
  obtain ⟨b1, b2, b3⟩ := truncAxis2 a1 (f (k + 1)) inc
  refine ⟨b1, ?_, fun x i y hx hy => ?_⟩
  · simp only [truncSite, Bool.or_eq_true, a2, b2]
  · simp only [truncSite]
    rw [b3 x i y hy, a3 x i y hx]
    by_cases h1 : x < a <;> by_cases h2 : y < c <;> simp [h1, h2]

theorem newBond_pos {inc : Bool} {D c : Nat} (h : 0 < D) (hc : 0 < c) : 0 < newBond inc D c := by
  unfold newBond; split <;> omega

theorem truncAll_spec (inc : Bool) {a b : Nat} {P : List (Tensor R)} {ds : List Nat} (h : WF a P ds b) :
    ∀ f : Nat → Nat, (∀ k, k ≤ P.length → 0 < f k) →
    WF (newBond inc a (f 0)) ((P.mapIdx fun k A => truncSite f inc k A).map Prod.fst) ds
      (newBond inc b (f P.length)) ∧
    ((P.mapIdx fun k A => truncSite f inc k A).any Prod.snd = true → ∃ k ≤ P.length, f k < bond P k) ∧
    ((P.mapIdx fun k A => truncSite f inc k A).any Prod.snd = false → ∀ s, IsCfg ds s → P ≠ [] →
      ∀ x y, x < newBond inc a (f 0) → y < newBond inc b (f P.length) →
        path ((P.mapIdx fun k A => truncSite f inc k A).map Prod.fst) s x y
          = if x < a ∧ y < b then path P s x y else 0) := by
  induction h with
  | nil a =>
    intro f _
    simp [WF.nil]
  | @cons a d c b A As ds h1 ha hd hc hw ih =>
    intro f hf
    obtain ⟨i1, i2, i3⟩ := ih (fun k => f (k + 1)) (fun k hk => hf (k + 1) (by simpa using hk))
    obtain ⟨s1, s2, s3⟩ := truncSite_spec h1 f 0 inc
    have hmap : ((A :: As).mapIdx fun k A => truncSite f inc k A) =
        truncSite f inc 0 A :: (As.mapIdx fun k A => truncSite (fun k => f (k + 1)) inc k A) := by
      rw [List.mapIdx_cons]; rfl
    rw [hmap]
    have hb1 : bond (A :: As) 1 = c := by
      cases hw with
      | nil => simp [bond, site, dim2_of h1]
      | cons h2 _ _ _ _ => simp [bond, site, dim0_of h2]
    refine ⟨?_, ?_, ?_⟩
    · simp only [List.map_cons]
      refine WF.cons s1 (newBond_pos ha (hf 0 (by omega))) hd (newBond_pos hc (hf 1 (by simp))) ?_
      exact i1
    · simp only [List.any_cons, Bool.or_eq_true]
      rintro (h | h)
      · rcases s2.1 h with h | h
        · exact ⟨0, by omega, by simpa [bond, site, dim0_of h1] using h⟩
        · exact ⟨1, by simp, by rw [hb1]; exact h⟩
      · obtain ⟨k, hk, hlt⟩ := i2 h
        refine ⟨k + 1, by simpa using hk, lt_of_lt_of_eq hlt ?_⟩
        by_cases hne : As = []
        · subst hne
          have hk0 : k = 0 := by simpa using hk
          subst hk0
          exfalso
          simp at h
        · have : 0 < As.length := List.length_pos_iff.mpr hne
          simp only [bond, List.length_cons, site]
          by_cases hk' : k < As.length
          · rw [if_pos hk', if_pos (by omega), List.getD_cons_succ]
          · rw [if_neg hk', if_neg (by omega), show As.length + 1 - 1 = (As.length - 1) + 1 by omega, List.getD_cons_succ]
    · simp only [List.any_cons, Bool.or_eq_false_iff]
      rintro ⟨hA, hAs⟩ s hs - x y hx hy
      have hn : ¬ (f 0 < a ∨ f (0 + 1) < c) := by
        intro hh; rw [s2.2 hh] at hA; exact absurd hA (by simp)
      have hle : c ≤ newBond inc c (f (0 + 1)) := by
        unfold newBond; split <;> omega
      cases s with
      | nil => cases hs
      | cons i s =>
        have hs' := (isCfg_cons.1 hs).2
        simp only [List.map_cons, path_cons]
        rw [dim2_of s1, dim2_of h1]
        have key : ∀ z ∈ Finset.range (newBond inc c (f (0 + 1))),
            (truncSite f inc 0 A).1.get [x, i, z] *
              path ((As.mapIdx fun k A => truncSite (fun k => f (k + 1)) inc k A).map Prod.fst) s z y
            = if z < c then (if x < a ∧ y < b then A.get [x, i, z] * path As s z y else 0) else 0 := by
          intro z hz
          have hz := Finset.mem_range.1 hz
          rw [s3 x i z hx hz]
          by_cases hzc : z < c
          · rw [if_pos hzc]
            by_cases hne : As = []
            · subst hne
              cases hw
              cases s with
              | cons _ _ => cases hs'
              | nil =>
              simp only [List.mapIdx_nil, List.map_nil, path_nil]
              by_cases hxa : x < a
              · by_cases hyc : y < c
                · simp [hxa, hzc, hyc]
                · rw [if_neg (by omega : ¬ z = y)]; simp [hyc]
              · simp [hxa]
            · rw [i3 hAs s hs' hne z y hz (by simpa using hy)]
              by_cases hxa : x < a <;> by_cases hyb : y < b <;> simp [hxa, hyb, hzc]
          · simp [hzc]
        rw [Finset.sum_congr rfl key, ← Finset.sum_filter]
        have hfil : (Finset.range (newBond inc c (f (0 + 1)))).filter (· < c) = Finset.range c := by
          ext z; simp only [Finset.mem_filter, Finset.mem_range]; omega
        rw [hfil]
        split
        · rfl
        · simp

theorem bond_of_WF {a b : Nat} {P : List (Tensor R)} {ds : List Nat} (h : WF a P ds b) (hne : P ≠ []) :
    bond P 0 = a ∧ bond P P.length = b := by
  constructor
  · cases h with
    | nil => exact absurd rfl hne
    | cons h1 => simp [bond, site, dim0_of h1]
  · unfold bond
    rw [if_neg (by omega)]
    induction h with
    | nil => exact absurd rfl hne
    | @cons a d c b A As ds h1 _ _ _ hw ih =>
      by_cases hn : As = []
      · subst hn; cases hw; simp [site, dim2_of h1]
      · have := ih hn
        have hp : 0 < As.length := List.length_pos_iff.mpr hn
        rw [← this]
        simp only [site, List.length_cons]
        rw [show As.length + 1 - 1 = (As.length - 1) + 1 by omega, List.getD_cons_succ]

theorem truncAll_bond (inc : Bool) {a b : Nat} {P : List (Tensor R)} {ds : List Nat} (h : WF a P ds b) :
    ∀ (f : Nat → Nat) (k : Nat), P ≠ [] → k ≤ P.length →
    bond ((P.mapIdx fun k A => truncSite f inc k A).map Prod.fst) k = newBond inc (bond P k) (f k) ∧
    (f k < bond P k → (P.mapIdx fun k A => truncSite f inc k A).any Prod.snd = true) := by
  induction h with
  | nil => intro f k h; exact absurd rfl h
  | @cons a d c b A As ds h1 ha hd hc hw ih =>
    intro f k _ hk
    obtain ⟨s1, s2, s3⟩ := truncSite_spec h1 f 0 inc
    have hmap : ((A :: As).mapIdx fun k A => truncSite f inc k A) =
        truncSite f inc 0 A :: (As.mapIdx fun k A => truncSite (fun k => f (k + 1)) inc k A) := by
      rw [List.mapIdx_cons]; rfl
    rw [hmap]
    cases k with
    | zero =>
      constructor
      · simp [bond, site, dim0_of h1, dim0_of s1]
      · intro hlt
        have : (truncSite f inc 0 A).2 = true := s2.2 (Or.inl (by simpa [bond, site, dim0_of h1] using hlt))
        simp [this]
    | succ k =>
      by_cases hne : As = []
      · subst hne
        cases hw
        have hk0 : k = 0 := by simpa using hk
        subst hk0
        constructor
        · simp [bond, site, dim2_of h1, dim2_of s1]
        · intro hlt
          have : (truncSite f inc 0 A).2 = true := s2.2 (Or.inr (by simpa [bond, site, dim2_of h1] using hlt))
          simp [this]
      · have hp : 0 < As.length := List.length_pos_iff.mpr hne
        have sh : ∀ (B : Tensor R) (Bs : List (Tensor R)), 0 < Bs.length → bond (B :: Bs) (k + 1) = bond Bs k := by
          intro B Bs hB
          simp only [bond, List.length_cons, site]
          by_cases hk' : k < Bs.length
          · rw [if_pos hk', if_pos (by omega), List.getD_cons_succ]
          · rw [if_neg hk', if_neg (by omega), show Bs.length + 1 - 1 = (Bs.length - 1) + 1 by omega, List.getD_cons_succ]
        obtain ⟨i1, i2⟩ := ih (fun k => f (k + 1)) k hne (by simpa using hk)
        constructor
        · rw [List.map_cons, sh _ _ (by simpa using hp), sh _ _ hp, i1]
        · intro hlt
          rw [sh _ _ hp] at hlt
          simp [i2 hlt]

/-- **C19.**  `truncate(&Q, P, Dmax, periodic, increase)` with `Dmax > 0`, on any matrix product state: the result has
the same local dimensions and matching bonds; bond `k` has the smaller of its old size and the cap (`Dmax`, or the
number of states on either side of the bond in an open chain), or the cap itself with `increase`; in particular at
most `Dmax`.  It returns true exactly when some bond is larger than its cap, and when it returns false every amplitude
is unchanged. -/
theorem C19_truncate {ds : List Nat} {P : List (Tensor R)} (h : IsMPS ds P) (Dmax : Nat) (hD : 0 < Dmax)
    (periodic increase : Bool) :
    let Q := (truncateMPS P Dmax periodic increase).1
    let r := (truncateMPS P Dmax periodic increase).2
    IsMPS ds Q ∧
    (∀ k ≤ ds.length, bond Q k = if increase then bondCap ds Dmax periodic k else min (bond P k) (bondCap ds Dmax periodic k)) ∧
    (∀ k ≤ ds.length, bond Q k ≤ Dmax) ∧
    (r = true ↔ ∃ k ≤ ds.length, bondCap ds Dmax periodic k < bond P k) ∧
    (r = false → ∀ s, IsCfg ds s → amp Q s = amp P s) := by
  obtain ⟨hne, D, hw⟩ := h
  intro Q r
  have hlen := hw.length
  set f := expectedDims P Dmax periodic with hf
  have hfs : ∀ k ≤ P.length, f k = bondCap ds Dmax periodic k := fun k hk => expectedDims_spec Dmax hD periodic hw k hk
  have hQ : Q = (P.mapIdx fun k A => truncSite f increase k A).map Prod.fst := by
    simp only [Q, truncateMPS, if_neg (Nat.pos_iff_ne_zero.mp hD), hf]
  have hr : r = (P.mapIdx fun k A => truncSite f increase k A).any Prod.snd := by
    simp only [r, truncateMPS, if_neg (Nat.pos_iff_ne_zero.mp hD), hf]
  have hcapD : ∀ k, bondCap ds Dmax periodic k ≤ Dmax := by
    intro k; unfold bondCap; split <;> omega
  have hpp : ∀ k, 0 < (ds.take k).prod ∧ 0 < (ds.drop k).prod := by
    intro k
    have hp := prod_pos_of hw
    rw [← List.prod_take_mul_prod_drop ds k] at hp
    exact ⟨Nat.pos_of_mul_pos_right hp, Nat.pos_of_mul_pos_left hp⟩
  have hcap0 : ∀ k, 0 < bondCap ds Dmax periodic k := by
    intro k; unfold bondCap
    have := hpp k
    split <;> omega
  have hfpos : ∀ k, k ≤ P.length → 0 < f k := fun k hk => by rw [hfs k hk]; exact hcap0 k
  have hends : f P.length = f 0 := by
    rw [hfs _ (le_refl _), hfs 0 (by omega), hlen]
    unfold bondCap
    split
    · rfl
    · rw [List.drop_length, List.take_length, List.drop_zero, List.take_zero]
      rw [Nat.min_comm ds.prod]
  obtain ⟨t1, t2, t3⟩ := truncAll_spec increase hw f hfpos
  rw [hends] at t1
  have hbond : ∀ k ≤ ds.length, bond Q k = if increase then bondCap ds Dmax periodic k else min (bond P k) (bondCap ds Dmax periodic k) := by
    intro k hk
    rw [hQ, (truncAll_bond increase hw f k hne (by omega)).1, hfs k (by omega)]
    rfl
  have hQne : Q ≠ [] := by
    rw [hQ]; intro hh
    have := congrArg List.length hh
    simp at this
    exact hne this
  refine ⟨⟨hQne, _, by rw [hQ]; exact t1⟩, hbond, fun k hk => ?_, ?_, ?_⟩
  · rw [hbond k hk]
    have := hcapD k
    split <;> omega
  · rw [hr]
    constructor
    · intro h
      obtain ⟨k, hk, hlt⟩ := t2 h
      exact ⟨k, by omega, by rw [← hfs k hk]; exact hlt⟩
    · rintro ⟨k, hk, hlt⟩
      exact (truncAll_bond increase hw f k hne (by omega)).2 (by rw [hfs k (by omega)]; exact hlt)
  · intro hfalse s hs
    rw [hr] at hfalse
    rw [amp_of_WF hw hne, amp_of_WF (by rw [hQ]; exact t1) hQne]
    have hge : D ≤ newBond increase D (f 0) := by
      have : ¬ f 0 < D := by
        intro hlt
        have := (truncAll_bond increase hw f 0 hne (by omega)).2 (by rw [(bond_of_WF hw hne).1]; exact hlt)
        rw [this] at hfalse; exact absurd hfalse (by simp)
      unfold newBond; split <;> omega
    have : ∀ x ∈ Finset.range (newBond increase D (f 0)), path Q s x x = if x < D then path P s x x else 0 := by
      intro x hx
      have hx := Finset.mem_range.1 hx
      rw [hQ, t3 hfalse s hs hne x x hx (by rw [hends]; exact hx)]
      simp
    rw [Finset.sum_congr rfl this, ← Finset.sum_filter]
    have hfil : (Finset.range (newBond increase D (f 0))).filter (· < D) = Finset.range D := by
      ext z; simp only [Finset.mem_filter, Finset.mem_range]; omega
    rw [hfil]

/-- **C19**, `Dmax = 0` means "no limit": the state is returned as it is. -/
theorem C19_unlimited (P : List (Tensor R)) (periodic increase : Bool) :
    truncateMPS P 0 periodic increase = (P, false) := by
  simp [truncateMPS]

/-- a concrete state to which C19 applies: two sites, bond 3, truncated to 2 -/
example : IsMPS [2, 2] [⟨[1, 2, 3], fun i => (i.getD 1 0 + i.getD 2 0 : Int)⟩, ⟨[3, 2, 1], fun i => (i.getD 0 0 : Int)⟩] ∧
    (truncateMPS [⟨[1, 2, 3], fun i => (i.getD 1 0 + i.getD 2 0 : Int)⟩, ⟨[3, 2, 1], fun i => (i.getD 0 0 : Int)⟩]
      2 false false).2 = true :=
  ⟨⟨by simp, 1, WF.cons rfl (by omega) (by omega) (by omega) (WF.single rfl (by omega) (by omega) (by omega))⟩, by
    decide +kernel⟩

/-- **C68.** `largest_bond_dimension(P)` is the largest of the left bonds. -/
theorem C68_largest_bond (P : List (Tensor R)) :
    (∀ A ∈ P, A.dim 0 ≤ largestBond P) ∧ (P ≠ [] → ∃ A ∈ P, A.dim 0 = largestBond P) := by
  have gen : ∀ (P : List (Tensor R)) (i : Nat), let m := P.foldl (fun i A => max i (A.dim 0)) i
      i ≤ m ∧ (∀ A ∈ P, A.dim 0 ≤ m) ∧ (m = i ∨ ∃ A ∈ P, A.dim 0 = m) := by
    intro P
    induction P with
    | nil => intro i; simp
    | cons A P ih =>
      intro i
      obtain ⟨a, b, c⟩ := ih (max i (A.dim 0))
      simp only [List.foldl_cons]
      refine ⟨by omega, fun B hB => ?_, ?_⟩
      · rcases List.mem_cons.1 hB with rfl | hB
        · omega
        · exact b B hB
      · rcases c with c | ⟨B, hB, e⟩
        · rw [c]
          rcases Nat.le_total i (A.dim 0) with h | h
          · right; exact ⟨A, by simp, by omega⟩
          · left; omega
        · right; exact ⟨B, by simp [hB], e⟩
  obtain ⟨a, b, c⟩ := gen P 0
  refine ⟨b, fun hne => ?_⟩
  rcases c with c | c
  · cases P with
    | nil => exact absurd rfl hne
    | cons A P => exact ⟨A, by simp, by have := b A (by simp); unfold largestBond; omega⟩
  · exact c

end C19

/-! ### C67, entropy of a vector -/

theorem entropy_foldl (l : List ℝ) (f : ℝ → ℝ) (x : ℝ) :
    l.foldl (fun s x => s - f x) x = x - (l.map f).sum := by
  induction l generalizing x with
  | nil => simp
  | cons y l ih => rw [List.foldl_cons, ih, List.map_cons, List.sum_cons]; ring

/-- **C67**, `entropy(l)` of a vector of strictly positive numbers (Schmidt values squared; they need not be normalised)
is the Shannon entropy of the distribution `p_i = l_i / Σ l`; it is between 0 and the logarithm of the number of
values. -/
theorem C67_entropy_partial (l : List ℝ) (hne : l ≠ []) (hpos : ∀ x ∈ l, 0 < x) :
    ∃ S, entropy l = some S ∧ S = -(l.map fun x => x / l.sum * Real.log (x / l.sum)).sum ∧
      0 ≤ S ∧ S ≤ Real.log l.length := by
  have hsum : 0 < l.sum := List.sum_pos l hpos hne
  have habs : |l.sum| = l.sum := abs_of_pos hsum
  have hz : ¬ ((l.any fun x => decide (x = 0)) = true ∨ l ≠ [] ∧ |l.sum| = 0) := by
    rintro (h | ⟨-, h⟩)
    · obtain ⟨x, hx, h0⟩ := List.any_eq_true.1 h
      have := hpos x hx
      simp at h0; linarith
    · rw [habs] at h; linarith
  refine ⟨_, by unfold entropy; exact if_neg hz, ?_, ?_, ?_⟩
  all_goals rw [entropy_foldl l (fun x => |x| / |l.sum| * Real.log (|x| / |l.sum|)) 0]
  all_goals rw [List.map_congr_left (g := fun x => x / l.sum * Real.log (x / l.sum))
    (fun x hx => by rw [habs, abs_of_pos (hpos x hx)])]
  · ring
  · have : (l.map fun x => x / l.sum * Real.log (x / l.sum)).sum ≤ 0 := by
      have : ∀ m : List ℝ, (∀ y ∈ m, y ≤ 0) → m.sum ≤ 0 := by
        intro m
        induction m with
        | nil => simp
        | cons y m ih =>
          intro h
          rw [List.sum_cons]
          have h1 := h y (by simp)
          have h2 := ih (fun z hz => h z (by simp [hz]))
          linarith
      apply this
      intro y hy
      obtain ⟨x, hx, rfl⟩ := List.mem_map.1 hy
      have hx0 := hpos x hx
      have h1 : x / l.sum ≤ 1 := by
        rw [div_le_one hsum]
        exact List.single_le_sum (fun y hy => (hpos y hy).le) x hx
      exact mul_nonpos_of_nonneg_of_nonpos (by positivity) (Real.log_nonpos (by positivity) h1)
    linarith
  · -- `-p log p ≤ 1/n - p + p log n` termwise, from `log y ≤ y - 1`
    have hn : (0 : ℝ) < l.length := by exact_mod_cast List.length_pos_iff.mpr hne
    have hterm : ∀ x ∈ l, -(x / l.sum * Real.log (x / l.sum)) ≤
        1 / l.length - x / l.sum + x / l.sum * Real.log l.length := by
      intro x hx
      have hp : 0 < x / l.sum := div_pos (hpos x hx) hsum
      have h1 := Real.log_le_sub_one_of_pos (show 0 < 1 / (l.length * (x / l.sum)) by positivity)
      rw [Real.log_div one_ne_zero (by positivity), Real.log_one, Real.log_mul (by positivity) (by positivity)] at h1
      have h2 := mul_le_mul_of_nonneg_left h1 hp.le
      have h3 : x / l.sum * (1 / (l.length * (x / l.sum)) - 1) = 1 / l.length - x / l.sum := by
        have hx0 := (hpos x hx).ne'
        field_simp
      rw [h3] at h2
      nlinarith
    have hs := List.sum_le_sum hterm
    have e1 : (l.map fun x => -(x / l.sum * Real.log (x / l.sum))).sum
        = -(l.map fun x => x / l.sum * Real.log (x / l.sum)).sum := by
      rw [List.sum_neg]
      simp [List.map_map, Function.comp_def]
    have e2 : (l.map fun x => 1 / (l.length : ℝ) - x / l.sum + x / l.sum * Real.log l.length).sum = Real.log l.length := by
      have gen : ∀ (m : List ℝ) (a b c : ℝ), (m.map fun x => a - x / b + x / b * c).sum
          = m.length * a - m.sum / b + m.sum / b * c := by
        intro m a b c
        induction m with
        | nil => simp
        | cons y m ih => rw [List.map_cons, List.sum_cons, ih, List.length_cons, List.sum_cons]; push_cast; ring
      rw [gen, div_self (ne_of_gt hsum)]
      field_simp
      ring
    rw [e1, e2] at hs
    linarith

/-- **C67**, what is missing: one vanishing Schmidt value and the entropy is a NaN (`0 * log 0`) instead of the
entropy of the other values. -/
theorem C67_entropy_violated : entropy [1, 0] = none := by
  simp [entropy]

/-- a distribution to which C67 applies -/
example : ([3, 1] : List ℝ) ≠ [] ∧ ∀ x ∈ ([3, 1] : List ℝ), 0 < x := ⟨by simp, by simp⟩

end MPS.Props
