import Verif.QuantumModel
import Mathlib.Data.Matrix.Mul
import Mathlib.LinearAlgebra.Matrix.ConjTranspose
import Mathlib.LinearAlgebra.Matrix.Hermitian
import Mathlib.Tactic.Linarith
import Mathlib.Data.List.GetD
import Mathlib.Tactic.NoncommRing
import Mathlib.Tactic.IntervalCases
import Mathlib.Tactic.FieldSimp

/-!
# Properties of the Fock space and spin operators (C46-C48)
-/

set_option linter.unusedSectionVars false
set_option linter.unusedSimpArgs false

namespace MPS.Props
open MPS MPS.Lat MPS.Quantum

/-! ### Fock space -/

theorem linspace0 (nmax k : Nat) (hk : k < nmax + 1) : (linspace 0 nmax (nmax + 1)).getD k 0 = k := by
  rw [List.getD_eq_getElem _ _ (by simpa [linspace] using hk)]
  simp only [linspace, List.getElem_map, List.getElem_range]
  split
  · next h =>
    have : k = 0 := by omega
    simp [this]
  · next h =>
    have : (nmax : ℝ) ≠ 0 := by
      have : nmax ≠ 0 := by omega
      exact_mod_cast this
    have e : ((nmax + 1 : Nat) : ℝ) - 1 = nmax := by push_cast; ring
    rw [e, sub_zero, div_self this]
    ring

theorem linspace1 (nmax k : Nat) (hk : k < nmax) :
    ((linspace 1 nmax nmax).map Real.sqrt).getD k 0 = Real.sqrt ((k : ℝ) + 1) := by
  rw [List.getD_eq_getElem _ _ (by simpa [linspace] using hk)]
  simp only [linspace, List.getElem_map, List.getElem_range]
  split
  · next h =>
    have : k = 0 := by omega
    simp [this]
  · next h =>
    have : (nmax : ℝ) - 1 ≠ 0 := by
      intro e
      apply h
      have : (nmax : ℝ) = 1 := by linarith
      exact_mod_cast this
    congr 1
    field_simp
    ring

theorem iota_getD (a n k : Nat) (hk : k < n) : (iota a n).getD k 0 = a + k := by
  simp [iota, List.getD_eq_getElem?_getD, List.getElem?_range' hk]

theorem number_entry (nmax r c : Nat) (hc : c ≤ nmax) :
    (Quantum.numberOperator nmax).entry r c = if r = c then (c : ℝ) else 0 := by
  have hl : (linspace 0 (nmax : ℝ) (nmax + 1)).length = nmax + 1 := by simp [linspace]
  simp only [Quantum.numberOperator, Sparse.ofTriplets, hl]
  rw [Finset.sum_eq_single c]
  · rw [iota_getD _ _ _ (by omega), linspace0 _ _ (by omega)]
    simp [eq_comm]
  · intro k hk hne
    rw [iota_getD _ _ _ (Finset.mem_range.mp hk), if_neg (by omega)]
  · intro h; exact absurd (Finset.mem_range.mpr (by omega)) h

theorem destruction_entry (nmax r c : Nat) (hc : c ≤ nmax) :
    (destructionOperator nmax).entry r c = if c = r + 1 then Real.sqrt c else 0 := by
  have hl : ((linspace 1 (nmax : ℝ) nmax).map Real.sqrt).length = nmax := by simp [linspace]
  simp only [destructionOperator, Sparse.ofTriplets, hl]
  by_cases h : c = r + 1
  · rw [if_pos h, Finset.sum_eq_single r]
    · rw [iota_getD _ _ _ (by omega), iota_getD _ _ _ (by omega), if_pos (by omega), linspace1 _ _ (by omega), h]
      push_cast; rfl
    · intro k hk hne
      rw [iota_getD _ _ _ (Finset.mem_range.mp hk), if_neg (by omega)]
    · intro h; exact absurd (Finset.mem_range.mpr (by omega)) h
  · rw [if_neg h]
    apply Finset.sum_eq_zero
    intro k hk
    rw [iota_getD _ _ _ (Finset.mem_range.mp hk), iota_getD _ _ _ (Finset.mem_range.mp hk), if_neg (by omega)]

theorem creation_entry (nmax r c : Nat) : (creationOperator nmax).entry r c = (destructionOperator nmax).entry c r := by
  simp only [creationOperator, destructionOperator, Sparse.ofTriplets]
  apply Finset.sum_congr rfl
  intro k _
  simp only [and_comm]

/-- **C46.**  The Fock operators have size `nmax + 1`; `a|c⟩ = √c |c-1⟩`; `a†` is the adjoint (transpose) of `a`; `a†a` is
the number operator, whose diagonal is `0, 1, ..., nmax`; `[a, a†] = 1` except for the last level, where it is `-nmax`. -/
theorem C46_fock (nmax : Nat) :
    let a := (destructionOperator nmax).entry
    let ad := (creationOperator nmax).entry
    let n := (Quantum.numberOperator nmax).entry
    let d := nmax + 1
    ((destructionOperator nmax).rows = d ∧ (destructionOperator nmax).cols = d ∧ (creationOperator nmax).rows = d ∧
      (creationOperator nmax).cols = d ∧ (Quantum.numberOperator nmax).rows = d ∧ (Quantum.numberOperator nmax).cols = d) ∧
    ∀ r c, r < d → c < d →
      a r c = (if c = r + 1 then Real.sqrt c else 0) ∧
      ad r c = a c r ∧
      n r c = (if r = c then (c : ℝ) else 0) ∧
      ∑ k ∈ Finset.range d, ad r k * a k c = n r c ∧
      ∑ k ∈ Finset.range d, a r k * ad k c - ∑ k ∈ Finset.range d, ad r k * a k c
        = if r = c then (if r = nmax then -(nmax : ℝ) else 1) else 0 := by
  intro a ad n d
  refine ⟨⟨rfl, rfl, rfl, rfl, rfl, rfl⟩, fun r c hr hc => ?_⟩
  have ha : ∀ x y, y < d → a x y = if y = x + 1 then Real.sqrt y else 0 :=
    fun x y hy => destruction_entry nmax x y (by omega)
  have had : ∀ x y, ad x y = a y x := fun x y => creation_entry nmax x y
  have hn : n r c = if r = c then (c : ℝ) else 0 := number_entry nmax r c (by omega)
  have h1 : ∑ k ∈ Finset.range d, ad r k * a k c = n r c := by
    rw [hn]
    have e : ∀ k ∈ Finset.range d, ad r k * a k c = if c = k + 1 ∧ r = c then (c : ℝ) else 0 := by
      intro k _
      rw [had, ha k r hr, ha k c hc]
      by_cases h1 : r = k + 1
      · by_cases h2 : c = k + 1
        · rw [if_pos h1, if_pos h2, if_pos ⟨h2, by omega⟩, show r = c by omega, Real.mul_self_sqrt (by positivity)]
        · rw [if_neg h2, mul_zero, if_neg (fun h => h2 h.1)]
      · rw [if_neg h1, zero_mul, if_neg (by omega)]
    rw [Finset.sum_congr rfl e]
    by_cases hrc : r = c
    · rcases Nat.eq_zero_or_pos c with h0 | h0
      · subst h0; simp [hrc]
      · rw [Finset.sum_eq_single (c - 1)]
        · rw [if_pos ⟨by omega, hrc⟩, if_pos hrc]
        · intro k _ hne; rw [if_neg (by omega)]
        · intro h; exact absurd (Finset.mem_range.mpr (by omega)) h
    · simp [hrc]
  have h2 : ∑ k ∈ Finset.range d, a r k * ad k c = if r = c ∧ r ≠ nmax then (c : ℝ) + 1 else 0 := by
    have e : ∀ k ∈ Finset.range d, a r k * ad k c = if k = r + 1 ∧ r = c then (c : ℝ) + 1 else 0 := by
      intro k hk
      have hk := Finset.mem_range.mp hk
      rw [had, ha r k hk, ha c k hk]
      by_cases h1 : k = r + 1
      · by_cases h2 : k = c + 1
        · rw [if_pos h1, if_pos h2, if_pos ⟨h1, by omega⟩, Real.mul_self_sqrt (by positivity), h2]; push_cast; ring
        · rw [if_neg h2, mul_zero, if_neg (by omega)]
      · rw [if_neg h1, zero_mul, if_neg (fun h => h1 h.1)]
    rw [Finset.sum_congr rfl e]
    by_cases hrc : r = c
    · by_cases hl : r = nmax
      · rw [if_neg (by simp [hl])]
        apply Finset.sum_eq_zero
        intro k hk
        have hk := Finset.mem_range.mp hk
        rw [if_neg (by omega)]
      · rw [if_pos ⟨hrc, hl⟩, Finset.sum_eq_single (r + 1)]
        · rw [if_pos ⟨rfl, hrc⟩]
        · intro k _ hne; rw [if_neg (by omega)]
        · intro h; exact absurd (Finset.mem_range.mpr (by omega)) h
    · simp [hrc]
  refine ⟨ha r c hc, had r c, hn, h1, ?_⟩
  rw [h1, h2, hn]
  by_cases hrc : r = c
  · by_cases hl : r = nmax
    · simp [← hrc, hl]
    · simp [hrc, show c ≠ nmax from hrc ▸ hl]
  · simp [hrc]

/-! ### coherent states -/

theorem coherentLoopR_spec (alpha : ℝ) (fuel i k : Nat) (c : ℝ) (hk : k < fuel) :
    (coherentLoopR alpha fuel i c).getD k 0
      = c * alpha ^ k * Real.sqrt (i.factorial) / Real.sqrt ((i + k).factorial) := by
  induction fuel generalizing i k c with
  | zero => omega
  | succ fuel ih =>
    have hpos : ∀ n : Nat, Real.sqrt (n.factorial : ℝ) ≠ 0 := fun n => by
      have : 0 < n.factorial := n.factorial_pos
      positivity
    cases k with
    | zero => simp [coherentLoopR, mul_div_assoc, div_self (hpos i)]
    | succ k =>
      simp only [coherentLoopR, List.getD_cons_succ]
      rw [ih _ _ _ (by omega)]
      have e : Real.sqrt ((i + 1).factorial : ℝ) = Real.sqrt ((i + 1 : Nat) : ℝ) * Real.sqrt (i.factorial) := by
        rw [Nat.factorial_succ, Nat.cast_mul, Real.sqrt_mul (by positivity)]
      rw [e, show i + 1 + k = i + (k + 1) by omega]
      have h1 : Real.sqrt ((i + 1 : Nat) : ℝ) ≠ 0 := by positivity
      have := hpos (i + (k + 1))
      field_simp
      ring

theorem coherentLoopC_spec (alpha : ℂ) (fuel i k : Nat) (c : ℂ) (hk : k < fuel) :
    (coherentLoopC alpha fuel i c).getD k 0
      = c * alpha ^ k * (Real.sqrt (i.factorial) : ℝ) / (Real.sqrt ((i + k).factorial) : ℝ) := by
  induction fuel generalizing i k c with
  | zero => omega
  | succ fuel ih =>
    have hpos : ∀ n : Nat, ((Real.sqrt (n.factorial : ℝ) : ℝ) : ℂ) ≠ 0 := fun n => by
      have : 0 < n.factorial := n.factorial_pos
      have h2 : Real.sqrt (n.factorial : ℝ) ≠ 0 := by positivity
      exact_mod_cast h2
    cases k with
    | zero => simp [coherentLoopC, mul_div_assoc, div_self (hpos i)]
    | succ k =>
      simp only [coherentLoopC, List.getD_cons_succ]
      rw [ih _ _ _ (by omega)]
      have e : Real.sqrt ((i + 1).factorial : ℝ) = Real.sqrt ((i + 1 : Nat) : ℝ) * Real.sqrt (i.factorial) := by
        rw [Nat.factorial_succ, Nat.cast_mul, Real.sqrt_mul (by positivity)]
      rw [e, show i + 1 + k = i + (k + 1) by omega, Complex.ofReal_mul]
      have h1 : ((Real.sqrt ((i + 1 : Nat) : ℝ) : ℝ) : ℂ) ≠ 0 := by
        have : Real.sqrt ((i + 1 : Nat) : ℝ) ≠ 0 := by positivity
        exact_mod_cast this
      have := hpos (i + (k + 1))
      field_simp
      ring

/-- **C47.**  `coherent_state(alpha, nmax)` has `nmax + 1` entries, the `n`-th being `exp(-|α|²/2) αⁿ / √n!`. -/
theorem C47_coherent_real (alpha : ℝ) (nmax : Nat) :
    (coherentStateR alpha nmax).length = nmax + 1 ∧
    ∀ n ≤ nmax, (coherentStateR alpha nmax).getD n 0 = Real.exp (-(|alpha| ^ 2) / 2) * alpha ^ n / Real.sqrt n.factorial := by
  constructor
  · have : ∀ fuel i c, (coherentLoopR alpha fuel i c).length = fuel := by
      intro fuel
      induction fuel with
      | zero => intros; rfl
      | succ f ih => intro i c; simp [coherentLoopR, ih]
    exact this _ _ _
  · intro n hn
    rw [coherentStateR, coherentLoopR_spec _ _ _ _ _ (by omega), sq_abs]
    simp only [Nat.factorial_zero, Nat.cast_one, Real.sqrt_one, mul_one, Nat.zero_add]
    congr 3
    ring

@[inherit_doc C47_coherent_real]
theorem C47_coherent_complex (alpha : ℂ) (nmax : Nat) :
    (coherentStateC alpha nmax).length = nmax + 1 ∧
    ∀ n ≤ nmax, (coherentStateC alpha nmax).getD n 0
      = ((Real.exp (-(‖alpha‖ ^ 2) / 2) : ℝ) : ℂ) * alpha ^ n / ((Real.sqrt n.factorial : ℝ) : ℂ) := by
  constructor
  · have : ∀ fuel i c, (coherentLoopC alpha fuel i c).length = fuel := by
      intro fuel
      induction fuel with
      | zero => intros; rfl
      | succ f ih => intro i c; simp [coherentLoopC, ih]
    exact this _ _ _
  · intro n hn
    rw [coherentStateC, coherentLoopC_spec _ _ _ _ _ (by omega)]
    simp only [Nat.factorial_zero, Nat.cast_one, Real.sqrt_one, Complex.ofReal_one, mul_one, Nat.zero_add]
    congr 4
    ring

/-! ### spins -/

/-- a `d × d` tensor as a matrix -/
def mat (d : Nat) (T : Tensor ℂ) : Matrix (Fin d) (Fin d) ℂ := Matrix.of fun i j => T.get [i, j]

/-- ladder coefficient `√((i+1)(n-i))` -/
noncomputable def lad (n i : Nat) : ℝ := Real.sqrt (((i : ℝ) + 1) * ((n : ℝ) - i))

theorem lad_sq (n i : Nat) (h : i ≤ n) : ((lad n i : ℝ) : ℂ) * (lad n i : ℝ) = ((i : ℂ) + 1) * ((n : ℂ) - i) := by
  rw [← Complex.ofReal_mul, lad, Real.mul_self_sqrt]
  · push_cast; ring
  · have : (i : ℝ) ≤ n := by exact_mod_cast h
    exact mul_nonneg (by positivity) (by linarith)

/-- raising operator -/
noncomputable def Sp (n : Nat) : Matrix (Fin (n + 1)) (Fin (n + 1)) ℂ :=
  Matrix.of fun i j => if (j : Nat) = i + 1 then ((lad n i : ℝ) : ℂ) else 0
/-- lowering operator -/
noncomputable def Sm (n : Nat) : Matrix (Fin (n + 1)) (Fin (n + 1)) ℂ :=
  Matrix.of fun i j => if (i : Nat) = j + 1 then ((lad n j : ℝ) : ℂ) else 0
/-- z component -/
noncomputable def Szm (n : Nat) : Matrix (Fin (n + 1)) (Fin (n + 1)) ℂ :=
  Matrix.of fun (i j : Fin (n + 1)) => if i = j then ((n : ℂ) / 2 - (i : ℕ)) else 0

theorem Sp_Sm (n : Nat) : Sp n * Sm n = Matrix.of fun (i j : Fin (n + 1)) => if i = j then (((i : ℕ) : ℂ) + 1) * ((n : ℂ) - (i : ℕ)) else 0 := by
  ext i j
  rw [Matrix.mul_apply]
  simp only [Sp, Sm, Matrix.of_apply]
  rcases Nat.lt_or_ge (i + 1) (n + 1) with hi | hi
  · rw [Finset.sum_eq_single ⟨i + 1, hi⟩]
    · by_cases hij : i = j
      · subst hij
        simp only [if_true]
        exact lad_sq n i (by omega)
      · rw [if_neg hij, if_neg (c := (i : Nat) + 1 = j + 1) (fun h => hij (Fin.ext (by omega))), mul_zero]
    · intro k _ hk
      rw [if_neg (fun h => hk (Fin.ext h)), zero_mul]
    · intro h; exact absurd (Finset.mem_univ _) h
  · have hin : (i : Nat) = n := by have := i.isLt; omega
    rw [Finset.sum_eq_zero]
    · simp [hin]
    · intro k _
      have := k.isLt
      rw [if_neg (by omega), zero_mul]

theorem Sm_Sp (n : Nat) : Sm n * Sp n = Matrix.of fun (i j : Fin (n + 1)) => if i = j then ((i : ℕ) : ℂ) * ((n : ℂ) + 1 - (i : ℕ)) else 0 := by
  ext i j
  rw [Matrix.mul_apply]
  simp only [Sp, Sm, Matrix.of_apply]
  rcases Nat.eq_zero_or_pos (i : Nat) with hi | hi
  · rw [Finset.sum_eq_zero]
    · simp [hi]
    · intro k _
      rw [if_neg (by omega), zero_mul]
  · have hlt : (i : Nat) - 1 < n + 1 := by have := i.isLt; omega
    rw [Finset.sum_eq_single ⟨i - 1, hlt⟩]
    · rw [if_pos (show (i : Nat) = i - 1 + 1 by omega)]
      by_cases hij : i = j
      · subst hij
        rw [if_pos (show (i : Nat) = i - 1 + 1 by omega), if_pos rfl]
        have := i.isLt
        rw [lad_sq n (i - 1) (by omega)]
        have hc : (((i : Nat) - 1 : Nat) : ℂ) = (i : ℕ) - 1 := by
          rw [Nat.cast_sub hi]; simp
        rw [hc]; ring
      · rw [if_neg hij, if_neg (fun h => hij (Fin.ext (by simp only at h; omega))), mul_zero]
    · intro k _ hk
      rw [if_neg (fun h => hk (Fin.ext (by simp only; omega))), zero_mul]
    · intro h; exact absurd (Finset.mem_univ _) h

theorem Szm_mul (n : Nat) (M : Matrix (Fin (n + 1)) (Fin (n + 1)) ℂ) :
    Szm n * M = Matrix.of fun (i j : Fin (n + 1)) => ((n : ℂ) / 2 - (i : ℕ)) * M i j := by
  ext i j
  rw [Matrix.mul_apply, Finset.sum_eq_single i]
  · simp [Szm]
  · intro k _ hk
    simp [Szm, Ne.symm hk]
  · intro h; exact absurd (Finset.mem_univ _) h

theorem mul_Szm (n : Nat) (M : Matrix (Fin (n + 1)) (Fin (n + 1)) ℂ) :
    M * Szm n = Matrix.of fun (i j : Fin (n + 1)) => M i j * ((n : ℂ) / 2 - (j : ℕ)) := by
  ext i j
  rw [Matrix.mul_apply, Finset.sum_eq_single j]
  · simp [Szm]
  · intro k _ hk
    simp [Szm, hk]
  · intro h; exact absurd (Finset.mem_univ _) h

theorem comm_pm (n : Nat) : Sp n * Sm n - Sm n * Sp n = (2 : ℂ) • Szm n := by
  rw [Sp_Sm, Sm_Sp]
  ext i j
  by_cases h : i = j
  · subst h; simp [Szm]; ring
  · simp [Szm, h]

theorem comm_zp (n : Nat) : Szm n * Sp n - Sp n * Szm n = Sp n := by
  rw [Szm_mul, mul_Szm]
  ext i j
  simp only [Sp, Matrix.sub_apply, Matrix.of_apply]
  split
  · next h => rw [h]; push_cast; ring
  · simp

theorem comm_zm (n : Nat) : Szm n * Sm n - Sm n * Szm n = - Sm n := by
  rw [Szm_mul, mul_Szm]
  ext i j
  simp only [Sm, Matrix.sub_apply, Matrix.of_apply, Matrix.neg_apply]
  split
  · next h => rw [h]; push_cast; ring
  · simp

theorem spin_floor (n : Nat) : ⌊2 * ((n : ℝ) / 2) + 1⌋₊ = n + 1 := by
  rw [mul_div_cancel₀ _ (by norm_num : (2 : ℝ) ≠ 0)]
  have : ((n : ℝ) + 1) = ((n + 1 : ℕ) : ℝ) := by push_cast; ring
  rw [this, Nat.floor_natCast]

theorem spin_mats (n : Nat) (h1 : 1 ≤ n) (h6 : n ≤ 6) :
    ∃ sx sy sz, spinOperators ((n : ℝ) / 2) = some (sx, sy, sz) ∧
      sx.dims = [n + 1, n + 1] ∧ sy.dims = [n + 1, n + 1] ∧ sz.dims = [n + 1, n + 1] ∧
      mat (n + 1) sx = (1 / 2 : ℂ) • (Sp n + Sm n) ∧
      mat (n + 1) sy = (Complex.I / 2) • (Sm n - Sp n) ∧
      mat (n + 1) sz = Szm n := by
  have hb : ¬ ((n : ℝ) / 2 < 0.5 ∨ (n : ℝ) / 2 > 3.0) := by
    have a : (1 : ℝ) ≤ n := by exact_mod_cast h1
    have b : (n : ℝ) ≤ 6 := by exact_mod_cast h6
    push Not
    constructor <;> norm_num <;> linarith
  refine ⟨_, _, _, by rw [spinOperators, if_neg hb], ?_⟩
  have hl : ∀ i : Nat, Real.sqrt ((n : ℝ) / 2 * ((n : ℝ) / 2 + 1) - ((n : ℝ) / 2 - i - 1) * ((n : ℝ) / 2 - i)) = lad n i := by
    intro i
    rw [lad]
    congr 1
    ring
  have hc : ∀ p : Prop, ∀ [Decidable p], ∀ x : ℝ, (((if p then x else 0 : ℝ)) : ℂ) = if p then (x : ℂ) else 0 := by
    intro p _ x; split <;> simp
  refine ⟨?_, ?_, ?_, ?_, ?_, ?_⟩
  · simp [toComplex, Tensor.smul, Tensor.add, diagUp, spin_floor]
  · simp [toComplex, Tensor.smul, Tensor.add, diagDown, spin_floor]
  · simp [toComplex, diag0, spin_floor]
  · ext i j
    simp only [mat, Matrix.of_apply, toComplex, Tensor.smul, Tensor.add, diagUp, diagDown, List.getD_cons_zero,
      List.getD_cons_succ, hl, Complex.ofReal_mul, Complex.ofReal_add, hc, Matrix.smul_apply, Matrix.add_apply, Sp, Sm,
      smul_eq_mul]
    norm_num
  · ext i j
    simp only [mat, Matrix.of_apply, toComplex, Tensor.smul, Tensor.add, diagUp, diagDown, List.getD_cons_zero,
      List.getD_cons_succ, hl, Complex.ofReal_mul, Complex.ofReal_add, hc, Matrix.smul_apply, Matrix.sub_apply, Sp, Sm,
      smul_eq_mul]
    push_cast
    ring
  · ext i j
    simp only [mat, Matrix.of_apply, toComplex, diag0, List.getD_cons_zero, List.getD_cons_succ, hc, Szm, Fin.ext_iff]
    push_cast
    rfl

theorem Sp_adj (n : Nat) : (Sp n).conjTranspose = Sm n := by
  ext i j
  simp only [Sp, Sm, Matrix.conjTranspose_apply, Matrix.of_apply]
  split <;> simp

theorem Szm_adj (n : Nat) : (Szm n).conjTranspose = Szm n := by
  ext i j
  simp only [Szm, Matrix.conjTranspose_apply, Matrix.of_apply]
  by_cases h : i = j
  · subst h; simp
  · simp [h, Ne.symm h]

/-- **C48.**  For every spin `s = n/2` the function accepts (`1/2, 1, ..., 3`), `spin_operators` returns matrices of size
`2s+1` that satisfy the angular momentum algebra, are Hermitian and have total spin `s`. -/
theorem C48_spin (n : Nat) (h1 : 1 ≤ n) (h6 : n ≤ 6) :
    ∃ sx sy sz, spinOperators ((n : ℝ) / 2) = some (sx, sy, sz) ∧
      sx.dims = [n + 1, n + 1] ∧ sy.dims = [n + 1, n + 1] ∧ sz.dims = [n + 1, n + 1] ∧
      let X := mat (n + 1) sx
      let Y := mat (n + 1) sy
      let Z := mat (n + 1) sz
      X * Y - Y * X = Complex.I • Z ∧ Y * Z - Z * Y = Complex.I • X ∧ Z * X - X * Z = Complex.I • Y ∧
      X * X + Y * Y + Z * Z = ((n : ℂ) / 2 * ((n : ℂ) / 2 + 1)) • (1 : Matrix (Fin (n + 1)) (Fin (n + 1)) ℂ) ∧
      X.conjTranspose = X ∧ Y.conjTranspose = Y ∧ Z.conjTranspose = Z := by
  obtain ⟨sx, sy, sz, e, d1, d2, d3, hx, hy, hz⟩ := spin_mats n h1 h6
  refine ⟨sx, sy, sz, e, d1, d2, d3, ?_⟩
  simp only [hx, hy, hz]
  have cp := comm_pm n
  have czp := comm_zp n
  have czm := comm_zm n
  have hI : Complex.I * Complex.I = -1 := Complex.I_mul_I
  have hXX : ((1 / 2 : ℂ) • (Sp n + Sm n)) * ((1 / 2 : ℂ) • (Sp n + Sm n))
      = (1 / 4 : ℂ) • (Sp n * Sp n + Sp n * Sm n + Sm n * Sp n + Sm n * Sm n) := by
    rw [Matrix.smul_mul, Matrix.mul_smul, smul_smul]
    rw [show (1 / 2 : ℂ) * (1 / 2) = 1 / 4 by norm_num]
    congr 1
    noncomm_ring
  have hYY : ((Complex.I / 2) • (Sm n - Sp n)) * ((Complex.I / 2) • (Sm n - Sp n))
      = (1 / 4 : ℂ) • (Sp n * Sm n + Sm n * Sp n - Sm n * Sm n - Sp n * Sp n) := by
    rw [Matrix.smul_mul, Matrix.mul_smul, smul_smul,
      show Complex.I / 2 * (Complex.I / 2) = (1 / 4 : ℂ) * (-1) by rw [← hI]; ring, mul_smul]
    congr 1
    rw [neg_one_smul]
    noncomm_ring
  have hXY : ((1 / 2 : ℂ) • (Sp n + Sm n)) * ((Complex.I / 2) • (Sm n - Sp n))
      = (Complex.I / 4) • (Sp n * Sm n - Sp n * Sp n + Sm n * Sm n - Sm n * Sp n) := by
    rw [Matrix.smul_mul, Matrix.mul_smul, smul_smul, show (1 / 2 : ℂ) * (Complex.I / 2) = Complex.I / 4 by ring]
    congr 1
    noncomm_ring
  have hYX : ((Complex.I / 2) • (Sm n - Sp n)) * ((1 / 2 : ℂ) • (Sp n + Sm n))
      = (Complex.I / 4) • (Sm n * Sp n + Sm n * Sm n - Sp n * Sp n - Sp n * Sm n) := by
    rw [Matrix.smul_mul, Matrix.mul_smul, smul_smul, show (Complex.I / 2) * (1 / 2 : ℂ) = Complex.I / 4 by ring]
    congr 1
    noncomm_ring
  refine ⟨?_, ?_, ?_, ?_, ?_, ?_, ?_⟩
  · rw [hXY, hYX, ← smul_sub]
    have : Sp n * Sm n - Sp n * Sp n + Sm n * Sm n - Sm n * Sp n
        - (Sm n * Sp n + Sm n * Sm n - Sp n * Sp n - Sp n * Sm n) = (2 : ℂ) • (Sp n * Sm n - Sm n * Sp n) := by
      rw [two_smul]; noncomm_ring
    rw [this, cp, smul_smul, smul_smul]
    congr 1
    ring
  · rw [Matrix.smul_mul, Matrix.mul_smul, ← smul_sub]
    have : (Sm n - Sp n) * Szm n - Szm n * (Sm n - Sp n)
        = -(Szm n * Sm n - Sm n * Szm n) + (Szm n * Sp n - Sp n * Szm n) := by noncomm_ring
    rw [this, czp, czm, neg_neg, smul_smul, add_comm (Sm n)]
    congr 1
    ring
  · rw [Matrix.smul_mul, Matrix.mul_smul, ← smul_sub]
    have : Szm n * (Sp n + Sm n) - (Sp n + Sm n) * Szm n
        = (Szm n * Sp n - Sp n * Szm n) + (Szm n * Sm n - Sm n * Szm n) := by noncomm_ring
    rw [this, czp, czm, smul_smul, show Complex.I * (Complex.I / 2) = -(1 / 2) by rw [← mul_div_assoc, hI]; ring,
      neg_smul, ← smul_neg]
    congr 1
    noncomm_ring
  · rw [hXX, hYY, ← smul_add]
    have : Sp n * Sp n + Sp n * Sm n + Sm n * Sp n + Sm n * Sm n
        + (Sp n * Sm n + Sm n * Sp n - Sm n * Sm n - Sp n * Sp n) = (2 : ℂ) • (Sp n * Sm n + Sm n * Sp n) := by
      rw [two_smul]; noncomm_ring
    rw [this, Sp_Sm, Sm_Sp, Szm_mul]
    ext i j
    by_cases h : i = j
    · subst h
      simp [Szm]
      ring
    · simp [Szm, h]
  · rw [Matrix.conjTranspose_smul, Matrix.conjTranspose_add, Sp_adj, ← Sp_adj, Matrix.conjTranspose_conjTranspose,
      add_comm (Sp n).conjTranspose]
    congr 1
    simp
  · rw [Matrix.conjTranspose_smul, Matrix.conjTranspose_sub, Sp_adj, ← Sp_adj, Matrix.conjTranspose_conjTranspose]
    have : star (Complex.I / 2) = -(Complex.I / 2) := by
      simp [Complex.star_def, neg_div]
    rw [this, neg_smul, ← smul_neg, neg_sub]
  · exact Szm_adj n

/-- **C48**, other values of `s` are rejected. -/
theorem C48_spin_rejects (s : ℝ) (h : s < 1 / 2 ∨ 3 < s) : spinOperators s = none := by
  rw [spinOperators, if_pos]
  rcases h with h | h
  · left; norm_num; linarith
  · right; norm_num; linarith

/-- **C48**, spin 1/2: half the Pauli matrices. -/
theorem C48_spin_half :
    ∃ sx sy sz, spinOperators (1 / 2) = some (sx, sy, sz) ∧
      mat 2 sx = (1 / 2 : ℂ) • mat 2 pauliX ∧ mat 2 sy = (1 / 2 : ℂ) • mat 2 pauliY ∧
      mat 2 sz = (1 / 2 : ℂ) • mat 2 pauliZ := by
  obtain ⟨sx, sy, sz, e, -, -, -, hx, hy, hz⟩ := spin_mats 1 le_rfl (by norm_num)
  have hl : lad 1 0 = 1 := by simp [lad]
  refine ⟨sx, sy, sz, by simpa using e, ?_, ?_, ?_⟩
  · rw [hx]
    congr 1
    ext i j
    fin_cases i <;> fin_cases j <;> simp [Sp, Sm, mat, pauliX, ofStorage, Tensor.flat, hl]
  · rw [hy]
    ext i j
    fin_cases i <;> fin_cases j <;> simp [Sp, Sm, mat, pauliY, ofStorage, Tensor.flat, hl] <;> ring
  · rw [hz]
    ext i j
    fin_cases i <;> fin_cases j <;> simp [Szm, mat, pauliZ, ofStorage, Tensor.flat]
    ring

end MPS.Props
