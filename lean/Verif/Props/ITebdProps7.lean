import Verif.Props.ITebdProps6

/-!
# C89: expected values in product states of the infinite chain
-/

set_option linter.unusedSectionVars false
set_option linter.unusedSimpArgs false

namespace MPS.Props
open MPS Tensor ITebd
variable {K : Type} [RCLike K]

/-- `⟨x|O|x⟩`, the operator `O` in the vector `x` of dimension `n` -/
noncomputable def oneSite (n : Nat) (x : Nat → K) (O : Tensor K) : K :=
  ∑ i ∈ Finset.range n, ∑ j ∈ Finset.range n, star (x i) * O.get [i, j] * x j

/-- a window of a product state: the form of a tensor product is the product of the one-site forms -/
theorem prod_form (psi : State K) (x : Int → Nat → K) (f : Int → Tensor K) : ∀ (n : Nat) (p : Int),
    MPS.inner (winDims psi p n) (fun s => ∏ k ∈ Finset.range n, x (p + k) (s.getD k 0))
      (actOp (winDims psi p n) (siteOps p n f) (fun s => ∏ k ∈ Finset.range n, x (p + k) (s.getD k 0))) =
    ∏ k ∈ Finset.range n, oneSite ((psi.matrix (p + k)).dim 1) (x (p + k)) (f (p + k)) := by
  intro n
  induction n with
  | zero => intro p; simp [winDims, MPS.inner, actOp, siteOps, tensorOp]
  | succ n ih =>
    intro p
    have hsplit : ∀ (g : Nat → K), ∏ k ∈ Finset.range (n + 1), g k = g 0 * ∏ k ∈ Finset.range n, g (k + 1) := by
      intro g; rw [Finset.prod_range_succ', mul_comm]
    have hcast : ∀ k : Nat, p + ((k + 1 : Nat) : Int) = p + 1 + k := by intro k; push_cast; ring
    have h1 : ∀ (i : Nat) (s : List Nat), ∏ k ∈ Finset.range (n + 1), x (p + k) ((i :: s).getD k 0) =
        x p i * ∏ k ∈ Finset.range n, x (p + 1 + k) (s.getD k 0) := by
      intro i s
      rw [hsplit]
      simp only [List.getD_cons_zero, List.getD_cons_succ, hcast, Nat.cast_zero, add_zero]
    have h2 : ∀ (i j : Nat) (s t : List Nat), siteOps p (n + 1) f (i :: s) (j :: t) = (f p).get [i, j] * siteOps (p + 1) n f s t := by
      intro i j s t
      unfold siteOps
      rw [tensorOp_succ]
      simp only [hcast, Nat.cast_zero, add_zero]
    rw [hsplit]
    simp only [hcast, Nat.cast_zero, add_zero]
    rw [← ih (p + 1), winDims_succ]
    unfold MPS.inner actOp oneSite
    rw [sumCfg_cons, Finset.sum_mul]
    refine Finset.sum_congr rfl fun i _ => ?_
    rw [Finset.sum_mul]
    simp only [sumCfg_cons, h1, h2]
    rw [Finset.sum_congr rfl fun j _ => (sumCfg_mul_left _ _ _).symm, ← sumCfg_sum]
    refine sumCfg_congr fun s _ => ?_
    rw [Finset.mul_sum]
    refine Finset.sum_congr rfl fun j _ => ?_
    rw [show ∀ a b c : K, a * (b * c) = (a * b) * c from fun a b c => (mul_assoc a b c).symm, ← sumCfg_mul_left, ← sumCfg_mul_left]
    refine sumCfg_congr fun t _ => ?_
    rw [star_mul']
    ring

theorem oneSite_eye {n : Nat} {x : Nat → K} (h : ∑ i ∈ Finset.range n, x i * star (x i) = 1) : oneSite n x (eye n) = 1 := by
  rw [← h]
  unfold oneSite
  refine Finset.sum_congr rfl fun i hi => ?_
  rw [Finset.sum_eq_single i]
  · simp [eye, mul_comm]
  · intro j _ hj; simp [eye, Ne.symm hj]
  · intro h; exact absurd hi h

/-- C89, expected values: in a product state the string order is the product of the one-site values -/
theorem C89_string_order {A B : Tensor K} {d e : Nat} (hA : A.dims = [d]) (hB : B.dims = [e]) (hA0 : 0 < vecSq A d) (hB0 : 0 < vecSq B e)
    {psi : State K} (hpsi : State.product A B = some psi) (canon : State K → State K) {Oi Om Oj : Tensor K} {i j : Int} (hij : i < j)
    (hi : Acts psi i Oi) (hj : Acts psi j Oj) (hm : ∀ k, i < k → k < j → Acts psi k Om) :
    let value := fun (O : Tensor K) (k : Int) =>
      oneSite (if k % 2 = 1 then e else d) (siteVec A B d e k) (orOne (if k % 2 = 1 then e else d) O)
    stringOrder canon psi Oi i Om Oj j = value Oi i * (∏ k ∈ Finset.range (j - i - 1).toNat, value Om (i + 1 + k)) * value Oj j := by
  intro value
  obtain ⟨psi', h1, -, h2, h3, h4, h5, h6, h7, h8⟩ := C89_product hA hB hA0 hB0
  obtain rfl : psi' = psi := by rw [h1] at hpsi; exact Option.some.inj hpsi
  have hu : usedState canon psi' = psi' := by unfold usedState; rw [h3, if_pos rfl]
  have key := C85_string_order_partial canon psi' (by rw [hu]; exact h2) (by rw [hu]; exact h4) (by rw [hu]; exact h5) hij
    (by rw [hu]; exact hi) (by rw [hu]; exact hj) (by rw [hu]; exact hm) i (j - i + 1).toNat (le_refl _) (by omega)
  rw [key, hu]
  have hform : ∀ f : Int → Tensor K, winForm psi' i (j - i + 1).toNat (siteOps i (j - i + 1).toNat f) =
      ∏ k ∈ Finset.range (j - i + 1).toNat, oneSite ((psi'.matrix (i + k)).dim 1) (siteVec A B d e (i + k)) (f (i + k)) := by
    intro f
    rw [← prod_form psi' (siteVec A B d e) f]
    unfold winForm
    rw [h6, h6, Finset.sum_range_one, Finset.sum_range_one]
    unfold MPS.inner actOp
    refine sumCfg_congr fun s hs => ?_
    rw [h8 _ _ s hs]
    congr 1
    exact sumCfg_congr fun t ht => by rw [h8 _ _ t ht]
  unfold winExpect
  have hone : ∏ k ∈ Finset.range (j - i + 1).toNat, oneSite ((psi'.matrix (i + k)).dim 1) (siteVec A B d e (i + k)) (ones psi' (i + k)) = 1 :=
    Finset.prod_eq_one fun k _ => by unfold ones; rw [h7]; exact oneSite_eye (siteVec_norm hA0 hB0 _)
  rw [hform, hform, hone, div_one]
  · have e1 : (j - i + 1).toNat = (j - i - 1).toNat + 1 + 1 := by omega
    rw [e1, Finset.prod_range_succ, Finset.prod_range_succ']
    have ej : i + (((j - i - 1).toNat + 1 : Nat) : Int) = j := by push_cast; omega
    rw [ej, Nat.cast_zero, add_zero, mul_comm (∏ k ∈ _, _)]
    unfold placed
    rw [if_pos rfl, if_neg (by omega), if_pos rfl, h7, h7]
    refine congrArg₂ (· * ·) (congrArg₂ (· * ·) rfl (Finset.prod_congr rfl fun k hk => ?_)) rfl
    have hk := Finset.mem_range.1 hk
    rw [if_neg (by omega), if_neg (by push_cast; omega), if_pos (by push_cast; omega), h7,
      show i + ((k + 1 : Nat) : Int) = i + 1 + k by push_cast; ring]

/-- C89, one operator -/
theorem C89_expected {A B : Tensor K} {d e : Nat} (hA : A.dims = [d]) (hB : B.dims = [e]) (hA0 : 0 < vecSq A d) (hB0 : 0 < vecSq B e)
    {psi : State K} (hpsi : State.product A B = some psi) (canon : State K → State K) {Op : Tensor K} (site : Int) (ho : Acts psi site Op) :
    ITebd.expected1 canon psi Op site =
      oneSite (if site % 2 = 1 then e else d) (siteVec A B d e site) (orOne (if site % 2 = 1 then e else d) Op) := by
  obtain ⟨psi', h1, -, h2, h3, h4, h5, h6, h7, h8⟩ := C89_product hA hB hA0 hB0
  obtain rfl : psi' = psi := by rw [h1] at hpsi; exact Option.some.inj hpsi
  have hu : usedState canon psi' = psi' := by unfold usedState; rw [h3, if_pos rfl]
  have key := C85_expected_partial canon psi' (by rw [hu]; exact h2) (by rw [hu]; exact h4) (by rw [hu]; exact h5) site
    (by rw [hu]; exact ho) site 1 (le_refl _) (by omega)
  rw [key, hu]
  have hform : ∀ f : Int → Tensor K, winForm psi' site 1 (siteOps site 1 f) =
      oneSite ((psi'.matrix site).dim 1) (siteVec A B d e site) (f site) := by
    intro f
    have := prod_form psi' (siteVec A B d e) f 1 site
    rw [Finset.prod_range_one, Nat.cast_zero, add_zero] at this
    rw [← this]
    unfold winForm
    rw [h6, h6, Finset.sum_range_one, Finset.sum_range_one]
    unfold MPS.inner actOp
    refine sumCfg_congr fun s hs => ?_
    rw [h8 _ _ s hs]
    congr 1
    exact sumCfg_congr fun t ht => by rw [h8 _ _ t ht]
  unfold winExpect
  rw [hform, hform, if_pos rfl, h7]
  unfold ones
  rw [h7, oneSite_eye (siteVec_norm hA0 hB0 _), div_one]

/-- C89 is about something: sites alternating between `(3,4)/5` and `(0,1)`; the value of `S_z` on an even site -/
theorem C89_example (canon : State ℝ → State ℝ) : ∃ psi, State.product (⟨[2], fun i => if i = [0] then 3 else 4⟩ : Tensor ℝ) ⟨[2], fun i => if i = [0] then 0 else 1⟩ = some psi ∧
    ITebd.expected1 canon psi ⟨[2, 2], fun i => if i = [0, 0] then 1 else if i = [1, 1] then -1 else 0⟩ 4 = -7 / 25 := by
  set A : Tensor ℝ := ⟨[2], fun i => if i = [0] then 3 else 4⟩ with hA
  set B : Tensor ℝ := ⟨[2], fun i => if i = [0] then 0 else 1⟩ with hB
  have vA : vecSq A 2 = 25 := by simp [vecSq, hA, Finset.sum_range_succ]; norm_num
  have vB : vecSq B 2 = 1 := by simp [vecSq, hB, Finset.sum_range_succ]
  obtain ⟨psi, h1, -, h2, h3, h4, h5, h6, h7, h8⟩ := C89_product (A := A) (B := B) (d := 2) (e := 2) rfl rfl (by rw [vA]; norm_num) (by rw [vB]; norm_num)
  refine ⟨psi, h1, ?_⟩
  rw [C89_expected (A := A) (B := B) (d := 2) (e := 2) rfl rfl (by rw [vA]; norm_num) (by rw [vB]; norm_num) h1 canon 4
    (Or.inr (by rw [h7]; rfl))]
  have s25 : Real.sqrt 25 = 5 := by rw [show (25 : ℝ) = 5 ^ 2 by norm_num]; exact Real.sqrt_sq (by norm_num)
  have hx : ∀ i, siteVec A B 2 2 4 i = 1 / 5 * A.get [i] := by
    intro i
    unfold siteVec
    rw [if_neg (by decide), vA, s25]
    rfl
  unfold oneSite orOne
  rw [if_neg (by decide)]
  simp only [hx]
  simp [hA, Finset.sum_range_succ, isEmpty, size]
  norm_num

end MPS.Props
