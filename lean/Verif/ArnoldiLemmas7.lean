import Verif.ArnoldiLemmas6

/-!
# The span of the basis, orthonormality
-/

set_option linter.unusedSectionVars false
set_option linter.unusedSimpArgs false

namespace MPS.Arnoldi
open MPS Tensor Form Minim Obc
variable {ds : List Nat} {b : Basis}

theorem Basis.InSpan.congr {k : Nat} {φ χ : List Nat → ℂ} (h : b.InSpan ds k φ) (e : ∀ s, IsCfg ds s → χ s = φ s) : b.InSpan ds k χ := by
  obtain ⟨y, hy⟩ := h
  exact ⟨y, fun s hs => by rw [e s hs, hy s hs]⟩

theorem Basis.InSpan.mono {k l : Nat} (hkl : k ≤ l) {φ : List Nat → ℂ} (h : b.InSpan ds k φ) : b.InSpan ds l φ := by
  obtain ⟨y, hy⟩ := h
  refine ⟨fun j => if j < k then y j else 0, fun s hs => ?_⟩
  rw [hy s hs]
  beta_reduce
  symm
  rw [← Finset.sum_subset (Finset.range_subset_range.2 hkl)]
  · exact Finset.sum_congr rfl fun j hj => by rw [if_pos (Finset.mem_range.1 hj)]
  · intro j _ hj
    rw [if_neg (fun h => hj (Finset.mem_range.2 h)), zero_mul]

theorem Basis.InSpan.add {k : Nat} {φ χ : List Nat → ℂ} (h : b.InSpan ds k φ) (h' : b.InSpan ds k χ) : b.InSpan ds k (fun s => φ s + χ s) := by
  obtain ⟨y, hy⟩ := h
  obtain ⟨z, hz⟩ := h'
  refine ⟨fun j => y j + z j, fun s hs => ?_⟩
  beta_reduce
  rw [hy s hs, hz s hs, ← Finset.sum_add_distrib]
  exact Finset.sum_congr rfl fun j _ => by ring

theorem Basis.InSpan.smul {k : Nat} {φ : List Nat → ℂ} (a : ℂ) (h : b.InSpan ds k φ) : b.InSpan ds k (fun s => a * φ s) := by
  obtain ⟨y, hy⟩ := h
  refine ⟨fun j => a * y j, fun s hs => ?_⟩
  beta_reduce
  rw [hy s hs, Finset.mul_sum]
  exact Finset.sum_congr rfl fun j _ => by ring

theorem Basis.InSpan.zero (k : Nat) : b.InSpan ds k (fun _ => 0) := ⟨fun _ => 0, fun s _ => by simp⟩

theorem Basis.InSpan.sum {k : Nat} (n : Nat) {φ : Nat → List Nat → ℂ} (h : ∀ j < n, b.InSpan ds k (φ j)) :
    b.InSpan ds k (fun s => ∑ j ∈ Finset.range n, φ j s) := by
  induction n with
  | zero => simpa using Basis.InSpan.zero k
  | succ n ih =>
    simp only [Finset.sum_range_succ]
    exact (ih fun j hj => h j (by omega)).add (h n (by omega))

theorem Basis.InSpan.vec {j k : Nat} (h : j < k) : b.InSpan ds k (b.vec j) := by
  refine ⟨fun i => if i = j then 1 else 0, fun s _ => ?_⟩
  simp [h]

theorem Basis.InSpan.family {φ : List Nat → ℂ} (h : b.InSpan ds b.states.length φ) : ∃ y, ∀ s, IsCfg ds s → φ s = comb b.family y s := by
  obtain ⟨y, hy⟩ := h
  refine ⟨fun i => y i.1, fun s hs => ?_⟩
  rw [hy s hs, Finset.sum_range]
  rfl

/-- the operator maps the span into a larger one, if it does so for the vectors of the basis -/
theorem Basis.InSpan.act {H : List (Tensor ℂ)} {k l : Nat} (hv : ∀ j < k, b.InSpan ds l (Arnoldi.act ds H (b.vec j))) {φ : List Nat → ℂ} (h : b.InSpan ds k φ) :
    b.InSpan ds l (Arnoldi.act ds H φ) := by
  obtain ⟨y, hy⟩ := h
  have e : ∀ s, IsCfg ds s → Arnoldi.act ds H φ s = ∑ j ∈ Finset.range k, y j * Arnoldi.act ds H (b.vec j) s := by
    intro s _
    rw [act_congr hy s]
    unfold Arnoldi.act actOp
    simp only [Finset.mul_sum, ← sumCfg_mul_left]
    rw [← sumCfg_sum]
    exact sumCfg_congr fun t _ => Finset.sum_congr rfl fun j _ => by ring
  exact (Basis.InSpan.sum k fun j hj => (hv j hj).smul (y j)).congr e

section
variable {H psi : List (Tensor ℂ)} {nv : Nat}

/-- from the recurrence -/
theorem act_of_rest {j : Nat} {χ : List Nat → ℂ} {l : Nat} (h : b.InSpan ds l χ) (hj : j < l) (e : ∀ s, IsCfg ds s → b.rest ds H j s = χ s) :
    b.InSpan ds l (Arnoldi.act ds H (b.vec j)) := by
  have h1 : b.InSpan ds l fun s => (χ s + b.Heff.get [j, j] * b.vec j s) + (if j = 0 then 0 else b.Heff.get [j, j - 1]) * b.vec (j - 1) s :=
    (h.add ((Basis.InSpan.vec hj).smul _)).add ((Basis.InSpan.vec (by omega)).smul _)
  refine h1.congr fun s hs => ?_
  rw [← e s hs]
  unfold Basis.rest
  split_ifs <;> ring

theorem Krylov.act_vec (hK : Krylov ds H psi nv b) (hf : Faithful ds psi b) (hx : b.exact) {j : Nat} (hj : j + 1 < b.states.length) :
    b.InSpan ds (j + 2) (Arnoldi.act ds H (b.vec j)) := by
  obtain ⟨r, -, hr⟩ := hK.step hf hx j hj
  exact act_of_rest ((Basis.InSpan.vec (show j + 1 < j + 2 by omega)).smul _) (by omega) hr

/-- the Krylov vectors are in the span -/
theorem Krylov.span (hK : Krylov ds H psi nv b) (hf : Faithful ds psi b) (hx : b.exact) :
    ∀ k < b.states.length, b.InSpan ds (k + 1) ((Arnoldi.act ds H)^[k] (amp psi))
  | 0, _ => by
    refine (Basis.InSpan.vec (j := 0) (show 0 < 0 + 1 by omega)).congr fun s hs => ?_
    rw [hK.first hf s hs]; rfl
  | k + 1, hk => by
    rw [Function.iterate_succ_apply']
    exact Basis.InSpan.act (fun j hj => Basis.InSpan.mono (by omega) (hK.act_vec hf hx (by omega))) (hK.span hf hx k (by omega))

theorem inner_lin {ψ : List Nat → ℂ} {χ1 χ2 χ3 : List Nat → ℂ} (a b c : ℂ) :
    MPS.inner ds ψ (fun s => a * χ1 s + b * χ2 s + c * χ3 s) = a * MPS.inner ds ψ χ1 + b * MPS.inner ds ψ χ2 + c * MPS.inner ds ψ χ3 := by
  unfold MPS.inner
  simp only [← sumCfg_mul_left]
  rw [← sumCfg_add, ← sumCfg_add]
  exact sumCfg_congr fun s _ => by ring

/-- the recurrence, solved for the action of the operator -/
theorem act_eq {j : Nat} {r : ℝ} (e : ∀ s, IsCfg ds s → b.rest ds H j s = (r : ℂ) * b.vec (j + 1) s) (φ : List Nat → ℂ) :
    MPS.inner ds φ (Arnoldi.act ds H (b.vec j)) = (r : ℂ) * MPS.inner ds φ (b.vec (j + 1)) + b.Heff.get [j, j] * MPS.inner ds φ (b.vec j) +
      (if j = 0 then 0 else b.Heff.get [j, j - 1]) * MPS.inner ds φ (b.vec (j - 1)) := by
  rw [← inner_lin]
  refine inner_congr (fun _ _ => rfl) fun s hs => ?_
  rw [← e s hs]
  unfold Basis.rest
  split_ifs <;> ring

/-- the vectors are orthonormal, if they are exact: the three-term recurrence is enough -/
theorem Krylov.ortho (hK : Krylov ds H psi nv b) (hH : Minim.Hermitian ds H) (hf : Faithful ds psi b) (hx : b.exact) :
    ∀ n < b.states.length, ∀ i < n, MPS.inner ds (b.vec i) (b.vec n) = 0 := by
  intro n
  induction n using Nat.strong_induction_on with
  | _ n ih =>
  intro hn i hi
  obtain ⟨n, rfl⟩ : ∃ k, n = k + 1 := ⟨n - 1, by omega⟩
  have hone : ∀ j < b.states.length, MPS.inner ds (b.vec j) (b.vec j) = 1 := fun j hj => inner_unit (hK.unit hf j hj)
  have hsym : ∀ i j, i < n + 1 → j < n + 1 → i ≠ j → MPS.inner ds (b.vec i) (b.vec j) = 0 := by
    intro i j h1 h2 h3
    rcases Nat.lt_or_gt_of_ne h3 with h | h
    · exact ih j h2 (by omega) i h
    · rw [← Props.inner_star', ih i h1 (by omega) j h, star_zero]
  obtain ⟨r, hr, e⟩ := hK.step hf hx n hn
  have key := act_eq e (b.vec i)
  have hr0 : (r : ℂ) ≠ 0 := by exact_mod_cast hr.ne'
  suffices h0 : MPS.inner ds (b.vec i) (Arnoldi.act ds H (b.vec n)) = b.Heff.get [n, n] * MPS.inner ds (b.vec i) (b.vec n) +
      (if n = 0 then 0 else b.Heff.get [n, n - 1]) * MPS.inner ds (b.vec i) (b.vec (n - 1)) by
    rw [h0, add_assoc] at key
    have : (r : ℂ) * MPS.inner ds (b.vec i) (b.vec (n + 1)) = 0 := by
      have := key
      linear_combination -this
    exact (mul_eq_zero.1 this).resolve_left hr0
  rcases Nat.lt_or_ge i n with hin | hin
  · rw [hsym i n (by omega) (by omega) (by omega), mul_zero, zero_add, if_neg (by omega)]
    rcases Nat.lt_or_ge i (n - 1) with hi1 | hi1
    · rw [hsym i (n - 1) (by omega) (by omega) (by omega), mul_zero, inner_act hH, ← Props.inner_star']
      obtain ⟨r', -, e'⟩ := hK.step hf hx i (by omega)
      rw [act_eq e' (b.vec n), hsym n (i + 1) (by omega) (by omega) (by omega), hsym n i (by omega) (by omega) (by omega),
        hsym n (i - 1) (by omega) (by omega) (by omega)]
      simp
    · obtain rfl : i = n - 1 := by omega
      obtain ⟨r', -, e'⟩ := hK.step hf hx (n - 1) (by omega)
      rw [hone _ (by omega), mul_one, hK.ham hf n (by omega) (n - 1) (by omega)]
      rw [inner_act hH, ← Props.inner_star', act_eq e' (b.vec n), show n - 1 + 1 = n by omega, hone n (by omega), hsym n (n - 1) (by omega) (by omega) (by omega),
        hsym n (n - 1 - 1) (by omega) (by omega) (by omega)]
      simp
  · obtain rfl : i = n := by omega
    rw [hK.ham hf i (by omega) i (by omega), hone i (by omega), mul_one]
    by_cases hi0 : i = 0
    · simp [hi0]
    · rw [hsym i (i - 1) (by omega) (by omega) (by omega)]
      simp

end
end MPS.Arnoldi
