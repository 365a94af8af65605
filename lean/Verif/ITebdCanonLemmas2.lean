import Verif.ITebdCanonLemmas

/-!
# From tensors to matrices: cells, transfer operators, orthogonal bases
-/

set_option linter.unusedSectionVars false
set_option linter.unusedSimpArgs false

namespace MPS.ITebd
open MPS Tensor
open scoped Matrix
variable {K : Type} [RCLike K]

/-- a matrix of numbers -/
def mat (D E : Nat) (f : Nat → Nat → K) : Matrix (Fin D) (Fin E) K := fun i j => f i j

theorem mat_mul (D E F : Nat) (f g : Nat → Nat → K) :
    mat D E f * mat E F g = mat D F fun i j => ∑ k ∈ Finset.range E, f i k * g k j := by
  ext i j
  simp only [Matrix.mul_apply, mat]
  rw [← Fin.sum_univ_eq_sum_range (fun k => f i k * g k j)]

theorem mat_congr {D E : Nat} {f g : Nat → Nat → K} (h : ∀ i < D, ∀ j < E, f i j = g i j) : mat D E f = mat D E g := by
  ext i j; exact h i i.2 j j.2

theorem mat_eq {D E : Nat} {f g : Nat → Nat → K} (h : mat D E f = mat D E g) : ∀ i < D, ∀ j < E, f i j = g i j :=
  fun i hi j hj => congrFun (congrFun h ⟨i, hi⟩) ⟨j, hj⟩

theorem mat_one (D : Nat) : mat D D (fun i j => if i = j then (1 : K) else 0) = 1 := by
  ext i j
  simp only [mat, Matrix.one_apply, Fin.ext_iff]

theorem mat_diag (D : Nat) (v : Nat → K) : mat D D (fun i j => if i = j then v i else 0) = Matrix.diagonal fun i : Fin D => v i := by
  ext i j
  simp only [mat, Matrix.diagonal_apply, Fin.ext_iff]

theorem mat_H (D E : Nat) (f : Nat → Nat → K) : (mat D E f)ᴴ = mat E D fun i j => star (f j i) := by
  ext i j; rfl

theorem mat_T (D E : Nat) (f : Nat → Nat → K) : (mat D E f)ᵀ = mat E D fun i j => f j i := by
  ext i j; rfl

theorem mat_mul_diag (D E : Nat) (f : Nat → Nat → K) (v : Nat → K) :
    mat D E f * Matrix.diagonal (fun i : Fin E => v i) = mat D E fun i j => f i j * v j := by
  ext i j; simp [mat, Matrix.mul_diagonal]

theorem diag_mul_mat (D E : Nat) (f : Nat → Nat → K) (v : Nat → K) :
    Matrix.diagonal (fun i : Fin D => v i) * mat D E f = mat D E fun i j => v i * f i j := by
  ext i j; simp [mat, Matrix.diagonal_mul]

theorem mat_sum {D E : Nat} {ι : Type} (S : Finset ι) (f : ι → Nat → Nat → K) :
    ∑ s ∈ S, mat D E (f s) = mat D E fun i j => ∑ s ∈ S, f s i j := by
  ext i j
  rw [Matrix.sum_apply]; rfl

/-- the matrix of one index of a tensor -/
def slice (D E : Nat) (Q : Tensor K) (i : Nat) : Matrix (Fin D) (Fin E) K := mat D E fun a b => Q.get [a, i, b]

theorem opNone {d : Nat} : OpOk d (none : Option (Tensor K)) := fun o h => by cases h

/-! ### transfer operators -/

theorem step_right {M Q : Tensor K} {D d E : Nat} (hM : M.dims = [1, 1, D, D]) (hQ : Q.dims = [D, d, E]) :
    (propRight4 M Q Q none).dims = [1, 1, E, E] ∧
    mat E E (fun x y => (propRight4 M Q Q none).get [0, 0, x, y]) =
      ∑ i ∈ Finset.range d, (slice D E Q i)ᴴ * mat D D (fun x y => M.get [0, 0, x, y]) * slice D E Q i := by
  refine ⟨propRight4_dims hM hQ hQ opNone, ?_⟩
  rw [mat_congr fun x hx y hy => propRight4_get (op := none) hM hQ hQ opNone Nat.one_pos Nat.one_pos hx hy]
  simp only [slice, mat_H, mat_mul, mat_sum, actT]
  refine mat_congr fun x _ y _ => ?_
  simp only [Finset.mul_sum, Finset.sum_mul]
  rw [Finset.sum_comm, Finset.sum_congr rfl fun y' _ => Finset.sum_comm, Finset.sum_comm]
  exact Finset.sum_congr rfl fun i _ => Finset.sum_congr rfl fun b _ => Finset.sum_congr rfl fun a _ => by ring

theorem step_left {M Q : Tensor K} {D d E : Nat} (hM : M.dims = [E, E, 1, 1]) (hQ : Q.dims = [D, d, E]) :
    (propLeft4 M Q Q none).dims = [D, D, 1, 1] ∧
    mat D D (fun x y => (propLeft4 M Q Q none).get [x, y, 0, 0]) =
      ∑ i ∈ Finset.range d, ((slice D E Q i)ᴴ)ᵀ * mat E E (fun x y => M.get [x, y, 0, 0]) * (slice D E Q i)ᵀ := by
  refine ⟨propLeft4_dims hM hQ hQ opNone, ?_⟩
  rw [mat_congr fun x hx y hy => propLeft4_get (op := none) hM hQ hQ opNone hx hy Nat.one_pos Nat.one_pos]
  simp only [slice, mat_H, mat_T, mat_mul, mat_sum, actT]
  refine mat_congr fun x _ y _ => ?_
  simp only [Finset.mul_sum, Finset.sum_mul]
  rw [Finset.sum_comm, Finset.sum_congr rfl fun y' _ => Finset.sum_comm, Finset.sum_comm]
  exact Finset.sum_congr rfl fun i _ => Finset.sum_congr rfl fun b _ => Finset.sum_congr rfl fun a _ => by ring

theorem px4_right {A B : Tensor K} {D d E e : Nat} (hD : 0 < D) (hE : 0 < E) (hA : A.dims = [D, d, E]) (hB : B.dims = [E, e, D])
    {v : Tensor K} (hv : v.dims = [D * D]) :
    mat D D (fun x y => (px4 1 A B D v).get [x + D * y]) = ∑ i ∈ Finset.range d, ∑ j ∈ Finset.range e,
      (slice D E A i * slice E D B j)ᴴ * mat D D (fun x y => v.get [x + D * y]) * (slice D E A i * slice E D B j) := by
  set w := reshape v [D, D] with hw
  have hwe : w.isEmpty = false := by simp [hw, isEmpty, size]; omega
  have e1 : propMatrix w 1 A A none = propRight4 (reshape w [1, 1, D, D]) A A none := by
    simp only [propMatrix, propRight, hwe, Bool.false_eq_true, if_false]
    simp [hw, rank, dim, nrm]
  set M1 := propRight4 (reshape w [1, 1, D, D]) A A none with hM1
  obtain ⟨d1, s1⟩ := step_right (M := reshape w [1, 1, D, D]) (Q := A) (d := d) (E := E) (D := D) rfl hA
  rw [← hM1] at d1 s1
  have hMe : M1.isEmpty = false := by simp [isEmpty, size, d1]; omega
  have e2 : propMatrix M1 1 B B none = propRight4 M1 B B none := by
    simp [propMatrix, propRight, hMe, rank, d1]
  obtain ⟨d2, s2⟩ := step_right (M := M1) (Q := B) (d := e) (E := D) (D := E) d1 hB
  have hw0 : mat D D (fun x y => (reshape w [1, 1, D, D]).get [0, 0, x, y]) = mat D D (fun x y => v.get [x + D * y]) := by
    refine mat_congr fun x hx y hy => ?_
    have h1 : (reshape w [1, 1, D, D]).get [0, 0, x, y] = w.get [x, y] := by
      apply reshape_get
      · rw [hw, reshape_dims]; exact .cons hx (.cons hy .nil)
      · rw [hw, reshape_dims]; simp only [flat]; ring
    rw [h1, hw]
    apply reshape_get
    · rw [hv]; exact .cons (add_mul_lt hx hy) .nil
    · rw [hv]; simp only [flat]; ring
  have hout : mat D D (fun x y => (px4 1 A B D v).get [x + D * y]) = mat D D (fun x y => (propRight4 M1 B B none).get [0, 0, x, y]) := by
    refine mat_congr fun x hx y hy => ?_
    unfold px4
    rw [← hw, e1, e2]
    apply reshape_get
    · rw [d2]; exact .cons Nat.one_pos (.cons Nat.one_pos (.cons hx (.cons hy .nil)))
    · rw [d2]; simp only [flat]; ring
  rw [hout, s2, s1, hw0]
  rw [Finset.sum_congr rfl fun j _ => by rw [Matrix.mul_sum, Matrix.sum_mul], Finset.sum_comm]
  refine Finset.sum_congr rfl fun i _ => Finset.sum_congr rfl fun j _ => ?_
  rw [Matrix.conjTranspose_mul]
  simp only [Matrix.mul_assoc]

theorem px4_left {A B : Tensor K} {D d E e : Nat} (hD : 0 < D) (hE : 0 < E) (hA : A.dims = [D, d, E]) (hB : B.dims = [E, e, D])
    {v : Tensor K} (hv : v.dims = [D * D]) :
    mat D D (fun x y => (px4 (-1) B A D v).get [x + D * y]) = ∑ i ∈ Finset.range d, ∑ j ∈ Finset.range e,
      ((slice D E A i * slice E D B j)ᴴ)ᵀ * mat D D (fun x y => v.get [x + D * y]) * (slice D E A i * slice E D B j)ᵀ := by
  set w := reshape v [D, D] with hw
  have hwe : w.isEmpty = false := by simp [hw, isEmpty, size]; omega
  have e1 : propMatrix w (-1) B B none = propLeft4 (reshape w [D, D, 1, 1]) B B none := by
    simp only [propMatrix, propLeft, hwe, Bool.false_eq_true, if_false]
    simp [hw, rank, dim, nrm]
  set M1 := propLeft4 (reshape w [D, D, 1, 1]) B B none with hM1
  obtain ⟨d1, s1⟩ := step_left (M := reshape w [D, D, 1, 1]) (Q := B) (d := e) (E := D) (D := E) rfl hB
  rw [← hM1] at d1 s1
  have hMe : M1.isEmpty = false := by simp [isEmpty, size, d1]; omega
  have e2 : propMatrix M1 (-1) A A none = propLeft4 M1 A A none := by
    simp [propMatrix, propLeft, hMe, rank, d1]
  obtain ⟨d2, s2⟩ := step_left (M := M1) (Q := A) (d := d) (E := E) (D := D) d1 hA
  have hw0 : mat D D (fun x y => (reshape w [D, D, 1, 1]).get [x, y, 0, 0]) = mat D D (fun x y => v.get [x + D * y]) := by
    refine mat_congr fun x hx y hy => ?_
    have h1 : (reshape w [D, D, 1, 1]).get [x, y, 0, 0] = w.get [x, y] := by
      apply reshape_get
      · rw [hw, reshape_dims]; exact .cons hx (.cons hy .nil)
      · rw [hw, reshape_dims]; simp only [flat]
    rw [h1, hw]
    apply reshape_get
    · rw [hv]; exact .cons (add_mul_lt hx hy) .nil
    · rw [hv]; simp only [flat]; ring
  have hout : mat D D (fun x y => (px4 (-1) B A D v).get [x + D * y]) = mat D D (fun x y => (propLeft4 M1 A A none).get [x, y, 0, 0]) := by
    refine mat_congr fun x hx y hy => ?_
    unfold px4
    rw [← hw, e1, e2]
    apply reshape_get
    · rw [d2]; exact .cons hx (.cons hy (.cons Nat.one_pos (.cons Nat.one_pos .nil)))
    · rw [d2]; simp only [flat]; ring
  rw [hout, s2, s1, hw0]
  refine Finset.sum_congr rfl fun i _ => ?_
  rw [Matrix.mul_sum, Matrix.sum_mul]
  refine Finset.sum_congr rfl fun j _ => ?_
  rw [Matrix.conjTranspose_mul, Matrix.transpose_mul, Matrix.transpose_mul]
  simp only [Matrix.mul_assoc]

/-! ### orthogonal bases -/

theorem ortho_spec {eigSym : Tensor K → SymRes K} (hg : GoodEigSym eigSym) {V : Tensor K} {n : Nat} (hV : V.dims = [n, n])
    (hh : ∀ i < n, ∀ j < n, star (V.get [i, j]) = V.get [j, i]) {ε : ℝ} (hε : ε = 1 ∨ ε = -1)
    (hpos : ∀ x : Nat → K, (∃ i < n, x i ≠ 0) →
      0 < ε * RCLike.re (∑ i ∈ Finset.range n, ∑ j ∈ Finset.range n, star (x i) * V.get [i, j] * x j)) :
    (orthoBasis eigSym V).1.dims = [n, n] ∧ (orthoBasis eigSym V).2.dims = [n, n] ∧
    mat n n (fun i j => (orthoBasis eigSym V).1.get [i, j]) * mat n n (fun i j => (orthoBasis eigSym V).2.get [i, j]) = 1 ∧
    mat n n (fun i j => (orthoBasis eigSym V).1.get [i, j]) * (mat n n (fun i j => (orthoBasis eigSym V).1.get [i, j]))ᴴ =
      (ε : K) • mat n n (fun i j => V.get [i, j]) := by
  obtain ⟨r1, r2, r3, r4⟩ := hg V n hV hh
  set r := eigSym V with hr
  set Rm := mat n n (fun i j => r.R.get [i, j]) with hRm
  have hR1 : Rmᴴ * Rm = 1 := by
    rw [hRm, mat_H, mat_mul, ← mat_one]
    exact mat_congr fun i hi j hj => r4 i hi j hj
  have hR2 : Rm * Rmᴴ = 1 := mul_eq_one_comm.1 hR1
  have hdec : Rm * Matrix.diagonal (fun i : Fin n => ((r.s.getD i 0 : ℝ) : K)) * Rmᴴ = mat n n fun i j => V.get [i, j] := by
    rw [hRm, mat_mul_diag n n _ (fun k => ((r.s.getD k 0 : ℝ) : K)), mat_H, mat_mul]
    exact mat_congr fun i hi j hj => r3 i hi j hj
  -- the eigenvalues have the sign `ε`
  have hs : ∀ k < n, 0 < ε * r.s.getD k 0 := by
    intro k hk
    have h1 : Rmᴴ * (mat n n fun i j => V.get [i, j]) * Rm = Matrix.diagonal (fun i : Fin n => ((r.s.getD i 0 : ℝ) : K)) := by
      rw [← hdec]
      calc Rmᴴ * (Rm * Matrix.diagonal (fun i : Fin n => ((r.s.getD i 0 : ℝ) : K)) * Rmᴴ) * Rm
          = (Rmᴴ * Rm) * Matrix.diagonal (fun i : Fin n => ((r.s.getD i 0 : ℝ) : K)) * (Rmᴴ * Rm) := by simp only [Matrix.mul_assoc]
        _ = _ := by rw [hR1, Matrix.mul_one, Matrix.one_mul]
    rw [hRm, mat_H, mat_mul, mat_mul, ← mat_diag n (fun k => ((r.s.getD k 0 : ℝ) : K))] at h1
    have h2 := mat_eq h1 k hk k hk
    simp only [if_true] at h2
    have h3 : ∑ i ∈ Finset.range n, ∑ j ∈ Finset.range n, star (r.R.get [i, k]) * V.get [i, j] * r.R.get [j, k] = ((r.s.getD k 0 : ℝ) : K) := by
      rw [← h2, Finset.sum_comm]
      exact Finset.sum_congr rfl fun j _ => by rw [Finset.sum_mul]
    have hne : ∃ i < n, r.R.get [i, k] ≠ 0 := by
      by_contra hc
      push Not at hc
      have := r4 k hk k hk
      rw [Finset.sum_eq_zero (fun i hi => by rw [hc i (Finset.mem_range.1 hi)]; simp)] at this
      simp at this
    have h4 := hpos (fun i => r.R.get [i, k]) hne
    rw [h3, RCLike.ofReal_re] at h4
    exact h4
  have habs : ∀ k < n, |r.s.getD k 0| = ε * r.s.getD k 0 := by
    intro k hk
    have := hs k hk
    rcases hε with h | h
    · subst h; rw [one_mul] at this ⊢; exact abs_of_pos this
    · subst h; rw [abs_of_neg (by linarith)]; ring
  have hq : ∀ k < n, 0 < Real.sqrt |r.s.getD k 0| := fun k hk => Real.sqrt_pos.2 (by rw [habs k hk]; exact hs k hk)
  have hvec : ∀ k < n, ((vecOf (r.s.map fun x => Real.sqrt |x|) : Tensor K)).get [k] = ((Real.sqrt |r.s.getD k 0| : ℝ) : K) := by
    intro k hk
    simp [vecOf, List.getD, r2, hk]
  have hvec2 : ∀ k < n, ((vecOf ((r.s.map fun x => Real.sqrt |x|).map fun x => 1 / x) : Tensor K)).get [k] =
      ((1 / Real.sqrt |r.s.getD k 0| : ℝ) : K) := by
    intro k hk
    simp [vecOf, List.getD, r2, hk]
  have hU : mat n n (fun i j => (orthoBasis eigSym V).1.get [i, j]) =
      Rm * Matrix.diagonal (fun i : Fin n => ((Real.sqrt |r.s.getD i 0| : ℝ) : K)) := by
    rw [hRm, mat_mul_diag n n _ (fun k => ((Real.sqrt |r.s.getD k 0| : ℝ) : K))]
    refine mat_congr fun i hi j hj => ?_
    rw [← hvec j hj]
    simp [orthoBasis, ← hr, scale, r1, nrm]
  have hUi : mat n n (fun i j => (orthoBasis eigSym V).2.get [i, j]) =
      Matrix.diagonal (fun i : Fin n => ((1 / Real.sqrt |r.s.getD i 0| : ℝ) : K)) * Rmᴴ := by
    rw [hRm, mat_H, diag_mul_mat n n _ (fun k => ((1 / Real.sqrt |r.s.getD k 0| : ℝ) : K))]
    refine mat_congr fun i hi j hj => ?_
    rw [← hvec2 i hi]
    simp [orthoBasis, ← hr, scale, adjoint, transpose, permute, swapIdx, r1, nrm, conj]
    ring
  refine ⟨by simp [orthoBasis, ← hr, scale, r1], by simp [orthoBasis, ← hr, scale, adjoint, transpose, permute, swapIdx, r1, nrm], ?_, ?_⟩
  · rw [hU, hUi]
    calc Rm * Matrix.diagonal (fun i : Fin n => ((Real.sqrt |r.s.getD i 0| : ℝ) : K)) *
        (Matrix.diagonal (fun i : Fin n => ((1 / Real.sqrt |r.s.getD i 0| : ℝ) : K)) * Rmᴴ)
        = Rm * (Matrix.diagonal (fun i : Fin n => ((Real.sqrt |r.s.getD i 0| : ℝ) : K)) *
          Matrix.diagonal (fun i : Fin n => ((1 / Real.sqrt |r.s.getD i 0| : ℝ) : K))) * Rmᴴ := by simp only [Matrix.mul_assoc]
      _ = Rm * 1 * Rmᴴ := by
        rw [Matrix.diagonal_mul_diagonal]
        congr 2
        rw [← Matrix.diagonal_one]
        congr 1; funext i
        rw [← RCLike.ofReal_mul, mul_one_div_cancel (ne_of_gt (hq i i.2)), RCLike.ofReal_one]
      _ = 1 := by rw [Matrix.mul_one, hR2]
  · rw [hU, ← hdec, Matrix.conjTranspose_mul, Gauge.diagH _ (fun i => by rw [RCLike.star_def, RCLike.conj_ofReal])]
    calc Rm * Matrix.diagonal (fun i : Fin n => ((Real.sqrt |r.s.getD i 0| : ℝ) : K)) *
        (Matrix.diagonal (fun i : Fin n => ((Real.sqrt |r.s.getD i 0| : ℝ) : K)) * Rmᴴ)
        = Rm * (Matrix.diagonal (fun i : Fin n => ((Real.sqrt |r.s.getD i 0| : ℝ) : K)) *
          Matrix.diagonal (fun i : Fin n => ((Real.sqrt |r.s.getD i 0| : ℝ) : K))) * Rmᴴ := by simp only [Matrix.mul_assoc]
      _ = Rm * ((ε : K) • Matrix.diagonal (fun i : Fin n => ((r.s.getD i 0 : ℝ) : K))) * Rmᴴ := by
        rw [Matrix.diagonal_mul_diagonal, ← Matrix.diagonal_smul]
        congr 3; funext i
        simp only [Pi.smul_apply, smul_eq_mul]
        rw [← RCLike.ofReal_mul, Real.mul_self_sqrt (abs_nonneg _), habs i i.2, RCLike.ofReal_mul]
      _ = _ := by rw [Matrix.mul_smul, Matrix.smul_mul]

end MPS.ITebd
