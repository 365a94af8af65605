import Verif.Props.ITebdCanonProps
import Verif.Props.ITebdProps5
import Verif.SvdExists
import Mathlib.Analysis.Matrix.Spectrum

/-!
# C87: the hypotheses can be met; the AKLT state
-/

set_option linter.unusedSectionVars false
set_option linter.unusedSimpArgs false

namespace MPS.Props
open MPS Tensor ITebd
open scoped Matrix
variable {K : Type} [RCLike K]

/-- a solver of the Hermitian eigenvalue problem exists -/
theorem exists_goodEigSym : ∃ f : Tensor K → SymRes K, GoodEigSym f := by
  classical
  have key : ∀ V : Tensor K, ∃ r : SymRes K, ∀ n : Nat, V.dims = [n, n] → (∀ i < n, ∀ j < n, star (V.get [i, j]) = V.get [j, i]) →
    r.R.dims = [n, n] ∧ r.s.length = n ∧
    (∀ i < n, ∀ j < n, ∑ k ∈ Finset.range n, r.R.get [i, k] * ((r.s.getD k 0 : ℝ) : K) * star (r.R.get [j, k]) = V.get [i, j]) ∧
    ∀ k < n, ∀ l < n, ∑ i ∈ Finset.range n, star (r.R.get [i, k]) * r.R.get [i, l] = if k = l then 1 else 0 := by
    intro V
    by_cases h : ∃ n : Nat, V.dims = [n, n] ∧ ∀ i < n, ∀ j < n, star (V.get [i, j]) = V.get [j, i]
    · obtain ⟨n, hd, hs⟩ := h
      let M : Matrix (Fin n) (Fin n) K := fun i j => V.get [i, j]
      have hM : M.IsHermitian := by
        ext i j
        rw [Matrix.conjTranspose_apply]
        exact hs j j.2 i i.2
      let U : Matrix (Fin n) (Fin n) K := hM.eigenvectorUnitary
      have h1 : U * Matrix.diagonal (fun i => ((hM.eigenvalues i : ℝ) : K)) * Uᴴ = M := by
        have := hM.spectral_theorem
        rw [Unitary.conjStarAlgAut_apply] at this
        exact this.symm
      have h2 : Uᴴ * U = 1 := by
        have := (Matrix.mem_unitaryGroup_iff').1 hM.eigenvectorUnitary.2
        exact this
      refine ⟨⟨⟨[n, n], fun I => entry U (I.getD 0 0) (I.getD 1 0)⟩, List.ofFn hM.eigenvalues⟩, ?_⟩
      intro m hm hs'
      obtain rfl : n = m := by rw [hd] at hm; simpa using hm
      refine ⟨rfl, by simp, ?_, ?_⟩
      · intro i hi j hj
        have := congrFun (congrFun h1 ⟨i, hi⟩) ⟨j, hj⟩
        rw [show V.get [i, j] = M ⟨i, hi⟩ ⟨j, hj⟩ from rfl, ← this, Matrix.mul_apply, ← Fin.sum_univ_eq_sum_range
          (fun k => entry U ([i, k].getD 0 0) ([i, k].getD 1 0) * (((List.ofFn hM.eigenvalues).getD k 0 : ℝ) : K) *
            star (entry U ([j, k].getD 0 0) ([j, k].getD 1 0)))]
        refine Finset.sum_congr rfl fun k _ => ?_
        rw [Matrix.mul_diagonal, Matrix.conjTranspose_apply]
        show entry U i k * _ * star (entry U j k) = _
        rw [entry_lt _ hi k.2, entry_lt _ hj k.2]
        simp
      · intro k hk l hl
        have := congrFun (congrFun h2 ⟨k, hk⟩) ⟨l, hl⟩
        rw [Matrix.one_apply] at this
        rw [show (if k = l then (1 : K) else 0) = if (⟨k, hk⟩ : Fin n) = ⟨l, hl⟩ then 1 else 0 by simp, ← this, Matrix.mul_apply,
          ← Fin.sum_univ_eq_sum_range (fun i => star (entry U ([i, k].getD 0 0) ([i, k].getD 1 0)) * entry U ([i, l].getD 0 0) ([i, l].getD 1 0))]
        refine Finset.sum_congr rfl fun i _ => ?_
        rw [Matrix.conjTranspose_apply]
        show star (entry U i k) * entry U i l = _
        rw [entry_lt _ i.2 hk, entry_lt _ i.2 hl]
    · exact ⟨⟨V, []⟩, fun n h1 h2 => absurd ⟨n, h1, h2⟩ h⟩
  choose f hf using key
  exact ⟨f, fun V n => hf V n⟩

/-- the identity as a vector of 4 elements -/
noncomputable def oneVec4 : Tensor ℝ := ⟨[4], fun I => if I.getD 0 0 % 3 = 0 then 1 else 0⟩

theorem oneVec4_mat : mat 2 2 (fun x y => oneVec4.get [x + 2 * y]) = 1 := by
  ext x y
  fin_cases x <;> fin_cases y <;> simp [mat, oneVec4]

theorem uniform_dims {A : Tensor ℝ} {d : Nat} (hA : A.dims = [2, d, 2]) (hd : 0 < d) : Dims (uniform A) 2 d 2 d := by
  have := (uniform_ok hA hd).dims4
  have e0 : (uniform A).A.dim 0 = 2 := dim0_of hA
  have e1 : (uniform A).A.dim 1 = d := dim1_of hA
  have e2 : (uniform A).A.dim 2 = 2 := dim2_of hA
  have e3 : (uniform A).B.dim 1 = d := dim1_of hA
  rwa [e0, e1, e2, e3] at this

theorem aklt_slices (i : Nat) : slice 2 2 akltT i = !![akltT.get [0, i, 0], akltT.get [0, i, 1]; akltT.get [1, i, 0], akltT.get [1, i, 1]] := by
  ext x y
  fin_cases x <;> fin_cases y <;> rfl

theorem aklt_rightsum : ∑ i ∈ Finset.range 3, slice 2 2 akltT i * (slice 2 2 akltT i)ᵀ = 1 := by
  obtain ⟨x, hx⟩ : ∃ x, x = Real.sqrt (2 / 3) := ⟨_, rfl⟩
  obtain ⟨y, hy⟩ : ∃ y, y = Real.sqrt (1 / 3) := ⟨_, rfl⟩
  obtain ⟨hxx, hyy⟩ := aklt_xy hx hy
  simp only [aklt_slices, Finset.sum_range_succ, Finset.sum_range_zero, zero_add, aklt_get hx hy]
  ext a b
  fin_cases a <;> fin_cases b <;> simp [Matrix.mul_apply, Fin.sum_univ_two, Matrix.vecMul, dotProduct] <;> linarith

theorem aklt_leftsum : ∑ i ∈ Finset.range 3, (slice 2 2 akltT i)ᵀ * slice 2 2 akltT i = 1 := by
  obtain ⟨x, hx⟩ : ∃ x, x = Real.sqrt (2 / 3) := ⟨_, rfl⟩
  obtain ⟨y, hy⟩ : ∃ y, y = Real.sqrt (1 / 3) := ⟨_, rfl⟩
  obtain ⟨hxx, hyy⟩ := aklt_xy hx hy
  simp only [aklt_slices, Finset.sum_range_succ, Finset.sum_range_zero, zero_add, aklt_get hx hy]
  ext a b
  fin_cases a <;> fin_cases b <;> simp [Matrix.mul_apply, Fin.sum_univ_two, Matrix.vecMul, dotProduct] <;> linarith

/-- the identity solves the eigenvalue equations of the AKLT state -/
theorem aklt_eig (sense : Int) : Eigvec (cellMap (uniform akltT) sense) 4 oneVec4 1 := by
  refine ⟨rfl, ?_⟩
  suffices h : mat 2 2 (fun x y => (cellMap (uniform akltT) sense oneVec4).get [x + 2 * y]) = mat 2 2 fun x y => oneVec4.get [x + 2 * y] by
    intro i hi
    have := mat_eq h (i % 2) (by omega) (i / 2) (by omega)
    rw [show i % 2 + 2 * (i / 2) = i by omega] at this
    rw [this]; simp
  have hs : (uniform akltT).lB.size = 2 := rfl
  have sl : ∀ i, slice 2 2 (scale (uniform akltT).A 0 (uniform akltT).lB) i = slice 2 2 akltT i := by
    intro i
    rw [slice_scale0 (D := 2) (d := 3) (E := 2) rfl]
    have : (Matrix.diagonal fun a : Fin 2 => (uniform akltT).lB.get [(a : Nat)]) = 1 := Matrix.diagonal_one
    rw [this, Matrix.one_mul]; rfl
  have sr : ∀ i, slice 2 2 (scale (uniform akltT).A (-1) (uniform akltT).lB) i = slice 2 2 akltT i := by
    intro i
    rw [slice_scale (D := 2) (d := 3) (E := 2) rfl]
    have : (Matrix.diagonal fun a : Fin 2 => (uniform akltT).lB.get [(a : Nat)]) = 1 := Matrix.diagonal_one
    rw [this, Matrix.mul_one]; rfl
  have hH : ∀ M : Matrix (Fin 2) (Fin 2) ℝ, Mᴴ = Mᵀ := fun M => by ext i j; simp
  rw [oneVec4_mat]
  unfold cellMap
  rw [hs]
  by_cases h : sense > 0
  · simp only [h, if_true]
    have e : px4 sense = px4 (K := ℝ) 1 := by
      unfold px4 propMatrix; simp only [h, if_true]; rfl
    rw [e]
    refine (px4_right (D := 2) (E := 2) (d := 3) (e := 3) (by norm_num) (by norm_num) rfl rfl (v := oneVec4) rfl).trans ?_
    rw [oneVec4_mat]
    have e2 : ∀ i, slice 2 2 (scale (uniform akltT).B 0 (uniform akltT).lA) i = slice 2 2 akltT i := sl
    simp only [sl, e2, hH, Matrix.mul_one, Matrix.transpose_mul]
    rw [Finset.sum_comm, ← aklt_leftsum]
    refine Finset.sum_congr rfl fun j _ => ?_
    calc ∑ i ∈ Finset.range 3, (slice 2 2 akltT j)ᵀ * (slice 2 2 akltT i)ᵀ * (slice 2 2 akltT i * slice 2 2 akltT j) =
        (slice 2 2 akltT j)ᵀ * (∑ i ∈ Finset.range 3, (slice 2 2 akltT i)ᵀ * slice 2 2 akltT i) * slice 2 2 akltT j := by
          rw [Matrix.mul_sum, Matrix.sum_mul]
          exact Finset.sum_congr rfl fun i _ => by simp only [Matrix.mul_assoc]
      _ = _ := by rw [aklt_leftsum, Matrix.mul_one]
  · simp only [h, if_false]
    have e : px4 sense = px4 (K := ℝ) (-1) := by
      unfold px4 propMatrix; simp only [h, if_false]; rfl
    rw [e]
    refine (px4_left (D := 2) (E := 2) (d := 3) (e := 3) (by norm_num) (by norm_num) rfl rfl (v := oneVec4) rfl).trans ?_
    rw [oneVec4_mat]
    have e2 : ∀ i, slice 2 2 (scale (uniform akltT).B (-1) (uniform akltT).lB) i = slice 2 2 akltT i := sr
    have e3 : ∀ i, slice 2 2 (scale (uniform akltT).A (-1) (uniform akltT).lA) i = slice 2 2 akltT i := sr
    simp only [e2, e3, hH, Matrix.transpose_transpose, Matrix.mul_one, Matrix.transpose_mul]
    rw [← aklt_rightsum]
    refine Finset.sum_congr rfl fun j _ => ?_
    calc ∑ i ∈ Finset.range 3, slice 2 2 akltT j * slice 2 2 akltT i * ((slice 2 2 akltT i)ᵀ * (slice 2 2 akltT j)ᵀ) =
        slice 2 2 akltT j * (∑ i ∈ Finset.range 3, slice 2 2 akltT i * (slice 2 2 akltT i)ᵀ) * (slice 2 2 akltT j)ᵀ := by
          rw [Matrix.mul_sum, Matrix.sum_mul]
          exact Finset.sum_congr rfl fun i _ => by simp only [Matrix.mul_assoc]
      _ = _ := by rw [aklt_rightsum, Matrix.mul_one]

theorem oneVec4_definite {L : Lib ℝ} (hL : ∀ f n v, L.eigs f n v = oneVec4) (sense : Int) :
    DefinitePart 2 (eigMat L (uniform akltT) 2 sense) 1 := by
  have e : ∀ i j, eigMat L (uniform akltT) 2 sense i j = oneVec4.get [i + 2 * j] := fun i j => by unfold eigMat cellVec; rw [hL]
  refine ⟨Or.inl rfl, fun x hx => ?_⟩
  simp only [hermPart, e, Finset.sum_range_succ, Finset.sum_range_zero, oneVec4]
  obtain ⟨i, hi, hx⟩ := hx
  have : 0 < x 0 * x 0 + x 1 * x 1 := by
    interval_cases i
    · nlinarith [mul_self_pos.2 hx, mul_self_nonneg (x 1)]
    · nlinarith [mul_self_pos.2 hx, mul_self_nonneg (x 0)]
  simp
  linarith

/-- the hypotheses of `C87_canonical_form` are met by the AKLT state, which `infinite_aklt_state()` returns as not canonical, and
every solver which finds the identity as the leading eigenvector -/
theorem C87_example : ∃ L : Lib ℝ, GoodSvd L.svd ∧ GoodEigSym L.eigSym ∧ Ok (uniform akltT) ∧ (uniform akltT).canonical = false ∧
    EigOk L (uniform akltT) (((uniform akltT).matrix 0).dim 0) (-1) 1 1 ∧ EigOk L (uniform akltT) (((uniform akltT).matrix 0).dim 0) 1 1 1 := by
  obtain ⟨svd, hsvd⟩ := exists_goodSvd (K := ℝ)
  obtain ⟨sym, hsym⟩ := exists_goodEigSym (K := ℝ)
  let L : Lib ℝ := ⟨svd, sym, fun _ _ _ => oneVec4, fun H => H, 1, 1⟩
  have hL : ∀ f n v, L.eigs f n v = oneVec4 := fun _ _ _ => rfl
  exact ⟨L, hsvd, hsym, aklt_ok, rfl, ⟨aklt_eig (-1), oneVec4_definite hL (-1)⟩, ⟨aklt_eig 1, oneVec4_definite hL 1⟩⟩

/-- C87: expected values of operators of several sites of a state which is not canonical: they are those of the state itself, its
surroundings being in the leading eigenvectors of the transfer operators of a cell -/
theorem C87_expected12 {L : Lib K} (hsvd : GoodSvd L.svd) (hsym : GoodEigSym L.eigSym) {psi : State K} (hok : Ok psi)
    (hc : psi.canonical = false) {ηR εR ηL εL : ℝ} (hR : EigOk L psi ((psi.matrix 0).dim 0) (-1) ηR εR)
    (hL : EigOk L psi ((psi.matrix 0).dim 0) 1 ηL εL) {Op : Tensor K} (site : Int) (k : Nat) (hk : site % 2 = k)
    (hop : Op.dims = [(psi.matrix 0).dim 1 * (psi.matrix 1).dim 1, (psi.matrix 0).dim 1 * (psi.matrix 1).dim 1]) :
    expected12 (canonForm L) psi Op site =
      boundForm psi (2 * (1 + k)) (hermPart (eigMat L psi ((psi.matrix 0).dim 0) 1)) (hermPart (eigMat L psi ((psi.matrix 0).dim 0) (-1)))
        (widen k 2 (pairElt ((psi.matrix k).dim 1) Op)) /
      boundForm psi (2 * (1 + k)) (hermPart (eigMat L psi ((psi.matrix 0).dim 0) 1)) (hermPart (eigMat L psi ((psi.matrix 0).dim 0) (-1)))
        oneElt := by
  obtain ⟨c1, c2, c3, c4, c5, c6⟩ := C87_canonical_form hsvd hsym hok hR hL
  have hu : usedState (canonForm L) psi = canonForm L psi := by unfold usedState; rw [hc]; rfl
  have m1 : ∀ q : Int, ((canonForm L psi).matrix q).dim 1 = (psi.matrix q).dim 1 := by
    intro q
    rcases Int.emod_two_eq_zero_or_one q with h | h
    · rw [matrix_parity _ (q := 0) (by omega), matrix_parity psi (p := q) (q := 0) (by omega)]; exact c3.2.1
    · rw [matrix_parity _ (q := 1) (by omega), matrix_parity psi (p := q) (q := 1) (by omega)]; exact c3.2.2.1
  have hk2 : k = 0 ∨ k = 1 := by omega
  have hmul : (psi.matrix (k : Int)).dim 1 * (psi.matrix ((k : Int) + 1)).dim 1 = (psi.matrix 0).dim 1 * (psi.matrix 1).dim 1 := by
    rcases hk2 with rfl | rfl
    · rfl
    · rw [mul_comm, matrix_parity psi (p := ((1 : Nat) : Int) + 1) (q := 0) (by norm_num)]; rfl
  rw [C83_expected12 (canonForm L) psi (hu ▸ c1) site k hk (by rw [hu, m1, m1, hmul]; exact hop), hu, m1]
  unfold winValue
  have ε0 : ((εL * εR : ℝ) : K) ≠ 0 := by
    rcases hR.definite.1 with h | h <;> rcases hL.definite.1 with h' | h' <;> rw [h, h'] <;> norm_num
  have h2 : ∀ O : List Nat → List Nat → K, winForm (canonForm L psi) 0 (2 + 2 * k) O = winForm (canonForm L psi) 0 (2 * (1 + k)) O := by
    intro O; rw [show 2 + 2 * k = 2 * (1 + k) by ring]
  rw [h2, h2, c6, c6, mul_div_mul_left _ _ ε0]

end MPS.Props
