import Verif.ITebdCanonLemmas2
import Verif.CanonLemmas

/-!
# The canonical form of an infinite state
-/

set_option linter.unusedSectionVars false
set_option linter.unusedSimpArgs false

namespace MPS.ITebd
open MPS Tensor
open scoped Matrix
variable {K : Type} [RCLike K]

/-- the dimensions of a state -/
structure Dims (psi : State K) (D d E e : Nat) : Prop where
  A : psi.A.dims = [D, d, E]
  B : psi.B.dims = [E, e, D]
  lA : psi.lA.dims = [E]
  lB : psi.lB.dims = [D]
  hD : 0 < D
  hd : 0 < d
  hE : 0 < E
  he : 0 < e

theorem Ok.dims4 {psi : State K} (h : Ok psi) : Dims psi (psi.A.dim 0) (psi.A.dim 1) (psi.A.dim 2) (psi.B.dim 1) := by
  obtain ⟨a1, a2, a3, a4⟩ := h.dims 0
  obtain ⟨b1, b2, b3, b4⟩ := h.dims 1
  have m0 : psi.matrix 0 = psi.A := rfl
  have m1 : psi.matrix 1 = psi.B := rfl
  have m2 : psi.matrix (1 + 1) = psi.A := rfl
  rw [m0, show (0 : Int) + 1 = 1 from rfl, m1] at a1 a4
  rw [m0] at a2 a3
  rw [m1, m2] at b1 b4
  rw [m1] at b2 b3
  exact ⟨by rw [a4]; exact a1, by rw [a4]; exact b1, h.lA, by rw [h.lB, h.BA], a2, a3, by omega, b3⟩

theorem Dims.ok {psi : State K} {D d E e : Nat} (h : Dims psi D d E e)
    (hr : ∀ a, star (psi.lA.get [a]) = psi.lA.get [a] ∧ star (psi.lB.get [a]) = psi.lB.get [a])
    (h1 : psi.AlA = scale psi.A (-1) psi.lA) (h2 : psi.BlB = scale psi.B (-1) psi.lB) : Ok psi := by
  obtain ⟨hA, hB, hlA, hlB, hD, hd, hE, he⟩ := h
  refine ⟨by rw [hA]; rfl, by rw [hB]; rfl, ?_, ?_, by rw [dim0_of hB, dim2_of hA], by rw [dim0_of hA, dim2_of hB], by rw [hlA, dim2_of hA],
    by rw [hlB, dim2_of hB], hr, h1, h2⟩
  · rw [hA]; intro x hx; simp at hx; rcases hx with rfl | rfl | rfl <;> assumption
  · rw [hB]; intro x hx; simp at hx; rcases hx with rfl | rfl | rfl <;> assumption

theorem path_slice {Q : Tensor K} {D d E F : Nat} (hQ : Q.dims = [D, d, E]) (As : List (Tensor K)) (i : Nat) (s : List Nat) :
    mat D F (path (Q :: As) (i :: s)) = slice D E Q i * mat E F (path As s) := by
  rw [slice, mat_mul]
  refine mat_congr fun a _ b _ => ?_
  rw [path_cons, dim2_of hQ]

theorem slice_scale {Q v : Tensor K} {D d E : Nat} (hQ : Q.dims = [D, d, E]) (i : Nat) :
    slice D E (scale Q (-1) v) i = slice D E Q i * Matrix.diagonal fun k : Fin E => v.get [k] := by
  rw [slice, slice, mat_mul_diag D E _ (fun k => v.get [k])]
  refine mat_congr fun a _ b _ => ?_
  simp [scale, hQ, nrm]

theorem slice_scale0 {Q v : Tensor K} {D d E : Nat} (hQ : Q.dims = [D, d, E]) (i : Nat) :
    slice D E (scale Q 0 v) i = (Matrix.diagonal fun k : Fin D => v.get [k]) * slice D E Q i := by
  rw [slice, slice, diag_mul_mat D E _ (fun k => v.get [k])]
  refine mat_congr fun a _ b _ => ?_
  simp [scale, hQ, nrm, mul_comm]

/-- the matrices `Γ_A[i] λ_A Γ_B[j]` of a cell -/
def cellM (D E : Nat) (psi : State K) (x : Nat × Nat) : Matrix (Fin D) (Fin D) K :=
  slice D E psi.A x.1 * (Matrix.diagonal fun k : Fin E => psi.lA.get [k]) * slice E D psi.B x.2

/-- the vector `λ_B` -/
def vecB (D : Nat) (psi : State K) : Fin D → K := fun k => psi.lB.get [k]

theorem vecB_def (D : Nat) (psi : State K) : vecB D psi = fun k : Fin D => psi.lB.get [k] := rfl

/-- the sites of a configuration two by two -/
def pairsOf : List Nat → List (Nat × Nat)
  | i :: j :: s => (i, j) :: pairsOf s
  | _ => []

theorem siteT_zero (psi : State K) : siteT psi 0 = scale psi.A (-1) psi.lA := rfl
theorem siteT_one (psi : State K) : siteT psi 1 = scale psi.B (-1) psi.lB := rfl

theorem window_cell (psi : State K) (n : Nat) : window psi 0 (2 * (n + 1)) = siteT psi 0 :: siteT psi 1 :: window psi 0 (2 * n) := by
  rw [show 2 * (n + 1) = 2 * n + 1 + 1 by ring, window_succ, window_succ, window_shift psi (p := 0 + 1 + 1) (q := 0) (by decide)]
  rfl

theorem winDims_cell (psi : State K) (n : Nat) :
    winDims psi 0 (2 * (n + 1)) = psi.A.dim 1 :: psi.B.dim 1 :: winDims psi 0 (2 * n) := by
  rw [show 2 * (n + 1) = 2 * n + 1 + 1 by ring, winDims_succ, winDims_succ, winDims_shift psi (p := 0 + 1 + 1) (q := 0) (by decide)]
  rfl

theorem cell_path {psi : State K} {D d E e : Nat} (h : Dims psi D d E e) (n : Nat) : ∀ s : List Nat, s.length = 2 * n →
    mat D D (path (window psi 0 (2 * n)) s) = ((pairsOf s).map fun x => cellM D E psi x * Matrix.diagonal (vecB D psi)).prod := by
  induction n with
  | zero =>
    intro s hs
    have : s = [] := List.length_eq_zero_iff.1 hs
    subst this
    simp only [pairsOf, List.map_nil, List.prod_nil]
    rw [← mat_one]
    exact mat_congr fun i _ j _ => by simp [window, path_nil]
  | succ n ih =>
    intro s hs
    match s, hs with
    | i :: j :: s, hs =>
      have hs' : s.length = 2 * n := by simp at hs; omega
      rw [window_cell, siteT_zero, siteT_one, path_slice (d := d) (E := E) (by simpa [scale] using h.A),
        path_slice (d := e) (E := D) (by simpa [scale] using h.B), ih s hs', slice_scale h.A, slice_scale h.B]
      simp only [pairsOf, List.map_cons, List.prod_cons, cellM, vecB_def, Matrix.mul_assoc]
    | [_], hs => simp at hs; omega
    | [], hs => simp at hs

theorem amp_mat {psi : State K} {D d E e : Nat} (h : Dims psi D d E e) (n : Nat) (s : List Nat) (hs : s.length = 2 * n) :
    mat D D (fun a b => winAmp psi 0 (2 * n) a b s) =
      Matrix.diagonal (vecB D psi) * ((pairsOf s).map fun x => cellM D E psi x * Matrix.diagonal (vecB D psi)).prod := by
  rw [← cell_path h n s hs]
  exact (diag_mul_mat D D (path (window psi 0 (2 * n)) s) (fun k => psi.lB.get [k])).symm

/-- what the eigenvalue equation says: left to right -/
theorem eig_right {psi : State K} {D d E e : Nat} (h : Dims psi D d E e) {w : Tensor K} {η : ℝ} (he : Eigvec (cellMap psi 1) (D * D) w η) :
    ∑ i ∈ Finset.range d, ∑ j ∈ Finset.range e, (Matrix.diagonal (vecB D psi) * cellM D E psi (i, j))ᴴ *
      mat D D (fun x y => w.get [x + D * y]) * (Matrix.diagonal (vecB D psi) * cellM D E psi (i, j)) =
      (η : K) • mat D D (fun x y => w.get [x + D * y]) := by
  obtain ⟨hw, hE⟩ := he
  have hs : psi.lB.size = D := by simp [size, h.lB]
  have e1 : cellMap psi 1 = px4 1 (scale psi.A 0 psi.lB) (scale psi.B 0 psi.lA) D := by
    unfold cellMap; rw [hs]; simp
  have e2 := px4_right (A := scale psi.A 0 psi.lB) (B := scale psi.B 0 psi.lA) h.hD h.hE (by simpa [scale] using h.A)
    (by simpa [scale] using h.B) hw
  rw [← e1] at e2
  have e3 : mat D D (fun x y => (cellMap psi 1 w).get [x + D * y]) = (η : K) • mat D D (fun x y => w.get [x + D * y]) := by
    ext x y
    exact hE _ (add_mul_lt x.2 y.2)
  rw [e3] at e2
  rw [e2]
  refine Finset.sum_congr rfl fun i _ => Finset.sum_congr rfl fun j _ => ?_
  rw [slice_scale0 h.A, slice_scale0 h.B]
  simp only [cellM, vecB_def, Matrix.mul_assoc]

theorem eig_left {psi : State K} {D d E e : Nat} (h : Dims psi D d E e) {w : Tensor K} {η : ℝ} (he : Eigvec (cellMap psi (-1)) (D * D) w η) :
    ∑ i ∈ Finset.range d, ∑ j ∈ Finset.range e, ((cellM D E psi (i, j) * Matrix.diagonal (vecB D psi))ᴴ)ᵀ *
      mat D D (fun x y => w.get [x + D * y]) * (cellM D E psi (i, j) * Matrix.diagonal (vecB D psi))ᵀ =
      (η : K) • mat D D (fun x y => w.get [x + D * y]) := by
  obtain ⟨hw, hE⟩ := he
  have hs : psi.lB.size = D := by simp [size, h.lB]
  have e1 : cellMap psi (-1) = px4 (-1) (scale psi.B (-1) psi.lB) (scale psi.A (-1) psi.lA) D := by
    unfold cellMap; rw [hs]; simp
  have e2 := px4_left (A := scale psi.A (-1) psi.lA) (B := scale psi.B (-1) psi.lB) h.hD h.hE (by simpa [scale] using h.A)
    (by simpa [scale] using h.B) hw
  rw [← e1] at e2
  have e3 : mat D D (fun x y => (cellMap psi (-1) w).get [x + D * y]) = (η : K) • mat D D (fun x y => w.get [x + D * y]) := by
    ext x y
    exact hE _ (add_mul_lt x.2 y.2)
  rw [e3] at e2
  rw [e2]
  refine Finset.sum_congr rfl fun i _ => Finset.sum_congr rfl fun j _ => ?_
  rw [slice_scale h.A, slice_scale h.B]
  simp only [cellM, vecB_def, Matrix.mul_assoc]

/-- the Hermitian part also solves the equation: left to right -/
theorem herm_right {D : Nat} {ι : Type} (S : Finset ι) (N : ι → Matrix (Fin D) (Fin D) K) (w : Nat → Nat → K) (η : ℝ)
    (h : ∑ s ∈ S, (N s)ᴴ * mat D D w * N s = (η : K) • mat D D w) :
    ∑ s ∈ S, (N s)ᴴ * mat D D (hermPart w) * N s = (η : K) • mat D D (hermPart w) := by
  have e : mat D D (hermPart w) = (1 / 2 : K) • (mat D D w + (mat D D w)ᴴ) := by
    ext i j
    simp only [mat, hermPart, Matrix.smul_apply, Matrix.add_apply, Matrix.conjTranspose_apply, smul_eq_mul]
    ring
  have h2 := congrArg Matrix.conjTranspose h
  rw [Matrix.conjTranspose_sum, Matrix.conjTranspose_smul] at h2
  simp only [Matrix.conjTranspose_mul, Matrix.conjTranspose_conjTranspose, RCLike.star_def, RCLike.conj_ofReal] at h2
  rw [e]
  simp only [Matrix.mul_smul, Matrix.smul_mul, Matrix.mul_add, Matrix.add_mul]
  rw [← Finset.smul_sum, Finset.sum_add_distrib, h, Finset.sum_congr rfl fun s _ => Matrix.mul_assoc _ _ _, h2, ← smul_add, smul_comm]

/-- the Hermitian part also solves the equation: right to left -/
theorem herm_left {D : Nat} {ι : Type} (S : Finset ι) (N : ι → Matrix (Fin D) (Fin D) K) (w : Nat → Nat → K) (η : ℝ)
    (h : ∑ s ∈ S, ((N s)ᴴ)ᵀ * mat D D w * (N s)ᵀ = (η : K) • mat D D w) :
    ∑ s ∈ S, N s * (mat D D (hermPart w))ᵀ * (N s)ᴴ = (η : K) • (mat D D (hermPart w))ᵀ := by
  have h1 : ∑ s ∈ S, (((N s)ᵀ)ᴴ) * mat D D w * (N s)ᵀ = (η : K) • mat D D w := by
    rw [← h]; rfl
  have h2 := congrArg Matrix.transpose (herm_right S (fun s => (N s)ᵀ) w η h1)
  rw [Matrix.transpose_sum, Matrix.transpose_smul] at h2
  simp only [Matrix.transpose_mul, Matrix.transpose_transpose] at h2
  rw [← h2]
  refine Finset.sum_congr rfl fun s _ => ?_
  rw [Matrix.mul_assoc]
  rfl

/-- a definite Hermitian part gives a basis: transposed matrix `P = (wᵀ + conj w) / 2` -/
theorem definite_transpose {n : Nat} {w : Nat → Nat → K} {ε : ℝ} (h : DefinitePart n w ε) :
    ∀ x : Nat → K, (∃ i < n, x i ≠ 0) →
      0 < ε * RCLike.re (∑ i ∈ Finset.range n, ∑ j ∈ Finset.range n, star (x i) * hermPart w j i * x j) := by
  intro x ⟨i, hi, hx⟩
  have := h.2 (fun k => star (x k)) ⟨i, hi, by simpa using hx⟩
  rw [Finset.sum_comm] at this
  convert this using 5
  simp only [star_star]; ring

theorem hermPart_star (w : Nat → Nat → K) (i j : Nat) : star (hermPart w i j) = hermPart w j i := by
  unfold hermPart
  rw [star_div₀, star_add, star_star]
  simp [add_comm]

theorem powerEig_spec {L : Lib K} {psi : State K} {D d E e : Nat} (h : Dims psi D d E e) (sense : Int)
    (hv : (cellVec L psi sense).dims = [D * D]) :
    (powerEig L psi sense).dims = [D, D] ∧ ∀ i < D, ∀ j < D, (powerEig L psi sense).get [i, j] = hermPart (eigMat L psi D sense) j i := by
  have hs : psi.lB.size = D := by simp [size, h.lB]
  refine ⟨by simp [powerEig, hs, smul, add, transpose, permute, swapIdx, nrm], fun i hi j hj => ?_⟩
  have hw : ∀ x < D, ∀ y < D, (reshape (cellVec L psi sense) [D, D]).get [x, y] = eigMat L psi D sense x y := by
    intro x hx y hy
    apply reshape_get
    · rw [hv]; exact .cons (add_mul_lt hx hy) .nil
    · rw [hv]; simp only [flat]; ring
  have : (powerEig L psi sense).get [i, j] = (((1 / 2 : ℝ)) : K) *
      ((reshape (cellVec L psi sense) [D, D]).get [j, i] + star ((reshape (cellVec L psi sense) [D, D]).get [i, j])) := by
    simp [powerEig, hs, smul, add, transpose, permute, swapIdx, nrm, conj]
  rw [this, hw j hj i hi, hw i hi j hj, hermPart]
  push_cast
  ring

/-- the canonical form in terms of matrices -/
theorem canon_gauge {L : Lib K} (hsvd : GoodSvd L.svd) (hsym : GoodEigSym L.eigSym) {psi : State K} (hok : Ok psi) {D d E e : Nat}
    (h : Dims psi D d E e) {ηR εR ηL εL : ℝ} (hR : EigOk L psi D (-1) ηR εR) (hL : EigOk L psi D 1 ηL εL) :
    Dims (canonForm L psi) D d E e ∧ Ok (canonForm L psi) ∧ ∃ g : Gauge (K := K) D,
      g.l = vecB D psi ∧ g.l' = vecB D (canonForm L psi) ∧
      g.X * g.Xᴴ = (εR : K) • (mat D D (hermPart (eigMat L psi D (-1))))ᵀ ∧
      (g.Yᵀ)ᴴ * g.Yᵀ = (εL : K) • mat D D (hermPart (eigMat L psi D 1)) ∧
      ∀ x, cellM D E (canonForm L psi) x = g.V * g.Xi * cellM D E psi x * g.Yiᵀ * g.U := by
  obtain ⟨pr1, pr2⟩ := powerEig_spec h (-1) hR.eig.1
  obtain ⟨pl1, pl2⟩ := powerEig_spec h 1 hL.eig.1
  obtain ⟨x1, x2, x3, x4⟩ := ortho_spec hsym pr1 (fun i hi j hj => by rw [pr2 i hi j hj, pr2 j hj i hi, hermPart_star]) hR.definite.1
    (fun x hx => by
      have := definite_transpose hR.definite x hx
      convert this using 6 with i hi j hj
      rw [pr2 i (Finset.mem_range.1 hi) j (Finset.mem_range.1 hj)])
  obtain ⟨y1, y2, y3, y4⟩ := ortho_spec hsym pl1 (fun i hi j hj => by rw [pl2 i hi j hj, pl2 j hj i hi, hermPart_star]) hL.definite.1
    (fun x hx => by
      have := definite_transpose hL.definite x hx
      convert this using 6 with i hi j hj
      rw [pl2 i (Finset.mem_range.1 hi) j (Finset.mem_range.1 hj)])
  set X := orthoBasis L.eigSym (powerEig L psi (-1)) with hX
  set Y := orthoBasis L.eigSym (powerEig L psi 1) with hY
  set aux := fold Y.1 0 (scale X.1 0 psi.lB) 0 with haux
  have hauxd : aux.dims = [D, D] := by rw [haux]; simp [fold, scale, x1, y1, nrm]
  have hauxg : mat D D (fun i j => aux.get [i, j]) =
      (mat D D fun i j => Y.1.get [i, j])ᵀ * Matrix.diagonal (vecB D psi) * (mat D D fun i j => X.1.get [i, j]) := by
    rw [mat_T, show vecB D psi = fun k : Fin D => (fun k : Nat => psi.lB.get [k]) k from rfl,
      mat_mul_diag D D _ (fun k : Nat => psi.lB.get [k]), mat_mul]
    refine mat_congr fun i _ j _ => ?_
    rw [haux]
    simp [fold, scale, x1, y1, nrm]
    exact Finset.sum_congr rfl fun k _ => by ring
  have hS := hsvd aux D D hauxd h.hD h.hD
  set r := L.svd aux with hr
  have hc : canonForm L psi = State.ofParts (fold r.V (-1) (fold X.2 (-1) psi.A 0) 0) psi.lA
      (fold (fold psi.B (-1) Y.2 (-1)) (-1) r.U 0) (vecOf r.s) true := rfl
  have hU1 : r.U.dims = [D, D] := by have := hS.dimsU; rwa [min_self] at this
  have hV1 : r.V.dims = [D, D] := by have := hS.dimsV; rwa [min_self] at this
  have hs1 : r.s.length = D := by have := hS.lenS; rwa [min_self] at this
  have hnA : (canonForm L psi).A.dims = [D, d, E] := by rw [hc]; simp [State.ofParts, fold, hV1, x2, h.A, nrm]
  have hnB : (canonForm L psi).B.dims = [E, e, D] := by rw [hc]; simp [State.ofParts, fold, hU1, y2, h.B, nrm]
  have hnl : (canonForm L psi).lB.dims = [D] := by rw [hc]; simp [State.ofParts, vecOf, hs1]
  have hdims : Dims (canonForm L psi) D d E e := ⟨hnA, hnB, h.lA, hnl, h.hD, h.hd, h.hE, h.he⟩
  refine ⟨hdims, hdims.ok (fun a => ⟨(hok.real a).1, ?_⟩) rfl rfl, ?_⟩
  · rw [hc]; simp [State.ofParts, vecOf]
  let g : Gauge (K := K) D :=
    { X := mat D D fun i j => X.1.get [i, j]
      Xi := mat D D fun i j => X.2.get [i, j]
      Y := mat D D fun i j => Y.1.get [i, j]
      Yi := mat D D fun i j => Y.2.get [i, j]
      U := mat D D fun i j => r.U.get [i, j]
      V := mat D D fun i j => r.V.get [i, j]
      l := vecB D psi
      l' := fun k => ((r.s.getD k 0 : ℝ) : K)
      hX := x3
      hY := y3
      hU := by
        rw [mat_H, mat_mul, ← mat_one]
        exact mat_congr fun i hi j hj => hS.isoU i j (by rwa [min_self]) (by rwa [min_self])
      hV := by
        rw [mat_H, mat_mul, ← mat_one]
        exact mat_congr fun i hi j hj => hS.isoV i j (by rwa [min_self]) (by rwa [min_self])
      hl := fun i => (hok.real i).2
      hl' := fun i => by rw [RCLike.star_def, RCLike.conj_ofReal]
      svd := by
        rw [← hauxg, mat_mul_diag D D _ (fun k : Nat => ((r.s.getD k 0 : ℝ) : K)), mat_mul]
        refine mat_congr fun i hi j hj => ?_
        rw [← hS.prod i j hi hj, min_self] }
  refine ⟨g, rfl, ?_, ?_, ?_, ?_⟩
  · funext k
    show ((r.s.getD k 0 : ℝ) : K) = (canonForm L psi).lB.get [k]
    rw [hc]; rfl
  · show (mat D D fun i j => X.1.get [i, j]) * (mat D D fun i j => X.1.get [i, j])ᴴ = _
    rw [x4]
    congr 1
    rw [mat_T]
    exact mat_congr pr2
  · show ((mat D D fun i j => Y.1.get [i, j])ᵀ)ᴴ * (mat D D fun i j => Y.1.get [i, j])ᵀ = _
    have := congrArg Matrix.transpose y4
    rw [Matrix.transpose_mul, Matrix.transpose_smul, mat_T D D (fun i j => (powerEig L psi 1).get [i, j])] at this
    rw [show mat D D (hermPart (eigMat L psi D 1)) = mat D D (fun i j => (powerEig L psi 1).get [j, i]) from
      mat_congr fun i hi j hj => (pl2 j hj i hi).symm, ← this]
    rfl
  · intro x
    have sA : slice D E (canonForm L psi).A x.1 = g.V * g.Xi * slice D E psi.A x.1 := by
      show _ = (mat D D fun i j => r.V.get [i, j]) * (mat D D fun i j => X.2.get [i, j]) * slice D E psi.A x.1
      rw [Matrix.mul_assoc, slice, slice, mat_mul, mat_mul]
      refine mat_congr fun a _ b _ => ?_
      rw [hc]
      simp [State.ofParts, fold, hV1, x2, h.A, nrm]
    have sB : slice E D (canonForm L psi).B x.2 = slice E D psi.B x.2 * g.Yiᵀ * g.U := by
      show _ = slice E D psi.B x.2 * (mat D D fun i j => Y.2.get [i, j])ᵀ * (mat D D fun i j => r.U.get [i, j])
      rw [slice, slice, mat_T, mat_mul, mat_mul]
      refine mat_congr fun a _ b _ => ?_
      rw [hc]
      simp [State.ofParts, fold, hU1, y2, h.B, nrm]
    unfold cellM
    rw [sA, sB, show (canonForm L psi).lA = psi.lA from rfl]
    simp only [Matrix.mul_assoc]

end MPS.ITebd
