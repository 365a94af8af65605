import Verif.ITebdCanonLemmas3

/-!
# C87: the canonical form of an infinite state
-/

set_option linter.unusedSectionVars false
set_option linter.unusedSimpArgs false

namespace MPS.Props
open MPS Tensor ITebd
open scoped Matrix
variable {K : Type} [RCLike K]

theorem matrix0 (psi : State K) : psi.matrix 0 = psi.A := rfl
theorem matrix1 (psi : State K) : psi.matrix 1 = psi.B := rfl
theorem matrix_even (psi : State K) (n : Nat) : psi.matrix (0 + ((2 * n : Nat) : Int)) = psi.A := by
  unfold State.matrix
  rw [if_neg (by omega)]
theorem leftVector_even (psi : State K) (n : Nat) : psi.leftVector (0 + ((2 * n : Nat) : Int)) = psi.lB := by
  unfold State.leftVector
  rw [if_neg (by omega)]

theorem winDims_two (psi : State K) : winDims psi 0 2 = [psi.A.dim 1, psi.B.dim 1] := by
  have := winDims_cell psi 0
  simpa [winDims] using this

/-- entries of the matrices of one cell -/
theorem cell_entry {psi : State K} {D d E e : Nat} (h : Dims psi D d E e) (i j a b : Nat) (ha : a < D) (hb : b < D) :
    path (window psi 0 2) [i, j] a b = (cellM D E psi (i, j) * Matrix.diagonal (vecB D psi)) ⟨a, ha⟩ ⟨b, hb⟩ := by
  have := cell_path h 1 [i, j] rfl
  simp only [pairsOf, List.map_cons, List.map_nil, List.prod_cons, List.prod_nil, Matrix.mul_one] at this
  exact congrFun (congrFun this ⟨a, ha⟩) ⟨b, hb⟩

theorem rightFixed_of {psi : State K} {D d E e : Nat} (h : Dims psi D d E e) {η : K}
    (hm : ∑ i ∈ Finset.range d, ∑ j ∈ Finset.range e, (cellM D E psi (i, j) * Matrix.diagonal (vecB D psi)) *
      (cellM D E psi (i, j) * Matrix.diagonal (vecB D psi))ᴴ = η • 1) : RightFixed psi 0 2 η := by
  intro a ha a' ha'
  rw [matrix0, dim0_of h.A] at ha ha'
  rw [matrix_even psi 1, dim0_of h.A, winDims_two, dim1_of h.A, dim1_of h.B]
  simp only [sumCfg]
  rw [Finset.sum_comm, Finset.sum_congr rfl fun i _ => Finset.sum_comm]
  have := congrFun (congrFun hm ⟨a, ha⟩) ⟨a', ha'⟩
  simp only [Matrix.sum_apply, Matrix.mul_apply, Matrix.conjTranspose_apply, Matrix.smul_apply, Matrix.one_apply, Fin.mk.injEq] at this
  rw [show (if a = a' then η else 0) = η • (if a = a' then (1 : K) else 0) by split <;> simp, ← this]
  refine Finset.sum_congr rfl fun i _ => Finset.sum_congr rfl fun j _ => ?_
  rw [← Fin.sum_univ_eq_sum_range (fun b => path (window psi 0 2) [i, j] a b * star (path (window psi 0 2) [i, j] a' b))]
  refine Finset.sum_congr rfl fun b _ => ?_
  rw [cell_entry h i j a b ha b.2, cell_entry h i j a' b ha' b.2]
  simp only [Matrix.mul_apply]

theorem leftFixed_of {psi : State K} {D d E e : Nat} (h : Dims psi D d E e) {η : K}
    (hm : ∑ i ∈ Finset.range d, ∑ j ∈ Finset.range e, (Matrix.diagonal (vecB D psi) * (cellM D E psi (i, j) * Matrix.diagonal (vecB D psi)))ᴴ *
      (Matrix.diagonal (vecB D psi) * (cellM D E psi (i, j) * Matrix.diagonal (vecB D psi))) =
        η • (Matrix.diagonal (vecB D psi) * Matrix.diagonal (vecB D psi))) : LeftFixed psi 0 2 η := by
  intro b hb b' hb'
  rw [matrix_even psi 1, dim0_of h.A] at hb hb'
  rw [matrix0, dim0_of h.A, winDims_two, dim1_of h.A, dim1_of h.B, leftVector_even psi 1]
  simp only [sumCfg]
  rw [Finset.sum_comm, Finset.sum_congr rfl fun i _ => Finset.sum_comm]
  have := congrFun (congrFun hm ⟨b, hb⟩) ⟨b', hb'⟩
  rw [Matrix.diagonal_mul_diagonal] at this
  simp only [Matrix.sum_apply, Matrix.smul_apply, Matrix.diagonal_apply, Fin.mk.injEq] at this
  rw [show (if b = b' then η * psi.lB.get [b] ^ 2 else 0) = η • (if b = b' then vecB D psi ⟨b, hb⟩ * vecB D psi ⟨b, hb⟩ else 0) by
    split
    · simp only [vecB, smul_eq_mul]; ring
    · simp, ← this]
  refine Finset.sum_congr rfl fun i _ => Finset.sum_congr rfl fun j _ => ?_
  rw [Matrix.mul_apply]
  rw [← Fin.sum_univ_eq_sum_range (fun a => star (winAmp psi 0 2 a b [i, j]) * winAmp psi 0 2 a b' [i, j])]
  refine Finset.sum_congr rfl fun a _ => ?_
  rw [Matrix.conjTranspose_apply, Matrix.diagonal_mul, Matrix.diagonal_mul, ← cell_entry h i j a b a.2 hb, ← cell_entry h i j a b' a.2 hb']
  rfl

/-- entries of a product of three matrices -/
theorem triple_entry {D : Nat} (G M H : Matrix (Fin D) (Fin D) K) (G' M' H' : Nat → Nat → K) (hG : ∀ i j : Fin D, G' i j = G i j)
    (hM : ∀ i j : Fin D, M' i j = M i j) (hH : ∀ i j : Fin D, H' i j = H i j) (a b : Fin D) :
    (G * M * H) a b = ∑ c ∈ Finset.range D, ∑ d ∈ Finset.range D, G' a c * M' c d * H' d b := by
  simp only [Matrix.mul_apply, Finset.sum_mul]
  rw [Finset.sum_comm, ← Fin.sum_univ_eq_sum_range (fun c => ∑ d ∈ Finset.range D, G' a c * M' c d * H' d b)]
  refine Finset.sum_congr rfl fun c _ => ?_
  rw [← Fin.sum_univ_eq_sum_range (fun d => G' a c * M' c d * H' d b)]
  exact Finset.sum_congr rfl fun d _ => by rw [hG, hM, hH]

/-- a matrix as a function of two numbers -/
def entry {D : Nat} (G : Matrix (Fin D) (Fin D) K) (i j : Nat) : K := if h : i < D ∧ j < D then G ⟨i, h.1⟩ ⟨j, h.2⟩ else 0

theorem entry_fin {D : Nat} (G : Matrix (Fin D) (Fin D) K) (i j : Fin D) : entry G i j = G i j := by simp [entry]

theorem entry_lt {D : Nat} (G : Matrix (Fin D) (Fin D) K) {i j : Nat} (hi : i < D) (hj : j < D) : entry G i j = G ⟨i, hi⟩ ⟨j, hj⟩ :=
  entry_fin G ⟨i, hi⟩ ⟨j, hj⟩

theorem inverses_of {D : Nat} {G G' : Matrix (Fin D) (Fin D) K} (h : G * G' = 1) : Inverses D (entry G) (entry G') := by
  have key : ∀ {G G' : Matrix (Fin D) (Fin D) K}, G * G' = 1 → ∀ i < D, ∀ j < D,
      ∑ k ∈ Finset.range D, entry G i k * entry G' k j = if i = j then 1 else 0 := by
    intro G G' h i hi j hj
    have := congrFun (congrFun h ⟨i, hi⟩) ⟨j, hj⟩
    rw [Matrix.mul_apply, Matrix.one_apply] at this
    rw [← Fin.sum_univ_eq_sum_range (fun k => entry G i k * entry G' k j)]
    simp only [Fin.mk.injEq] at this
    rw [← this]
    exact Finset.sum_congr rfl fun k _ => by rw [entry_lt G hi k.2, entry_lt G' k.2 hj]
  exact ⟨key h, key (mul_eq_one_comm.1 h)⟩

/-- the sum over a change of basis -/
theorem form_change {D : Nat} {ds : List Nat} (F F' : Nat → Nat → List Nat → K) (G H : Nat → Nat → K) (ρL ρR : Nat → Nat → K)
    (O : List Nat → List Nat → K)
    (hF : ∀ s, IsCfg ds s → ∀ a < D, ∀ b < D, F' a b s = ∑ c ∈ Finset.range D, ∑ d ∈ Finset.range D, G a c * F c d s * H d b)
    (hL : ∀ c < D, ∀ c' < D, ∑ a ∈ Finset.range D, star (G a c) * G a c' = ρL c c')
    (hR : ∀ d < D, ∀ d' < D, ∑ b ∈ Finset.range D, star (H d b) * H d' b = ρR d d') :
    ∑ a ∈ Finset.range D, ∑ b ∈ Finset.range D, MPS.inner ds (F' a b) (actOp ds O (F' a b)) =
      ∑ c ∈ Finset.range D, ∑ c' ∈ Finset.range D, ∑ d ∈ Finset.range D, ∑ d' ∈ Finset.range D, ρL c c' * ρR d d' *
        MPS.inner ds (F c d) (actOp ds O (F c' d')) := by
  have hin : ∀ (f g : List Nat → K), MPS.inner ds f (actOp ds O g) = sumCfg ds fun s => sumCfg ds fun t => star (f s) * O s t * g t := by
    intro f g
    unfold MPS.inner actOp
    refine sumCfg_congr fun s _ => ?_
    rw [← sumCfg_mul_left]
    exact sumCfg_congr fun t _ => by ring
  have hl : ∀ a ∈ Finset.range D, ∀ b ∈ Finset.range D, MPS.inner ds (F' a b) (actOp ds O (F' a b)) =
      ∑ c ∈ Finset.range D, ∑ c' ∈ Finset.range D, ∑ d ∈ Finset.range D, ∑ d' ∈ Finset.range D,
        (star (G a c) * G a c') * (star (H d b) * H d' b) * MPS.inner ds (F c d) (actOp ds O (F c' d')) := by
    intro a ha b hb
    have ha := Finset.mem_range.1 ha
    have hb := Finset.mem_range.1 hb
    simp only [hin, ← sumCfg_mul_left]
    simp only [← sumCfg_sum]
    refine sumCfg_congr fun s hs => sumCfg_congr fun t ht => ?_
    rw [hF s hs a ha b hb, hF t ht a ha b hb, star_sum, Finset.sum_mul, Finset.sum_mul]
    refine Finset.sum_congr rfl fun c _ => ?_
    rw [star_sum, Finset.mul_sum]
    refine Finset.sum_congr rfl fun c' _ => ?_
    rw [Finset.sum_mul, Finset.sum_mul]
    refine Finset.sum_congr rfl fun d _ => ?_
    rw [Finset.mul_sum]
    refine Finset.sum_congr rfl fun d' _ => ?_
    simp only [star_mul']
    ring
  rw [Finset.sum_congr rfl fun a ha => Finset.sum_congr rfl fun b hb => hl a ha b hb]
  have hr : ∀ c ∈ Finset.range D, ∀ c' ∈ Finset.range D, ∀ d ∈ Finset.range D, ∀ d' ∈ Finset.range D,
      ρL c c' * ρR d d' * MPS.inner ds (F c d) (actOp ds O (F c' d')) = ∑ a ∈ Finset.range D, ∑ b ∈ Finset.range D,
        (star (G a c) * G a c') * (star (H d b) * H d' b) * MPS.inner ds (F c d) (actOp ds O (F c' d')) := by
    intro c hc c' hc' d hd d' hd'
    rw [← hL c (Finset.mem_range.1 hc) c' (Finset.mem_range.1 hc'), ← hR d (Finset.mem_range.1 hd) d' (Finset.mem_range.1 hd'),
      Finset.sum_mul_sum, Finset.sum_mul]
    exact Finset.sum_congr rfl fun a _ => by rw [Finset.sum_mul]
  rw [Finset.sum_congr rfl fun c hc => Finset.sum_congr rfl fun c' hc' => Finset.sum_congr rfl fun d hd => Finset.sum_congr rfl fun d' hd' =>
    hr c hc c' hc' d hd d' hd']
  generalize (fun c c' d d' => MPS.inner ds (F c d) (actOp ds O (F c' d'))) = Z
  have sw : ∀ f : Nat → Nat → Nat → Nat → Nat → Nat → K, ∑ a ∈ Finset.range D, ∑ b ∈ Finset.range D, ∑ c ∈ Finset.range D, ∑ c' ∈ Finset.range D,
      ∑ d ∈ Finset.range D, ∑ d' ∈ Finset.range D, f a b c c' d d' = ∑ c ∈ Finset.range D, ∑ c' ∈ Finset.range D,
      ∑ d ∈ Finset.range D, ∑ d' ∈ Finset.range D, ∑ a ∈ Finset.range D, ∑ b ∈ Finset.range D, f a b c c' d d' := by
    intro f
    rw [Finset.sum_congr rfl fun a _ => Finset.sum_comm, Finset.sum_comm]
    refine Finset.sum_congr rfl fun c _ => ?_
    rw [Finset.sum_congr rfl fun a _ => Finset.sum_comm, Finset.sum_comm]
    refine Finset.sum_congr rfl fun c' _ => ?_
    rw [Finset.sum_congr rfl fun a _ => Finset.sum_comm, Finset.sum_comm]
    refine Finset.sum_congr rfl fun d _ => ?_
    rw [Finset.sum_congr rfl fun a _ => Finset.sum_comm, Finset.sum_comm]
  exact sw _

/-- C87.  Let the solver `eigs` return, for the left and for the right surroundings of a cell, eigenvectors with real eigenvalues and
definite Hermitian parts.  Then `canonical_form()` returns a state, flagged as canonical, with the same dimensions, which describes the
same chain: the wave functions of a window of whole cells change by an invertible basis change of the surroundings.  The bases on both
sides of a cell are orthonormal up to a factor, and the expected value of any operator on a window of whole cells is computed with the
leading eigenvectors of the transfer operator as surroundings. -/
theorem C87_canonical_form {L : Lib K} (hsvd : GoodSvd L.svd) (hsym : GoodEigSym L.eigSym) {psi : State K} (hok : Ok psi)
    {ηR εR ηL εL : ℝ} (hR : EigOk L psi ((psi.matrix 0).dim 0) (-1) ηR εR) (hL : EigOk L psi ((psi.matrix 0).dim 0) 1 ηL εL) :
    Ok (canonForm L psi) ∧ (canonForm L psi).canonical = true ∧ SameChain psi (canonForm L psi) ∧
    RightFixed (canonForm L psi) 0 2 ηR ∧ LeftFixed (canonForm L psi) 0 2 ηL ∧
    ∀ (n : Nat) (O : List Nat → List Nat → K), winForm (canonForm L psi) 0 (2 * n) O = ((εL * εR : ℝ) : K) *
      boundForm psi (2 * n) (hermPart (eigMat L psi ((psi.matrix 0).dim 0) 1)) (hermPart (eigMat L psi ((psi.matrix 0).dim 0) (-1))) O := by
  have h := hok.dims4
  rw [matrix0] at *
  set D := psi.A.dim 0 with hDdef
  set d := psi.A.dim 1
  set E := psi.A.dim 2
  set e := psi.B.dim 1
  obtain ⟨hd', hok', g, g1, g2, g3, g4, g5⟩ := canon_gauge hsvd hsym hok h hR hL
  set phi := canonForm L psi with hphi
  have hT : ∀ x, cellM D E phi x * Matrix.diagonal (vecB D phi) =
      g.V * g.Xi * (cellM D E psi x * Matrix.diagonal (vecB D psi)) * g.X * g.Vᴴ := by
    intro x; rw [g5, ← g2, g.cell, g1]
  have hds : ∀ n, winDims phi 0 (2 * n) = winDims psi 0 (2 * n) := by
    intro n
    induction n with
    | zero => rfl
    | succ n ih => rw [winDims_cell, winDims_cell, ih, dim1_of hd'.A, dim1_of hd'.B]
  -- amplitudes
  have hamp : ∀ (n : Nat) (s : List Nat), IsCfg (winDims psi 0 (2 * n)) s → ∀ a < D, ∀ b < D, winAmp phi 0 (2 * n) a b s =
      ∑ c ∈ Finset.range D, ∑ k ∈ Finset.range D, entry (g.Uᴴ * g.Yᵀ) a c * winAmp psi 0 (2 * n) c k s * entry (g.X * g.Vᴴ) k b := by
    intro n s hs a ha b hb
    have hlen : s.length = 2 * n := by rw [hs.length_eq, winDims_length]
    have h1 := amp_mat hd' n s hlen
    rw [List.map_congr_left fun x _ => hT x] at h1
    have h2 := g.chain ((pairsOf s).map fun x => cellM D E psi x * Matrix.diagonal (vecB D psi))
    rw [List.map_map, g2, g1] at h2
    rw [show (fun x => g.V * g.Xi * (cellM D E psi x * Matrix.diagonal (vecB D psi)) * g.X * g.Vᴴ) =
      (fun t => g.V * g.Xi * t * g.X * g.Vᴴ) ∘ fun x => cellM D E psi x * Matrix.diagonal (vecB D psi) from rfl, h2, ← amp_mat h n s hlen] at h1
    have h3 := congrFun (congrFun h1 ⟨a, ha⟩) ⟨b, hb⟩
    rw [triple_entry _ (mat D D fun a b => winAmp psi 0 (2 * n) a b s) _ (entry (g.Uᴴ * g.Yᵀ)) (fun a b => winAmp psi 0 (2 * n) a b s) (entry (g.X * g.Vᴴ)) (entry_fin _) (fun _ _ => rfl)
      (entry_fin _)] at h3
    exact h3
  refine ⟨hok', rfl, ⟨?_, ?_, ?_, ?_⟩, ?_, ?_, ?_⟩
  · rw [matrix0, matrix0, dim0_of hd'.A]
  · rw [matrix0, matrix0, dim1_of hd'.A]
  · rw [matrix1, matrix1, dim1_of hd'.B]
  · refine ⟨entry (g.Uᴴ * g.Yᵀ), entry (g.Yiᵀ * g.U), entry (g.X * g.Vᴴ), entry (g.V * g.Xi), inverses_of ?_, inverses_of ?_, ?_⟩
    · calc g.Uᴴ * g.Yᵀ * (g.Yiᵀ * g.U) = g.Uᴴ * (g.Yᵀ * g.Yiᵀ) * g.U := by simp only [Matrix.mul_assoc]
        _ = 1 := by rw [g.hYt', Matrix.mul_one, g.hU]
    · calc g.X * g.Vᴴ * (g.V * g.Xi) = g.X * (g.Vᴴ * g.V) * g.Xi := by simp only [Matrix.mul_assoc]
        _ = 1 := by rw [g.hV', Matrix.mul_one, g.hX]
    · exact hamp
  · refine rightFixed_of hd' ?_
    have h1 := herm_left (Finset.range d ×ˢ Finset.range e) (fun x => cellM D E psi x * Matrix.diagonal (vecB D psi)) (eigMat L psi D (-1)) ηR
      (by rw [Finset.sum_product]; exact eig_left h hR.eig)
    have h2 := g.right_fixed (Finset.range d ×ˢ Finset.range e) (fun x => cellM D E psi x * Matrix.diagonal (vecB D psi)) (ηR : K)
      (by
        rw [g3]
        simp only [Matrix.mul_smul, Matrix.smul_mul]
        rw [← Finset.smul_sum, h1, smul_comm])
    rw [Finset.sum_product] at h2
    rw [← h2]
    exact Finset.sum_congr rfl fun i _ => Finset.sum_congr rfl fun j _ => by rw [hT]
  · refine leftFixed_of hd' ?_
    have h1 := herm_right (Finset.range d ×ˢ Finset.range e) (fun x => Matrix.diagonal (vecB D psi) * cellM D E psi x) (eigMat L psi D 1) ηL
      (by rw [Finset.sum_product]; exact eig_right h hL.eig)
    have h2 := g.left_fixed (Finset.range d ×ˢ Finset.range e) (fun x => cellM D E psi x) (ηL : K)
      (by
        rw [g4, g1]
        simp only [Matrix.mul_smul, Matrix.smul_mul]
        rw [← Finset.smul_sum, h1, smul_comm])
    rw [Finset.sum_product] at h2
    rw [← g2, ← h2]
    refine Finset.sum_congr rfl fun i _ => Finset.sum_congr rfl fun j _ => ?_
    have := hT (i, j)
    rw [← g2, ← g1] at this
    rw [this]
  · intro n O
    have hL' : ∀ c < D, ∀ c' < D, ∑ a ∈ Finset.range D, star (entry (g.Uᴴ * g.Yᵀ) a c) * entry (g.Uᴴ * g.Yᵀ) a c' =
        (εL : K) * hermPart (eigMat L psi D 1) c c' := by
      intro c hc c' hc'
      have : (g.Uᴴ * g.Yᵀ)ᴴ * (g.Uᴴ * g.Yᵀ) = (εL : K) • mat D D (hermPart (eigMat L psi D 1)) := by
        rw [← g4, Matrix.conjTranspose_mul, Matrix.conjTranspose_conjTranspose]
        calc (g.Yᵀ)ᴴ * g.U * (g.Uᴴ * g.Yᵀ) = (g.Yᵀ)ᴴ * (g.U * g.Uᴴ) * g.Yᵀ := by simp only [Matrix.mul_assoc]
          _ = _ := by rw [g.hU', Matrix.mul_one]
      have := congrFun (congrFun this ⟨c, hc⟩) ⟨c', hc'⟩
      rw [Matrix.mul_apply] at this
      rw [show (εL : K) * hermPart (eigMat L psi D 1) c c' = ((εL : K) • mat D D (hermPart (eigMat L psi D 1))) ⟨c, hc⟩ ⟨c', hc'⟩ from rfl, ← this,
        ← Fin.sum_univ_eq_sum_range (fun a => star (entry (g.Uᴴ * g.Yᵀ) a c) * entry (g.Uᴴ * g.Yᵀ) a c')]
      exact Finset.sum_congr rfl fun a _ => by rw [Matrix.conjTranspose_apply, entry_lt _ a.2 hc, entry_lt _ a.2 hc']
    have hR' : ∀ k < D, ∀ k' < D, ∑ b ∈ Finset.range D, star (entry (g.X * g.Vᴴ) k b) * entry (g.X * g.Vᴴ) k' b =
        (εR : K) * hermPart (eigMat L psi D (-1)) k k' := by
      intro k hk k' hk'
      have : (g.X * g.Vᴴ) * (g.X * g.Vᴴ)ᴴ = (εR : K) • (mat D D (hermPart (eigMat L psi D (-1))))ᵀ := by
        rw [← g3, Matrix.conjTranspose_mul, Matrix.conjTranspose_conjTranspose]
        calc g.X * g.Vᴴ * (g.V * g.Xᴴ) = g.X * (g.Vᴴ * g.V) * g.Xᴴ := by simp only [Matrix.mul_assoc]
          _ = _ := by rw [g.hV', Matrix.mul_one]
      have := congrFun (congrFun this ⟨k', hk'⟩) ⟨k, hk⟩
      rw [Matrix.mul_apply] at this
      rw [show (εR : K) * hermPart (eigMat L psi D (-1)) k k' = ((εR : K) • (mat D D (hermPart (eigMat L psi D (-1))))ᵀ) ⟨k', hk'⟩ ⟨k, hk⟩ from rfl,
        ← this, ← Fin.sum_univ_eq_sum_range (fun b => star (entry (g.X * g.Vᴴ) k b) * entry (g.X * g.Vᴴ) k' b)]
      exact Finset.sum_congr rfl fun b _ => by rw [Matrix.conjTranspose_apply, entry_lt _ hk b.2, entry_lt _ hk' b.2, mul_comm]
    unfold winForm boundForm
    rw [matrix0, matrix0, matrix_even, dim0_of hd'.A, hds n, ← hDdef]
    rw [form_change (winAmp psi 0 (2 * n)) (winAmp phi 0 (2 * n)) _ _ _ _ O (hamp n) hL' hR']
    simp only [Finset.mul_sum]
    refine Finset.sum_congr rfl fun _ _ => Finset.sum_congr rfl fun _ _ => Finset.sum_congr rfl fun _ _ => Finset.sum_congr rfl fun _ _ => ?_
    push_cast
    ring

end MPS.Props
