import Verif.ArnoldiLemmas5

/-!
# The coefficients
-/

set_option linter.unusedSectionVars false
set_option linter.unusedSimpArgs false

namespace MPS.Arnoldi
open MPS Tensor Form Minim Obc
variable {ds : List Nat}

theorem mmult_vec {A B : Tensor ℂ} {n : Nat} (hA : A.dims = [n, n]) (hB : B.dims = [n]) :
    (mmult A B).dims = [n] ∧ ∀ i, (mmult A B).get [i] = ∑ k ∈ Finset.range n, A.get [i, k] * B.get [k] := by
  constructor
  · simp [mmult, fold, hA, hB, nrm]
  · intro i
    simp [mmult, fold, hA, hB, nrm]

/-- the vectors of the basis as a family -/
def Basis.family (b : Basis) : Fin b.states.length → List Nat → ℂ := fun i => b.vec i.1

/-- the matrix `N⁻¹ Heff` -/
noncomputable def Basis.mat (b : Basis) (lin : Tensor ℂ → Tensor ℂ → Tensor ℂ) : Matrix (Fin b.states.length) (Fin b.states.length) ℂ :=
  toMat b.states.length (lin b.N b.Heff)

/-- the first unit vector -/
def unit0 (n : Nat) : Fin n → ℂ := fun i => if i.1 = 0 then 1 else 0

theorem superpose_comb (b : Basis) (c : Tensor ℂ) (hc : c.dims = [b.states.length]) (s : List Nat) :
    superpose ((List.range (c.dim 0)).map fun i => c.get [i]) b.states s = comb b.family (fun i => c.get [i.1]) s := by
  have hd : c.dim 0 = b.states.length := by simp [dim, hc, nrm]
  rw [hd]
  unfold superpose comb
  rw [Finset.sum_range]
  refine Finset.sum_congr rfl fun i _ => ?_
  have : ((List.range b.states.length).map fun i => c.get [i]).getD i.1 0 = c.get [i.1] := by
    rw [List.getD_eq_getElem _ _ (by simp)]
    simp
  rw [this]
  rfl

theorem comb_unit0 (b : Basis) (h : 0 < b.states.length) (s : List Nat) : comb b.family (unit0 _) s = b.vec 0 s := by
  unfold comb unit0
  rw [Finset.sum_eq_single (⟨0, h⟩ : Fin b.states.length)]
  · simp [Basis.family]
  · intro i _ hi
    have : i.1 ≠ 0 := fun h0 => hi (Fin.ext h0)
    simp [this]
  · simp

section
variable {H psi : List (Tensor ℂ)} {nv : Nat} {b : Basis}

theorem Krylov.gramEq (hK : Krylov ds H psi nv b) (hf : Faithful ds psi b) : toMat b.states.length b.N = Arnoldi.gram ds b.family := by
  ext i j
  exact hK.gram hf i.1 i.2 j.1 j.2

theorem Krylov.hamEq (hK : Krylov ds H psi nv b) (hf : Faithful ds psi b) : toMat b.states.length b.Heff = Arnoldi.ham ds H b.family := by
  ext i j
  exact hK.ham hf i.1 i.2 j.1 j.2

theorem Krylov.solve (hK : Krylov ds H psi nv b) (hf : Faithful ds psi b) {lin : Tensor ℂ → Tensor ℂ → Tensor ℂ} (hl : GoodSolveM lin) :
    Arnoldi.gram ds b.family * b.mat lin = Arnoldi.ham ds H b.family := by
  obtain ⟨X, hX⟩ := exists_solution ds H b.family
  obtain ⟨-, h⟩ := hl b.N b.Heff b.states.length hK.dims.1 hK.dims.2
  have h := h ⟨fun k j => if hkj : k < b.states.length ∧ j < b.states.length then X ⟨k, hkj.1⟩ ⟨j, hkj.2⟩ else 0, fun i hi j hj => by
    have := congrFun (congrFun hX ⟨i, hi⟩) ⟨j, hj⟩
    rw [← hK.gramEq hf, ← hK.hamEq hf, Matrix.mul_apply] at this
    rw [Finset.sum_range]
    simp only [Fin.is_lt, hj, and_self, dif_pos, Fin.eta]
    exact this⟩
  rw [← hK.gramEq hf, ← hK.hamEq hf]
  ext i j
  rw [Matrix.mul_apply]
  have := h i.1 i.2 j.1 j.2
  rw [Finset.sum_range] at this
  exact this

/-- the coefficients of the evolved state -/
theorem coefficients_evolve (hK : Krylov ds H psi nv b) {lin : Tensor ℂ → Tensor ℂ → Tensor ℂ} (hl : GoodSolveM lin) {expm : Tensor ℂ → Tensor ℂ}
    (he : ExactExpm expm) (eig : Tensor ℂ → Tensor ℂ × Tensor ℂ) {dt : ℂ} (hdt : dt ≠ 0) :
    (coefficients lin expm eig dt b.Heff b.N).dims = [b.states.length] ∧
      (fun i : Fin b.states.length => (coefficients lin expm eig dt b.Heff b.N).get [i.1]) =
        (NormedSpace.exp ((-Complex.I * dt) • b.mat lin)).mulVec (unit0 _) := by
  have hd := (hl b.N b.Heff b.states.length hK.dims.1 hK.dims.2).1
  obtain ⟨e1, e2⟩ := he (smul (-Complex.I * dt) (lin b.N b.Heff)) b.states.length hd
  have hdim : b.Heff.dim 0 = b.states.length := by simp [dim, hK.dims.2, nrm]
  unfold coefficients
  rw [if_neg (by simpa using hdt)]
  obtain ⟨m1, m2⟩ := mmult_vec (B := setAt (zeros [b.Heff.dim 0]) [0] (1 : ℂ)) e1 (by rw [hdim]; rfl)
  refine ⟨m1, ?_⟩
  have e3 : toMat b.states.length (smul (-Complex.I * dt) (lin b.N b.Heff)) = (-Complex.I * dt) • b.mat lin := rfl
  funext i
  rw [m2, Finset.sum_range]
  rw [e3] at e2
  rw [← e2]
  refine Finset.sum_congr rfl fun k _ => ?_
  congr 1
  by_cases hk : k.1 = 0
  · simp [setAt, unit0, hk]
  · simp [setAt, unit0, hk, zeros]

end

/-- the state that the coefficients stand for -/
theorem superpose_evolve {H psi : List (Tensor ℂ)} {nv : Nat} {b : Basis} (hK : Krylov ds H psi nv b) {lin : Tensor ℂ → Tensor ℂ → Tensor ℂ}
    (hl : GoodSolveM lin) {expm : Tensor ℂ → Tensor ℂ} (he : ExactExpm expm) (eig : Tensor ℂ → Tensor ℂ × Tensor ℂ) {dt : ℂ} (hdt : dt ≠ 0) (s : List Nat) :
    superpose ((List.range ((coefficients lin expm eig dt b.Heff b.N).dim 0)).map fun i => (coefficients lin expm eig dt b.Heff b.N).get [i]) b.states s =
      comb b.family ((NormedSpace.exp ((-Complex.I * dt) • b.mat lin)).mulVec (unit0 _)) s := by
  obtain ⟨c1, c2⟩ := coefficients_evolve hK hl he eig hdt
  rw [superpose_comb b _ c1, c2]

/-- norm and energy of the evolved state, for real times -/
theorem conserved {H psi : List (Tensor ℂ)} {nv : Nat} {b : Basis} (hK : Krylov ds H psi nv b) (hf : Faithful ds psi b) (hH : Minim.Hermitian ds H)
    {lin : Tensor ℂ → Tensor ℂ → Tensor ℂ} (hl : GoodSolveM lin) (t : ℝ) :
    let v := comb b.family ((NormedSpace.exp ((-Complex.I * (t : ℂ)) • b.mat lin)).mulVec (unit0 _))
    normSqOf ds v = 1 ∧ energyAt ds H v = energyAt ds H (amp psi) := by
  intro v
  have ha : star (-Complex.I * (t : ℂ)) = -(-Complex.I * (t : ℂ)) := by
    simp
  obtain ⟨u1, u2⟩ := exp_conserves (gram_herm (ds := ds) b.family) (ham_herm hH b.family) (hK.solve hf hl) ha
  set U := NormedSpace.exp ((-Complex.I * (t : ℂ)) • b.mat lin) with hU
  have key : ∀ A : Matrix (Fin b.states.length) (Fin b.states.length) ℂ, U.conjTranspose * A * U = A →
      star (U.mulVec (unit0 _)) ⬝ᵥ A.mulVec (U.mulVec (unit0 _)) = star (unit0 b.states.length) ⬝ᵥ A.mulVec (unit0 _) := by
    intro A hA
    rw [Matrix.star_mulVec, ← Matrix.dotProduct_mulVec, Matrix.mulVec_mulVec, Matrix.mulVec_mulVec, hA]
  have hfirst : ∀ s, IsCfg ds s → comb b.family (unit0 _) s = amp psi s := fun s hs => by
    rw [comb_unit0 b hK.size.1, hK.first hf s hs]
  constructor
  · have h1 : MPS.inner ds v v = MPS.inner ds (comb b.family (unit0 _)) (comb b.family (unit0 _)) := by
      rw [inner_comb, inner_comb, key _ u1]
    rw [inner_congr hfirst hfirst, inner_unit hf.2, inner_self_ofReal] at h1
    have := congrArg RCLike.re h1
    rw [RCLike.ofReal_re] at this
    exact this.trans (by simp)
  · have h1 : MPS.inner ds v (act ds H v) = MPS.inner ds (comb b.family (unit0 _)) (act ds H (comb b.family (unit0 _))) := by
      rw [inner_ham, inner_ham, key _ u2]
    rw [inner_congr hfirst (fun s _ => act_congr hfirst s)] at h1
    unfold energyAt
    rw [h1]

end MPS.Arnoldi
