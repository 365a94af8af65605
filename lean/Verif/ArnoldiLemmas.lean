import Verif.ArnoldiSpec
import Verif.Props.FormProps
import Verif.Props.ObcProps
import Mathlib.Analysis.InnerProductSpace.PiL2
import Mathlib.Analysis.InnerProductSpace.Projection.Basic
import Mathlib.Analysis.SpecialFunctions.Exponential

/-!
# Superpositions of a family of wave functions: Gram matrix, effective Hamiltonian, exponentials
-/

set_option linter.unusedSectionVars false
set_option linter.unusedSimpArgs false

namespace MPS.Arnoldi
open MPS Tensor Form Minim Obc
variable {m : Nat} {ds : List Nat}

/-- `∑ᵢ cᵢ Sᵢ` -/
def comb (S : Fin m → List Nat → ℂ) (c : Fin m → ℂ) : List Nat → ℂ := fun s => ∑ i, c i * S i s

def gram (ds : List Nat) (S : Fin m → List Nat → ℂ) : Matrix (Fin m) (Fin m) ℂ := Matrix.of fun i j => MPS.inner ds (S i) (S j)

def ham (ds : List Nat) (H : List (Tensor ℂ)) (S : Fin m → List Nat → ℂ) : Matrix (Fin m) (Fin m) ℂ :=
  Matrix.of fun i j => MPS.inner ds (S i) (act ds H (S j))

theorem inner_comb_right (φ : List Nat → ℂ) (S : Fin m → List Nat → ℂ) (c : Fin m → ℂ) :
    MPS.inner ds φ (comb S c) = ∑ i, c i * MPS.inner ds φ (S i) := by
  unfold MPS.inner comb
  simp only [Finset.mul_sum, ← sumCfg_mul_left]
  rw [← sumCfg_sum]
  exact sumCfg_congr fun s _ => Finset.sum_congr rfl fun i _ => by ring

theorem inner_comb_left (φ : List Nat → ℂ) (S : Fin m → List Nat → ℂ) (c : Fin m → ℂ) :
    MPS.inner ds (comb S c) φ = ∑ i, star (c i) * MPS.inner ds (S i) φ := by
  rw [← Props.inner_star', inner_comb_right, star_sum]
  exact Finset.sum_congr rfl fun i _ => by rw [star_mul', Props.inner_star']

theorem inner_comb (S : Fin m → List Nat → ℂ) (c d : Fin m → ℂ) :
    MPS.inner ds (comb S c) (comb S d) = star c ⬝ᵥ (gram ds S).mulVec d := by
  rw [inner_comb_left]
  refine Finset.sum_congr rfl fun i _ => ?_
  rw [inner_comb_right]
  simp only [Pi.star_apply, Matrix.mulVec, dotProduct, gram, Matrix.of_apply]
  congr 1
  exact Finset.sum_congr rfl fun j _ => mul_comm _ _

theorem act_comb (H : List (Tensor ℂ)) (S : Fin m → List Nat → ℂ) (c : Fin m → ℂ) (s : List Nat) :
    act ds H (comb S c) s = comb (fun i => act ds H (S i)) c s := by
  unfold act actOp comb
  simp only [Finset.mul_sum, ← sumCfg_mul_left]
  rw [← sumCfg_sum]
  exact sumCfg_congr fun s _ => Finset.sum_congr rfl fun i _ => by ring

theorem act_congr {H : List (Tensor ℂ)} {φ χ : List Nat → ℂ} (h : ∀ s, IsCfg ds s → φ s = χ s) (s : List Nat) :
    act ds H φ s = act ds H χ s :=
  sumCfg_congr fun t ht => by rw [h t ht]

theorem inner_ham (H : List (Tensor ℂ)) (S : Fin m → List Nat → ℂ) (c d : Fin m → ℂ) :
    MPS.inner ds (comb S c) (act ds H (comb S d)) = star c ⬝ᵥ (ham ds H S).mulVec d := by
  rw [inner_congr (fun _ _ => rfl) (fun s _ => act_comb H S d s), inner_comb_left]
  refine Finset.sum_congr rfl fun i _ => ?_
  rw [inner_comb_right]
  simp only [Pi.star_apply, Matrix.mulVec, dotProduct, ham, Matrix.of_apply]
  congr 1
  exact Finset.sum_congr rfl fun j _ => mul_comm _ _

/-- a Hermitian operator moves to the other side -/
theorem inner_act {H : List (Tensor ℂ)} (hH : Minim.Hermitian ds H) (φ χ : List Nat → ℂ) :
    MPS.inner ds φ (act ds H χ) = MPS.inner ds (act ds H φ) χ := by
  unfold MPS.inner act actOp
  simp only [sumCfg_star, ← sumCfg_mul_left, ← sumCfg_mul_right]
  rw [sumCfg_comm]
  refine sumCfg_congr fun s hs => sumCfg_congr fun t ht => ?_
  rw [star_mul', hH s t hs ht]
  ring

theorem gram_herm (S : Fin m → List Nat → ℂ) : (gram ds S).conjTranspose = gram ds S := by
  ext i j
  simp only [Matrix.conjTranspose_apply, gram, Matrix.of_apply, Props.inner_star']

theorem ham_herm {H : List (Tensor ℂ)} (hH : Minim.Hermitian ds H) (S : Fin m → List Nat → ℂ) : (ham ds H S).conjTranspose = ham ds H S := by
  ext i j
  simp only [Matrix.conjTranspose_apply, ham, Matrix.of_apply, Props.inner_star']
  rw [← inner_act hH]

theorem zero_of_inner {φ : List Nat → ℂ} (h : MPS.inner ds φ φ = 0) : ∀ s, IsCfg ds s → φ s = 0 := by
  have h1 : sumCfg ds (fun s => ‖φ s‖ ^ 2) = 0 := by
    have := inner_self_ofReal ds φ
    rw [h] at this
    exact RCLike.ofReal_eq_zero.1 this.symm
  intro s hs
  have := Props.sumCfg_eq_zero_nonneg ds _ (fun s => by positivity) h1 s hs
  simpa using this

/-- the vectors that the Gram matrix annihilates stand for the wave function zero -/
theorem comb_zero {S : Fin m → List Nat → ℂ} {c : Fin m → ℂ} (h : (gram ds S).mulVec c = 0) : ∀ s, IsCfg ds s → comb S c s = 0 :=
  zero_of_inner (by rw [inner_comb, h, dotProduct_zero])

/-- a Hermitian matrix reaches all the vectors that are orthogonal to its kernel -/
theorem fredholm {G : Matrix (Fin m) (Fin m) ℂ} (hG : G.conjTranspose = G) (b : Fin m → ℂ)
    (hb : ∀ c, G.mulVec c = 0 → star c ⬝ᵥ b = 0) : ∃ x, G.mulVec x = b := by
  let T : EuclideanSpace ℂ (Fin m) →ₗ[ℂ] EuclideanSpace ℂ (Fin m) := Matrix.toEuclideanLin G
  have hT : ∀ (x : EuclideanSpace ℂ (Fin m)) i, T x i = G.mulVec x.ofLp i := by
    intro x i
    simp [T, Matrix.toEuclideanLin, Matrix.toLpLin]
  have hin : ∀ x y : EuclideanSpace ℂ (Fin m), Inner.inner ℂ x y = star x.ofLp ⬝ᵥ y.ofLp := by
    intro x y
    rw [PiLp.inner_apply]
    exact Finset.sum_congr rfl fun i _ => by rw [RCLike.inner_apply, mul_comm]; rfl
  let B : EuclideanSpace ℂ (Fin m) := WithLp.toLp 2 b
  obtain ⟨p, ⟨x, hx⟩, q, hq, hpq⟩ := (LinearMap.range T).exists_add_mem_mem_orthogonal B
  have hTq : G.mulVec q.ofLp = 0 := by
    have h0 : Inner.inner ℂ (T q) (T q) = 0 := by
      have := hq (T (T q)) ⟨_, rfl⟩
      rw [hin] at this ⊢
      have e : ∀ y : EuclideanSpace ℂ (Fin m), (T y).ofLp = G.mulVec y.ofLp := fun y => funext fun i => hT y i
      rw [e (T q), Matrix.star_mulVec, ← Matrix.dotProduct_mulVec, hG, ← e q] at this
      exact this
    have := inner_self_eq_zero.1 h0
    funext i
    rw [← hT, this]; rfl
  have hq0 : q = 0 := by
    have h1 := hb q.ofLp hTq
    have h2 : Inner.inner ℂ q B = 0 := by rw [hin]; exact h1
    rw [hpq, inner_add_right, ← hx] at h2
    have h3 : Inner.inner ℂ q (T x) = 0 := by
      rw [← inner_conj_symm, hq (T x) ⟨x, rfl⟩]; simp
    rw [h3, zero_add] at h2
    exact inner_self_eq_zero.1 h2
  refine ⟨x.ofLp, ?_⟩
  funext i
  rw [← hT, hx]
  have : B i = p i := by rw [hpq, hq0, add_zero]
  rw [← this]

/-- the normal equations have a solution -/
theorem normal_eqs (ds : List Nat) (S : Fin m → List Nat → ℂ) (φ : List Nat → ℂ) : ∃ x, ∀ i, ((gram ds S).mulVec x) i = MPS.inner ds (S i) φ := by
  obtain ⟨x, hx⟩ := fredholm (gram_herm (ds := ds) S) (fun i => MPS.inner ds (S i) φ) (by
    intro c hc
    have : MPS.inner ds (comb S c) φ = 0 := by
      rw [inner_congr (fun s hs => comb_zero hc s hs) (fun s _ => rfl)]
      simp [MPS.inner, sumCfg_zero]
    rw [inner_comb_left] at this
    exact this)
  exact ⟨x, fun i => congrFun hx i⟩

theorem exists_solution (ds : List Nat) (H : List (Tensor ℂ)) (S : Fin m → List Nat → ℂ) : ∃ X : Matrix (Fin m) (Fin m) ℂ, gram ds S * X = ham ds H S := by
  choose x hx using fun j => normal_eqs ds S (act ds H (S j))
  refine ⟨Matrix.of fun i j => x j i, ?_⟩
  ext i j
  rw [Matrix.mul_apply]
  exact hx j i

/-! ### the exponential -/

/-- `exp(-i t X)` conserves the two quadratic forms -/
theorem exp_conserves {G T X : Matrix (Fin m) (Fin m) ℂ} (hG : G.conjTranspose = G) (hT : T.conjTranspose = T) (hX : G * X = T) {a : ℂ}
    (ha : star a = -a) : let U := NormedSpace.exp (a • X); U.conjTranspose * G * U = G ∧ U.conjTranspose * T * U = T := by
  intro U
  let _ : NormedRing (Matrix (Fin m) (Fin m) ℂ) := Matrix.linftyOpNormedRing
  let _ : NormedAlgebra ℂ (Matrix (Fin m) (Fin m) ℂ) := Matrix.linftyOpNormedAlgebra
  let _ : NormedAlgebra ℚ (Matrix (Fin m) (Fin m) ℂ) := NormedAlgebra.restrictScalars ℚ ℂ _
  have h1 : G * X = X.conjTranspose * G := by
    have := congrArg Matrix.conjTranspose hX
    rw [Matrix.conjTranspose_mul, hG, hT] at this
    rw [hX, this]
  have h2 : SemiconjBy G (a • X) (a • X.conjTranspose) := by
    unfold SemiconjBy
    rw [mul_smul_comm, smul_mul_assoc, h1]
  have h3 : G * U = NormedSpace.exp (a • X.conjTranspose) * G := h2.exp_right
  have h4 : U.conjTranspose = NormedSpace.exp (-(a • X.conjTranspose)) := by
    rw [← Matrix.exp_conjTranspose, Matrix.conjTranspose_smul, ha, neg_smul]
  have h5 : NormedSpace.exp (-(a • X.conjTranspose)) * NormedSpace.exp (a • X.conjTranspose) = 1 := by
    rw [← Matrix.exp_add_of_commute _ _ ((Commute.refl (a • X.conjTranspose)).neg_left), neg_add_cancel, NormedSpace.exp_zero]
  have h6 : U.conjTranspose * G * U = G := by
    rw [mul_assoc, h3, h4, ← mul_assoc, h5, one_mul]
  refine ⟨h6, ?_⟩
  have h7 : X * U = U * X := by
    have : Commute X (a • X) := (Commute.refl X).smul_right a
    exact (this.exp_right)
  calc U.conjTranspose * T * U = U.conjTranspose * (G * X) * U := by rw [hX]
    _ = U.conjTranspose * G * (X * U) := by simp only [mul_assoc]
    _ = U.conjTranspose * G * U * X := by rw [h7]; simp only [mul_assoc]
    _ = T := by rw [h6, hX]

theorem exp_hasSum (A : Matrix (Fin m) (Fin m) ℂ) : HasSum (fun k : Nat => (k.factorial : ℂ)⁻¹ • A ^ k) (NormedSpace.exp A) := by
  let _ : NormedRing (Matrix (Fin m) (Fin m) ℂ) := Matrix.linftyOpNormedRing
  let _ : NormedAlgebra ℂ (Matrix (Fin m) (Fin m) ℂ) := Matrix.linftyOpNormedAlgebra
  exact NormedSpace.exp_series_hasSum_exp' (𝕂 := ℂ) A

/-- the entries of the exponential of a matrix, applied to a vector, as the sum of a series -/
theorem exp_mulVec_hasSum (X : Matrix (Fin m) (Fin m) ℂ) (z : ℂ) (e : Fin m → ℂ) (i : Fin m) :
    HasSum (fun k : Nat => z ^ k / (k.factorial : ℂ) * ((X ^ k).mulVec e) i) ((NormedSpace.exp (z • X)).mulVec e i) := by
  have h := exp_hasSum (z • X)
  have hent : ∀ j, HasSum (fun k : Nat => ((k.factorial : ℂ)⁻¹ • (z • X) ^ k) i j) ((NormedSpace.exp (z • X)) i j) := by
    intro j
    exact h.map (Matrix.entryAddMonoidHom ℂ i j) (continuous_id.matrix_elem i j)
  have := hasSum_sum (f := fun j (k : Nat) => ((k.factorial : ℂ)⁻¹ • (z • X) ^ k) i j * e j) (s := Finset.univ) fun j _ => (hent j).mul_right (e j)
  convert this using 1
  swap
  · rfl
  funext k
  rw [Matrix.mulVec, dotProduct, Finset.mul_sum]
  refine Finset.sum_congr rfl fun j _ => ?_
  rw [smul_pow, Matrix.smul_apply, Matrix.smul_apply, smul_eq_mul, smul_eq_mul]
  rw [div_eq_mul_inv]; ring

theorem comb_hasSum (S : Fin m → List Nat → ℂ) (X : Matrix (Fin m) (Fin m) ℂ) (z : ℂ) (e : Fin m → ℂ) (s : List Nat) :
    HasSum (fun k : Nat => z ^ k / (k.factorial : ℂ) * comb S ((X ^ k).mulVec e) s) (comb S ((NormedSpace.exp (z • X)).mulVec e) s) := by
  have := hasSum_sum (f := fun i (k : Nat) => z ^ k / (k.factorial : ℂ) * ((X ^ k).mulVec e) i * S i s) (s := Finset.univ)
    fun i _ => (exp_mulVec_hasSum X z e i).mul_right (S i s)
  convert this using 1
  swap
  · rfl
  funext k
  rw [comb, Finset.mul_sum]
  exact Finset.sum_congr rfl fun i _ => by ring

end MPS.Arnoldi
