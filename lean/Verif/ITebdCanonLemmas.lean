import Verif.ITebdCanonSpec
import Verif.ITebdLemmas3
import Mathlib.LinearAlgebra.Matrix.NonsingularInverse
import Mathlib.LinearAlgebra.Matrix.Hermitian

/-!
# The algebra of the canonical form
-/

set_option linter.unusedSectionVars false
set_option linter.unusedSimpArgs false

namespace MPS.ITebd
open MPS Tensor
open scoped Matrix
variable {K : Type} [RCLike K]

/-- what the canonical form does to the matrices of a cell -/
structure Gauge (D : Nat) where
  X : Matrix (Fin D) (Fin D) K
  Xi : Matrix (Fin D) (Fin D) K
  Y : Matrix (Fin D) (Fin D) K
  Yi : Matrix (Fin D) (Fin D) K
  U : Matrix (Fin D) (Fin D) K
  V : Matrix (Fin D) (Fin D) K
  l : Fin D → K
  l' : Fin D → K
  hX : X * Xi = 1
  hY : Y * Yi = 1
  hU : Uᴴ * U = 1
  hV : V * Vᴴ = 1
  hl : ∀ i, star (l i) = l i
  hl' : ∀ i, star (l' i) = l' i
  svd : Yᵀ * Matrix.diagonal l * X = U * Matrix.diagonal l' * V

namespace Gauge
variable {D : Nat} (g : Gauge (K := K) D)

theorem hX' : g.Xi * g.X = 1 := mul_eq_one_comm.1 g.hX
theorem hY' : g.Yi * g.Y = 1 := mul_eq_one_comm.1 g.hY
theorem hU' : g.U * g.Uᴴ = 1 := mul_eq_one_comm.1 g.hU
theorem hV' : g.Vᴴ * g.V = 1 := mul_eq_one_comm.1 g.hV
theorem hYt : g.Yiᵀ * g.Yᵀ = 1 := by rw [← Matrix.transpose_mul, g.hY, Matrix.transpose_one]
theorem hYt' : g.Yᵀ * g.Yiᵀ = 1 := by rw [← Matrix.transpose_mul, g.hY', Matrix.transpose_one]

theorem diagH (l : Fin D → K) (h : ∀ i, star (l i) = l i) : (Matrix.diagonal l)ᴴ = Matrix.diagonal l := by
  rw [Matrix.diagonal_conjTranspose]
  congr 1; funext i; exact h i

/-- the new matrices of a cell with the vector on its right -/
theorem cell (M : Matrix (Fin D) (Fin D) K) :
    g.V * g.Xi * M * g.Yiᵀ * g.U * Matrix.diagonal g.l' = g.V * g.Xi * (M * Matrix.diagonal g.l) * g.X * g.Vᴴ := by
  have h : g.U * Matrix.diagonal g.l' = g.Yᵀ * Matrix.diagonal g.l * g.X * g.Vᴴ := by
    rw [g.svd, Matrix.mul_assoc, g.hV, Matrix.mul_one]
  calc g.V * g.Xi * M * g.Yiᵀ * g.U * Matrix.diagonal g.l' = g.V * g.Xi * M * g.Yiᵀ * (g.U * Matrix.diagonal g.l') := by
        simp only [Matrix.mul_assoc]
    _ = g.V * g.Xi * M * (g.Yiᵀ * g.Yᵀ) * Matrix.diagonal g.l * g.X * g.Vᴴ := by rw [h]; simp only [Matrix.mul_assoc]
    _ = _ := by rw [g.hYt]; simp only [Matrix.mul_assoc, Matrix.mul_one, Matrix.one_mul]

/-- the vector on the left -/
theorem left : Matrix.diagonal g.l' * g.V * g.Xi = g.Uᴴ * g.Yᵀ * Matrix.diagonal g.l := by
  calc Matrix.diagonal g.l' * g.V * g.Xi = (g.Uᴴ * g.U) * Matrix.diagonal g.l' * g.V * g.Xi := by rw [g.hU, Matrix.one_mul]
    _ = g.Uᴴ * (g.U * Matrix.diagonal g.l' * g.V) * g.Xi := by simp only [Matrix.mul_assoc]
    _ = g.Uᴴ * g.Yᵀ * Matrix.diagonal g.l * (g.X * g.Xi) := by rw [← g.svd]; simp only [Matrix.mul_assoc]
    _ = _ := by rw [g.hX, Matrix.mul_one]

theorem right_fixed {ι : Type} (S : Finset ι) (T : ι → Matrix (Fin D) (Fin D) K) (η : K)
    (h : ∑ s ∈ S, T s * (g.X * g.Xᴴ) * (T s)ᴴ = η • (g.X * g.Xᴴ)) :
    ∑ s ∈ S, (g.V * g.Xi * T s * g.X * g.Vᴴ) * (g.V * g.Xi * T s * g.X * g.Vᴴ)ᴴ = η • 1 := by
  have e : ∀ s, (g.V * g.Xi * T s * g.X * g.Vᴴ) * (g.V * g.Xi * T s * g.X * g.Vᴴ)ᴴ =
      g.V * g.Xi * (T s * (g.X * g.Xᴴ) * (T s)ᴴ) * (g.V * g.Xi)ᴴ := by
    intro s
    calc (g.V * g.Xi * T s * g.X * g.Vᴴ) * (g.V * g.Xi * T s * g.X * g.Vᴴ)ᴴ
        = g.V * g.Xi * T s * g.X * (g.Vᴴ * g.V) * (g.V * g.Xi * T s * g.X)ᴴ := by
          rw [Matrix.conjTranspose_mul (g.V * g.Xi * T s * g.X), Matrix.conjTranspose_conjTranspose]; simp only [Matrix.mul_assoc]
      _ = _ := by
          rw [g.hV', Matrix.mul_one, Matrix.conjTranspose_mul (g.V * g.Xi * T s), Matrix.conjTranspose_mul (g.V * g.Xi)]
          simp only [Matrix.mul_assoc]
  rw [Finset.sum_congr rfl fun s _ => e s, ← Finset.sum_mul, ← Finset.mul_sum, h]
  rw [Matrix.mul_smul, Matrix.smul_mul]
  congr 1
  calc g.V * g.Xi * (g.X * g.Xᴴ) * (g.V * g.Xi)ᴴ = g.V * (g.Xi * g.X) * (g.V * (g.Xi * g.X))ᴴ := by
        simp only [Matrix.conjTranspose_mul, Matrix.mul_assoc]
    _ = 1 := by rw [g.hX', Matrix.mul_one, g.hV]

theorem left_fixed {ι : Type} (S : Finset ι) (M : ι → Matrix (Fin D) (Fin D) K) (η : K)
    (h : ∑ s ∈ S, (Matrix.diagonal g.l * M s)ᴴ * ((g.Yᵀ)ᴴ * g.Yᵀ) * (Matrix.diagonal g.l * M s) = η • ((g.Yᵀ)ᴴ * g.Yᵀ)) :
    ∑ s ∈ S, (Matrix.diagonal g.l' * (g.V * g.Xi * (M s * Matrix.diagonal g.l) * g.X * g.Vᴴ))ᴴ *
      (Matrix.diagonal g.l' * (g.V * g.Xi * (M s * Matrix.diagonal g.l) * g.X * g.Vᴴ)) =
      η • (Matrix.diagonal g.l' * Matrix.diagonal g.l') := by
  have e : ∀ s, (Matrix.diagonal g.l' * (g.V * g.Xi * (M s * Matrix.diagonal g.l) * g.X * g.Vᴴ))ᴴ *
      (Matrix.diagonal g.l' * (g.V * g.Xi * (M s * Matrix.diagonal g.l) * g.X * g.Vᴴ)) =
      (Matrix.diagonal g.l * g.X * g.Vᴴ)ᴴ * ((Matrix.diagonal g.l * M s)ᴴ * ((g.Yᵀ)ᴴ * g.Yᵀ) * (Matrix.diagonal g.l * M s)) *
        (Matrix.diagonal g.l * g.X * g.Vᴴ) := by
    intro s
    have : Matrix.diagonal g.l' * (g.V * g.Xi * (M s * Matrix.diagonal g.l) * g.X * g.Vᴴ) =
        g.Uᴴ * (g.Yᵀ * (Matrix.diagonal g.l * M s) * (Matrix.diagonal g.l * g.X * g.Vᴴ)) := by
      have := congrArg (· * (M s * Matrix.diagonal g.l * g.X * g.Vᴴ)) g.left
      simp only [Matrix.mul_assoc] at this ⊢
      exact this
    rw [this]
    have hz : ∀ Z : Matrix (Fin D) (Fin D) K, (g.Uᴴ * Z)ᴴ * (g.Uᴴ * Z) = Zᴴ * Z := by
      intro Z
      calc (g.Uᴴ * Z)ᴴ * (g.Uᴴ * Z) = Zᴴ * (g.U * g.Uᴴ) * Z := by
            rw [Matrix.conjTranspose_mul, Matrix.conjTranspose_conjTranspose]; simp only [Matrix.mul_assoc]
        _ = Zᴴ * Z := by rw [g.hU', Matrix.mul_one]
    rw [hz, Matrix.conjTranspose_mul (g.Yᵀ * (Matrix.diagonal g.l * M s)), Matrix.conjTranspose_mul g.Yᵀ]
    simp only [Matrix.mul_assoc]
  rw [Finset.sum_congr rfl fun s _ => e s, ← Finset.sum_mul, ← Finset.mul_sum, h]
  rw [Matrix.mul_smul, Matrix.smul_mul]
  congr 1
  have k : g.Yᵀ * (Matrix.diagonal g.l * g.X * g.Vᴴ) = g.U * Matrix.diagonal g.l' := by
    calc g.Yᵀ * (Matrix.diagonal g.l * g.X * g.Vᴴ) = (g.Yᵀ * Matrix.diagonal g.l * g.X) * g.Vᴴ := by simp only [Matrix.mul_assoc]
      _ = _ := by rw [g.svd, Matrix.mul_assoc, g.hV, Matrix.mul_one]
  calc (Matrix.diagonal g.l * g.X * g.Vᴴ)ᴴ * ((g.Yᵀ)ᴴ * g.Yᵀ) * (Matrix.diagonal g.l * g.X * g.Vᴴ)
      = (g.Yᵀ * (Matrix.diagonal g.l * g.X * g.Vᴴ))ᴴ * (g.Yᵀ * (Matrix.diagonal g.l * g.X * g.Vᴴ)) := by
        rw [Matrix.conjTranspose_mul g.Yᵀ]; simp only [Matrix.mul_assoc]
    _ = Matrix.diagonal g.l' * (g.Uᴴ * g.U) * Matrix.diagonal g.l' := by
        rw [k, Matrix.conjTranspose_mul, diagH g.l' g.hl']; simp only [Matrix.mul_assoc]
    _ = _ := by rw [g.hU, Matrix.mul_one]

/-- products of cells -/
theorem cells (T : List (Matrix (Fin D) (Fin D) K)) :
    (T.map fun t => g.V * g.Xi * t * g.X * g.Vᴴ).prod = g.V * g.Xi * T.prod * g.X * g.Vᴴ := by
  induction T with
  | nil =>
    simp only [List.map_nil, List.prod_nil, Matrix.mul_one]
    rw [Matrix.mul_assoc g.V, g.hX', Matrix.mul_one, g.hV]
  | cons t T ih =>
    rw [List.map_cons, List.prod_cons, ih, List.prod_cons]
    calc g.V * g.Xi * t * g.X * g.Vᴴ * (g.V * g.Xi * T.prod * g.X * g.Vᴴ)
        = g.V * g.Xi * t * (g.X * (g.Vᴴ * g.V) * g.Xi) * T.prod * g.X * g.Vᴴ := by simp only [Matrix.mul_assoc]
      _ = _ := by rw [g.hV', Matrix.mul_one, g.hX, Matrix.mul_one]; simp only [Matrix.mul_assoc]

/-- products of cells with the vector on the left -/
theorem chain (T : List (Matrix (Fin D) (Fin D) K)) :
    Matrix.diagonal g.l' * (T.map fun t => g.V * g.Xi * t * g.X * g.Vᴴ).prod =
      (g.Uᴴ * g.Yᵀ) * (Matrix.diagonal g.l * T.prod) * (g.X * g.Vᴴ) := by
  rw [cells]
  have := congrArg (· * (T.prod * g.X * g.Vᴴ)) g.left
  simp only [Matrix.mul_assoc] at this ⊢
  exact this

end Gauge

end MPS.ITebd
