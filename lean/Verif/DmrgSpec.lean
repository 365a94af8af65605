import Verif.DmrgModel
import Verif.MinimizerSpec
import Verif.Props.HamProps2

/-!
# What is assumed of the Hamiltonian given to `DMRG`, and the energy of a state
-/

namespace MPS.Dmrg
open MPS Tensor
variable {K : Type} [RCLike K]

/-- what is assumed of the Hamiltonian: an open chain whose terms fit the local dimensions `ds`, with Hermitian local terms and
Hermitian interactions between neighbours -/
structure HamOk (ds : List Nat) (H : Ham K) : Prop where
  size : H.size = ds.length
  two : 2 ≤ ds.length
  opened : H.periodic = false
  pos : ∀ d ∈ ds, 0 < d
  loc : ∀ k, k < ds.length → (H.loc k).dims = [ds.getD k 0, ds.getD k 0]
  left : ∀ k n, k + 1 < ds.length → n < H.depth k → (H.left k n).dims = [ds.getD k 0, ds.getD k 0]
  right : ∀ k n, k + 1 < ds.length → n < H.depth k → (H.right k n).dims = [ds.getD (k + 1) 0, ds.getD (k + 1) 0]
  locHerm : ∀ k, k < ds.length → ∀ i j, i < ds.getD k 0 → j < ds.getD k 0 → star ((H.loc k).get [i, j]) = (H.loc k).get [j, i]
  bondHerm : ∀ k, k + 1 < ds.length → ∀ i j p q, i < ds.getD k 0 → j < ds.getD k 0 → p < ds.getD (k + 1) 0 → q < ds.getD (k + 1) 0 →
    star (∑ n ∈ Finset.range (H.depth k), (H.left k n).get [i, j] * (H.right k n).get [p, q]) =
      ∑ n ∈ Finset.range (H.depth k), (H.left k n).get [j, i] * (H.right k n).get [q, p]

/-- `⟨φ|H|ψ⟩` -/
def hamExp (ds : List Nat) (H : Ham K) (φ ψ : List (Tensor K)) : K := MPS.inner ds (amp φ) (actOp ds (Props.hamElt ds H) (amp ψ))

/-- `Re ⟨ψ|H|ψ⟩` -/
noncomputable def hamEnergy (ds : List Nat) (H : Ham K) (ψ : List (Tensor K)) : ℝ := RCLike.re (hamExp ds H ψ ψ)

end MPS.Dmrg
