import Verif.MinimizerSpec

/-!
# The basis on which the two-site algorithm with a constraint works

The sites `p` and `p+1` of a matrix product state split the chain in a left block, two spins, and a right block.  The bonds give
vectors `|x⟩` of the left block and `|y⟩` of the right block.
-/

namespace MPS.Minim
open MPS Tensor Form
variable {K : Type} [RCLike K]

/-- a tensor with a single element one, the others zero -/
def unitTensor (dims I : List Nat) : Tensor K := ⟨dims, fun J => if J = I then 1 else 0⟩

/-- how many `x`, `i`, `j`, `y` there are -/
def pairDims (ψ : List (Tensor K)) (p : Nat) : List Nat :=
  [(site ψ p).dim 0, (site ψ p).dim 1, (site ψ (p + 1)).dim 1, (site ψ (p + 1)).dim 2]

/-- the state `|x⟩|i⟩|j⟩|y⟩` for `I = [x, i, j, y]`: the tensors of `ψ`, with those at the sites `p` and `p+1` replaced -/
def blockState (ψ : List (Tensor K)) (p : Nat) (I : List Nat) : List (Tensor K) :=
  (ψ.set p (unitTensor [(site ψ p).dim 0, (site ψ p).dim 1, 1] [I.getD 0 0, I.getD 1 0, 0])).set (p + 1)
    (unitTensor [1, (site ψ (p + 1)).dim 1, (site ψ (p + 1)).dim 2] [0, I.getD 2 0, I.getD 3 0])

/-- the wave function of `φ` is `∑_I c_I |I⟩` -/
def IsCombination (ds : List Nat) (ψ : List (Tensor K)) (p : Nat) (c : List Nat → K) (φ : List (Tensor K)) : Prop :=
  ∀ s, IsCfg ds s → amp φ s = sumCfg (pairDims ψ p) fun I => c I * amp (blockState ψ p I) s

/-- the expected value of `N` in the state `|I⟩` is `v`, up to `1e-6` -/
def Allowed (ds : List Nat) (N ψ : List (Tensor K)) (p : Nat) (v : K) (I : List Nat) : Prop :=
  ‖expect ds (blockState ψ p I) N (blockState ψ p I) - v‖ < 1 / 10 ^ 6

/-- `c` only has coefficients of states which are allowed -/
def AllowedCoef (ds : List Nat) (N ψ : List (Tensor K)) (p : Nat) (v : K) (c : List Nat → K) : Prop :=
  ∀ I, IsCfg (pairDims ψ p) I → c I ≠ 0 → Allowed ds N ψ p v I

end MPS.Minim
