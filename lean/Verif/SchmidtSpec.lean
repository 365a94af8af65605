import Verif.CanonSpec

/-!
# Schmidt rank
-/

namespace MPS
variable {K : Type} [RCLike K]

/-- the wave function `φ` is a sum of `D` products of a wave function of the first `c` sites and one of the others: its Schmidt rank at this cut is `D` at most.
Every matrix product state whose bond there has dimension `D` or less is of this kind (see `C126_bond_schmidt`), and conversely. -/
def SchmidtRank (ds : List Nat) (c D : Nat) (φ : List Nat → K) : Prop :=
  ∃ X Y : Nat → List Nat → K, ∀ s, IsCfg ds s → φ s = ∑ k ∈ Finset.range D, X k (s.take c) * Y k (s.drop c)

end MPS
