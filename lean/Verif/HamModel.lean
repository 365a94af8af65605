import Verif.Tensor

/-!
# The interface `Hamiltonian`, /repo/include/mps/hamiltonian.h:33-57

The algorithms (expectation values, construction of MPOs, Trotter evolution) see a Hamiltonian only through the methods
of the abstract class.  An object of type `Ham R` is a snapshot, at one time `t`, of the answers of these methods.
-/

namespace MPS

/-- what the methods of a `Hamiltonian` answer at a fixed time: `size()`, `dimension(k)`, `local_term(k,t)`,
`interaction(k,t)`, `interaction_depth(k,t)`, `interaction_left(k,n,t)`, `interaction_right(k,n,t)`, `is_periodic()` -/
structure Ham (R : Type) where
  size : Nat
  dim : Nat → Nat
  loc : Nat → Tensor R
  inter : Nat → Tensor R
  depth : Nat → Nat
  left : Nat → Nat → Tensor R
  right : Nat → Nat → Tensor R
  periodic : Bool

end MPS
