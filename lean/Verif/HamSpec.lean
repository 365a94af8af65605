import Verif.HamClasses
import Verif.Spec

/-!
# What a history of calls to a `ConstantHamiltonian` means, and what the terms of a chain Hamiltonian are
-/

namespace MPS
open Tensor
variable {R : Type} [CommRing R]

/-- a call that changes a `ConstantHamiltonian` -/
inductive HamCall (R : Type) where
  | setLocal (k : Nat) (h : Tensor R)
  | setInter (k : Nat) (a b : Tensor R)
  | addInter (k : Nat) (a b : Tensor R)

/-- the arguments fit a chain with local dimensions `ds` -/
def HamCall.Valid (ds : List Nat) : HamCall R → Prop
  | .setLocal k h => k < ds.length ∧ h.dims = [ds.getD k 0, ds.getD k 0]
  | .setInter k a b | .addInter k a b => k + 1 < ds.length ∧ a.dims = [ds.getD k 0, ds.getD k 0] ∧
      b.dims = [ds.getD (k + 1) 0, ds.getD (k + 1) 0]

/-- what the program does -/
def HamCall.run (h : ConstHam R) : HamCall R → Option (ConstHam R)
  | .setLocal k x => h.setLocalTerm k x
  | .setInter k a b => h.setInteraction k a b
  | .addInter k a b => h.addInteraction k a b

/-- the local term in force on site `k` after a history of calls: the last one set, if any -/
def localAfter (calls : List (HamCall R)) (k : Nat) : Option (Tensor R) :=
  calls.foldl (fun r c => match c with
    | .setLocal k' h => if k' = k then some h else r
    | _ => r) none

/-- the interaction terms in force on the bond `k`, `k+1` after a history of calls: those given since the last
`set_interaction`, including it -/
def termsAfter (calls : List (HamCall R)) (k : Nat) : List (Tensor R × Tensor R) :=
  calls.foldl (fun r c => match c with
    | .setInter k' a b => if k' = k then [(a, b)] else r
    | .addInter k' a b => if k' = k then r ++ [(a, b)] else r
    | _ => r) []

/-- the call says something about the site `k` -/
def HamCall.Mentions (k : Nat) : HamCall R → Prop
  | .setLocal k' _ => k' = k
  | .setInter k' _ _ | .addInter k' _ _ => k' = k ∨ k' + 1 = k

/-- Sizes of the terms of a Hamiltonian given by products: every local term, and every factor of every interaction term,
matches the local dimensions `ds` of the chain.  `ws` tells whether the terms on the bond (last site, first site) count. -/
structure HamTerms (H : Ham R) (ds : List Nat) (ws : Prop) : Prop where
  size : H.size = ds.length
  loc : ∀ k, k < ds.length → (H.loc k).isEmpty ∨ (H.loc k).dims = [ds.getD k 0, ds.getD k 0]
  left : ∀ k n, k + 1 < ds.length → n < H.depth k → (H.left k n).dims = [ds.getD k 0, ds.getD k 0]
  right : ∀ k n, k + 1 < ds.length → n < H.depth k → (H.right k n).dims = [ds.getD (k + 1) 0, ds.getD (k + 1) 0]
  wrapL : ws → ∀ n, n < H.depth (ds.length - 1) →
    (H.left (ds.length - 1) n).dims = [ds.getD (ds.length - 1) 0, ds.getD (ds.length - 1) 0]
  wrapR : ws → ∀ n, n < H.depth (ds.length - 1) → (H.right (ds.length - 1) n).dims = [ds.getD 0 0, ds.getD 0 0]

end MPS
