import Verif.Spec

/-!
# Histories of propagations

A linear or quadratic form looks at one site of a chain.  Everything to the left of it carries the tensors `l`, everything to
the right of it the tensors `r`; the propagations replace the tensor of the current site and move to the next one.
-/

namespace MPS.Form
open MPS
variable {R : Type}

/-- a call `propagate_right(X)` or `propagate_left(X)` -/
inductive Move (α : Type) where
  | right (X : α)
  | left (X : α)

/-- what the tensors to the left and to the right of the current site are after a call; at the ends of the chain nothing
moves -/
def Move.after {α : Type} (k : List α × List α) : Move α → List α × List α
  | .right X => if k.2 = [] then k else (k.1 ++ [X], k.2.tail)
  | .left X => if k.1 = [] then k else (k.1.dropLast, X :: k.2)

/-- the wave function `∑_n c_n φ_n` of a superposition of matrix product states with open boundaries -/
def superpose [CommRing R] (c : List R) (φ : List (List (Tensor R))) : List Nat → R :=
  fun s => ∑ n ∈ Finset.range φ.length, c.getD n 0 * amp (φ.getD n []) s

/-- the tensors to the left and to the right of the pair formed by the current site and the next one (`sense > 0`) or the
previous one (`sense ≤ 0`) -/
def aroundPair {α : Type} (sense : Int) (k : List α × List α) : List α × List α :=
  if sense > 0 then (k.1, k.2.tail) else (k.1.dropLast, k.2)

/-- there is such a pair -/
def HasPair {α : Type} (sense : Int) (k : List α × List α) : Prop := if sense > 0 then k.2 ≠ [] else k.1 ≠ []

/-- the sesquilinear form `∑ conj(y_I) M_{IJ} x_J` of a matrix whose rows and columns are groups of indices of sizes `d1` and
`d2`, first index fastest; an empty matrix stands for zero -/
def matForm [CommRing R] [Star R] (M : Tensor R) (d1 d2 : List Nat) (y x : List Nat → R) : R :=
  if M.isEmpty then 0
  else sumCfg d1 fun I => sumCfg d2 fun J => star (y I) * M.get [Tensor.flat d1 I, Tensor.flat d2 J] * x J

/-- the product `(A·B)[i_0, i_1, i_2, i_3]` of two site tensors with `m` values of the bond between them -/
def joined [CommRing R] (m : Nat) (A B : Tensor R) : List Nat → R :=
  fun i => ∑ c ∈ Finset.range m, A.get [i.getD 0 0, i.getD 1 0, c] * B.get [c, i.getD 2 0, i.getD 3 0]

/-- `⟨bra|O|ket⟩` -/
def expect [CommRing R] [Star R] (ds : List Nat) (bra O ket : List (Tensor R)) : R :=
  inner ds (amp bra) (actOp ds (opElt O) (amp ket))

end MPS.Form
