import Verif.Spec
import Verif.HamModel
import Mathlib.Data.Complex.Basic

/-!
# What a layer of gates and a nearest-neighbour Hamiltonian are
-/

namespace MPS
open Tensor
variable {R : Type} [CommRing R]

/-- action on a wave function of a two-site operator, given as a matrix `op` on the product of sites `k` (of local
dimension `d`) and `k+1` (of local dimension `e`), the index of site `k` being the fastest -/
def actPair (d e : Nat) (op : Tensor R) (k : Nat) (φ : List Nat → R) : List Nat → R :=
  fun s => ∑ i ∈ Finset.range d, ∑ j ∈ Finset.range e,
    op.get [s.getD k 0 + d * s.getD (k + 1) 0, i + d * j] * φ ((s.set k i).set (k + 1) j)

/-- matrix element ⟨s|h|t⟩ of a one-site operator on site `k` of a chain of `L` sites -/
def embed1 (L k : Nat) (h : Tensor R) (s t : List Nat) : R :=
  h.get [s.getD k 0, t.getD k 0] * ∏ j ∈ Finset.range L, if j ≠ k ∧ s.getD j 0 ≠ t.getD j 0 then 0 else 1

/-- matrix element ⟨s|h|t⟩ of a two-site operator on sites `k`, `k+1` of a chain of `L` sites; `d` is the local dimension
of site `k` -/
def embed2 (L d k : Nat) (h : Tensor R) (s t : List Nat) : R :=
  h.get [s.getD k 0 + d * s.getD (k + 1) 0, t.getD k 0 + d * t.getD (k + 1) 0] *
    ∏ j ∈ Finset.range L, if j ≠ k ∧ j ≠ k + 1 ∧ s.getD j 0 ≠ t.getD j 0 then 0 else 1

/-- in the layer of parity `k` of a chain of `L` sites, the sites `p`, `p+1` form a pair -/
def PairAt (L k p : Nat) : Prop := p % 2 = k ∧ p + 1 < L

instance (L k p : Nat) : Decidable (PairAt L k p) := inferInstanceAs (Decidable (_ ∧ _))

/-- in the layer of parity `k` of a chain of `L` sites, the site `p` belongs to no pair -/
def Single (L k p : Nat) : Prop := p < L ∧ ¬ PairAt L k p ∧ (p = 0 ∨ ¬ PairAt L k (p - 1))

instance (L k p : Nat) : Decidable (Single L k p) := inferInstanceAs (Decidable (_ ∧ _))

/-- matrix element ⟨s|W|t⟩ of the tensor product `W` of the gates `U p` of the layer of parity `k`: one two-site gate on
each pair, one one-site gate on each other site -/
def layerElt (ds : List Nat) (k : Nat) (U : Nat → Tensor R) (s t : List Nat) : R :=
  (∏ p ∈ (Finset.range ds.length).filter (PairAt ds.length k), (U p).get
      [s.getD p 0 + ds.getD p 0 * s.getD (p + 1) 0, t.getD p 0 + ds.getD p 0 * t.getD (p + 1) 0]) *
    ∏ p ∈ (Finset.range ds.length).filter (Single ds.length k), (U p).get [s.getD p 0, t.getD p 0]

namespace Trotter

/-- `U` is an `n × n` matrix with orthonormal columns -/
def IsUnitary (n : Nat) (U : Tensor ℂ) : Prop :=
  ∀ x x', x < n → x' < n → ∑ u ∈ Finset.range n, star (U.get [u, x]) * U.get [u, x'] = if x = x' then 1 else 0

/-- `A` is an `n × n` Hermitian matrix -/
def IsHermitian (n : Nat) (A : Tensor ℂ) : Prop :=
  ∀ x y, x < n → y < n → star (A.get [x, y]) = A.get [y, x]

/-- `A` is an `n × n` antihermitian matrix -/
def IsAntiHermitian (n : Nat) (A : Tensor ℂ) : Prop :=
  ∀ x y, x < n → y < n → star (A.get [x, y]) = -A.get [y, x]

/-- What is used of the matrix exponential: it maps square matrices to square matrices of the same size, and antihermitian
matrices to unitary ones. -/
structure GoodExpm (expm : Tensor ℂ → Tensor ℂ) : Prop where
  dims : ∀ A n, A.dims = [n, n] → (expm A).dims = [n, n]
  unitary : ∀ A n, A.dims = [n, n] → IsAntiHermitian n A → IsUnitary n (expm A)

/-- sizes of the terms of a Hamiltonian on a chain with local dimensions `ds` -/
structure HamFits (H : Ham ℂ) (ds : List Nat) : Prop where
  size : H.size = ds.length
  dim : ∀ p, p < ds.length → H.dim p = ds.getD p 0
  loc : ∀ p, p < ds.length → (H.loc p).dims = [ds.getD p 0, ds.getD p 0]
  inter : ∀ p, p + 1 < ds.length → (H.inter p).dims = [ds.getD p 0 * ds.getD (p + 1) 0, ds.getD p 0 * ds.getD (p + 1) 0]

/-- the generator of the gate at position `p` of the layer of parity `k`: the interaction of the pair plus half the local
terms of its sites, or half the local term of a site without partner -/
noncomputable def layerGen (H : Ham ℂ) (k p : Nat) : Tensor ℂ :=
  if PairAt H.size k p then
    add (add (H.inter p) (kron2 (smul (1 / 2) (H.loc p)) (eye (H.dim (p + 1)))))
      (kron2 (eye (H.dim p)) (smul (1 / 2) (H.loc (p + 1))))
  else smul (1 / 2) (H.loc p)

/-- evolution of a wave function with one layer: parity `l.1`, and duration `l.2` (in units of `dt`); `expm` is the matrix
exponential -/
noncomputable def layerStep (expm : Tensor ℂ → Tensor ℂ) (H : Ham ℂ) (ds : List Nat) (dt : ℂ) (φ : List Nat → ℂ) (l : Nat × ℂ) :
    List Nat → ℂ :=
  actOp ds (layerElt ds l.1 fun p => expm (smul ⟨-|(dt * l.2).im|, -(dt * l.2).re⟩ (layerGen H l.1 p))) φ

/-- evolution with several layers, one after the other -/
noncomputable def layerSteps (expm : Tensor ℂ → Tensor ℂ) (H : Ham ℂ) (ds : List Nat) (dt : ℂ) (ls : List (Nat × ℂ))
    (φ : List Nat → ℂ) : List Nat → ℂ :=
  ls.foldl (layerStep expm H ds dt) φ

end Trotter
end MPS
