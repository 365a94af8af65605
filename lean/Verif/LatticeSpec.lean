import Verif.LatticeModel

/-!
# Specification vocabulary for particles on a lattice

A configuration is a word whose bit `k` tells whether site `k` is occupied.
-/

namespace MPS.Lat
open MPS

/-- number of particles of the configuration `w` on the sites `k < n` (specification) -/
def occupied (n w : Nat) : Nat := ∑ k ∈ Finset.range n, if w.testBit k then 1 else 0

/-- number of particles of `w` strictly between two sites (specification) -/
def between (i j w : Nat) : Nat := ∑ k ∈ Finset.Ioo (min i j) (max i j), if w.testBit k then 1 else 0

/-- `v` is the configuration `w` after moving a particle from the occupied site `frm` to the empty site `dst` -/
def IsHop (dst frm w v : Nat) : Prop :=
  w.testBit frm = true ∧ w.testBit dst = false ∧
  ∀ k, v.testBit k = if k = frm then false else if k = dst then true else w.testBit k

variable {R : Type} [CommRing R]

/-- amplitude of a hop: one for bosons, the Jordan-Wigner sign for fermions -/
def hopSign (kind : Kind) (dst frm w : Nat) : R :=
  match kind with
  | .hardCoreBosons => 1
  | .fermions => (-1) ^ between dst frm w

end MPS.Lat
