import Verif.MPSModel
import Mathlib.Analysis.SpecialFunctions.Log.Basic

/-!
# Model of /repo/src/tools: truncation, sweeps, entropy
-/

namespace MPS
open Tensor

/-! ### where_to_truncate -/

/-- value of `max_dim` after /repo/src/tools/truncate.cc:38-40: `max_dim > L` compares a signed with an unsigned
number, so that a negative `max_dim` counts as larger than `L` -/
def effDim (L : Nat) (maxDim : Int) : Nat :=
  if maxDim = 0 ∨ maxDim < 0 ∨ maxDim > L then L else maxDim.toNat

/-- the loop over `i = L, L-1, ..., 1` looking for a non-zero element, /repo/src/tools/truncate.cc:53-65 -/
noncomputable def zerosLoop (s : List ℝ) (maxDim : Nat) : Nat → Nat
  | 0 => 0
  | i + 1 => if s.getD i 0 ≠ 0 then (if i < maxDim then i + 1 else maxDim) else zerosLoop s maxDim i

/-- `cumulated[i]` (and `total = cumulated[0]`), /repo/src/tools/truncate.cc:72-77: sum of the squares from the
`i`-th on -/
noncomputable def cumulated (s : List ℝ) (i : Nat) : ℝ := ((s.drop i).map fun x => x ^ 2).sum

/-- the loop over `i = 0 .. max_dim-1`, /repo/src/tools/truncate.cc:84-89; `fuel = max_dim - i` -/
noncomputable def limitLoop (s : List ℝ) (limit : ℝ) (maxDim : Nat) : Nat → Nat → Nat
  | 0, _ => maxDim
  | fuel + 1, i => if cumulated s i ≤ limit then i + 1 else limitLoop s limit maxDim fuel (i + 1)

/-- `where_to_truncate(s, tol, max_dim)`, /repo/src/tools/truncate.cc:27-97.  `eps` is `DBL_EPSILON`, `dflt` the value
of the flag `MPS_TRUNCATION_TOLERANCE`.  Exact reals in place of `double`. -/
noncomputable def whereToTruncate (eps dflt : ℝ) (s : List ℝ) (tol : ℝ) (maxDim : Int) : Nat :=
  let L := s.length
  let maxDim := effDim L maxDim
  let tol := if tol < 0 then dflt else tol
  if tol ≥ 1 then maxDim
  else if tol = 0 then zerosLoop s maxDim L
  else limitLoop s (max tol eps * cumulated s 0) maxDim maxDim 0

/-! ### Sweeper -/

/-- the object `Sweeper`, /repo/include/mps/mp_base.h:30-41 -/
structure Sweeper where
  k : Int
  k0 : Int
  kN : Int
  dk : Int

/-- constructor, /repo/src/tools/sweeper.cc:25-37; `none` = failed assert -/
def Sweeper.new (L : Int) (sense : Int) : Option Sweeper :=
  if L > 0 then
    if sense > 0 then some ⟨0, 0, L - 1, 1⟩ else some ⟨L - 1, L - 1, 0, -1⟩
  else none

/-- `operator--`, /repo/src/tools/sweeper.cc:39-47 -/
def Sweeper.dec (s : Sweeper) : Bool × Sweeper :=
  if s.k = s.kN then (false, s) else (true, { s with k := s.k + s.dk })

/-- `flip`, /repo/src/tools/sweeper.cc:49-54 -/
def Sweeper.flip (s : Sweeper) : Sweeper := ⟨s.kN, s.kN, s.k0, -s.dk⟩

/-- `is_last`, /repo/include/mps/mp_base.h:35 -/
def Sweeper.isLast (s : Sweeper) : Bool := s.k == s.kN

/-- the sites seen by `do { use(*s) } while (--s)` (the way the sweeps are written, e.g. /repo/src/dmrg/minimizer.cc,
/repo/src/dmrg/simplify_obc.cc), and the final state; `none` = not finished after `fuel` steps -/
def Sweeper.run : Nat → Sweeper → Option (List Int × Sweeper)
  | 0, _ => none
  | fuel + 1, s =>
    let r := s.dec
    if r.1 then (Sweeper.run fuel r.2).map fun x => (s.k :: x.1, x.2) else some ([s.k], r.2)

/-! ### truncate -/

section Trunc
variable {R : Type} [CommRing R]

/-- the forward loop of `expected_dimensions`, /repo/src/tools/truncate_mps.cc:37-41: entries `d[1], d[2], ...` (the one
past the last site is not used) -/
def expFwd (Dmax : Nat) : Nat → List (Tensor R) → List Nat
  | _, [] => []
  | c, A :: As =>
    let c := c * A.dim 1
    let c := if c > Dmax then Dmax else c
    c :: expFwd Dmax c As

/-- the backward loop of `expected_dimensions`, /repo/src/tools/truncate_mps.cc:42-46, on the sites of the list given;
returns the final `c` and the values of `c` at every site -/
def expBwd (Dmax : Nat) : List (Tensor R) → Nat × List Nat
  | [] => (1, [])
  | A :: As =>
    let r := expBwd Dmax As
    let c := r.1 * A.dim 1
    let c := if c > Dmax then Dmax else c
    (c, c :: r.2)

/-- `expected_dimensions(P, Dmax, periodic)`, /repo/src/tools/truncate_mps.cc:25-49, as a function of the bond
`0 .. size()` -/
def expectedDims (P : List (Tensor R)) (Dmax : Nat) (periodic : Bool) (i : Nat) : Nat :=
  if periodic then Dmax
  else if i = P.length then 1
  else
    let d := if i = 0 then 1 else (expFwd Dmax 1 P).getD (i - 1) 0
    let c := (expBwd Dmax P).2.getD i 0
    if c < d then c else d

/-- one of the two `if` statements of the loop of `truncate_inner`, /repo/src/tools/truncate_mps.cc:65-70, 71-76 -/
def truncAxis (A : Tensor R) (axis : Int) (d : Nat) (increase : Bool) : Tensor R × Bool :=
  if A.dim axis > d then (changeDim A axis d, true)
  else if increase && decide (A.dim axis < d) then (changeDim A axis d, false)
  else (A, false)

/-- body of the loop of `truncate_inner`, /repo/src/tools/truncate_mps.cc:64-77 -/
def truncSite (d : Nat → Nat) (increase : Bool) (k : Nat) (A : Tensor R) : Tensor R × Bool :=
  let r0 := truncAxis A 0 (d k) increase
  let r2 := truncAxis r0.1 2 (d (k + 1)) increase
  (r2.1, r0.2 || r2.2)

/-- `truncate(&Q, P, Dmax, periodic, increase)`, /repo/src/tools/truncate_mps.cc:51-80: the new state and the value
returned -/
def truncateMPS (P : List (Tensor R)) (Dmax : Nat) (periodic increase : Bool) : List (Tensor R) × Bool :=
  if Dmax = 0 then (P, false)
  else
    let d := expectedDims P Dmax periodic
    let q := P.mapIdx fun k A => truncSite d increase k A
    (q.map Prod.fst, q.any Prod.snd)

/-- `largest_bond_dimension`, /repo/src/tools/bond_dimension_d.cc:24-30 -/
def largestBond (P : List (Tensor R)) : Nat := P.foldl (fun i A => max i (A.dim 0)) 0

end Trunc

/-- `entropy(l)` of a vector, /repo/src/tools/entropy.cc:33-40.  A vanishing element (or a vanishing sum) makes the C++ code
compute `0 * log(0)` (or divide by zero), i.e. return a NaN (or an infinity): this is `none`. -/
noncomputable def entropy (l : List ℝ) : Option ℝ :=
  let ltot := |l.sum|
  if l.any (fun x => decide (x = 0)) ∨ (l ≠ [] ∧ ltot = 0) then none
  else some (l.foldl (fun s x => s - |x| / ltot * Real.log (|x| / ltot)) 0)

end MPS
