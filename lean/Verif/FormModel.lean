import Verif.MPSModel
import Verif.FormSpec
import Mathlib.Analysis.RCLike.Basic

/-!
# Model of /repo/src/dmrg/lform.cc and qform.cc: linear and quadratic forms

The two classes cache, for every bond of the chain, the contraction of everything to the left or to the right of it.  Left
and right matrices share one array: `left_matrix(site) = matrix_[site]`, `right_matrix(site) = matrix_[site+1]`
(/repo/include/mps/lform.h:79-82, qform.h:108-125).
-/

namespace MPS.Form
open MPS Tensor
variable {R : Type} [CommRing R] [StarRing R]

/-- `maybe_add(&a, b)`, /repo/src/dmrg/lform.cc:68-75, qform.cc:98-105 -/
def maybeAdd (a b : Tensor R) : Tensor R := if a.isEmpty then b else add a b

/-- `tensor_t::ones(1,1,1,1)` -/
def ones4 : Tensor R := ⟨[1, 1, 1, 1], fun _ => 1⟩

/-! ### LinearForm -/

/-- the state of a `LinearForm`, /repo/include/mps/lform.h:74-77; `mat n` is `matrix_[n]`, the cache of the `n`-th bra -/
structure LForm (R : Type) where
  weight : List R
  bras : List (List (Tensor R))
  here : Nat
  mat : List (List (Tensor R))

/-- `size()`, /repo/include/mps/lform.h:56 -/
def LForm.size (f : LForm R) : Nat := (f.bras.getD 0 []).length

/-- `propagate_right(ketP)`, /repo/src/dmrg/lform.cc:99-114 -/
def LForm.propagateRight (f : LForm R) (ketP : Tensor R) : LForm R :=
  if f.here + 1 = f.size then f
  else { f with
    mat := List.zipWith (fun bra m =>
      m.set (f.here + 1) (propMatrix (m.getD f.here Tensor.empty) 1 (site bra f.here) ketP none)) f.bras f.mat
    here := f.here + 1 }

/-- `propagate_left(ketP)`, /repo/src/dmrg/lform.cc:83-97: `right_matrix(i, here()-1) = matrix_[i][here()]` -/
def LForm.propagateLeft (f : LForm R) (ketP : Tensor R) : LForm R :=
  if f.here = 0 then f
  else { f with
    mat := List.zipWith (fun bra m =>
      m.set f.here (propMatrix (m.getD (f.here + 1) Tensor.empty) (-1) (site bra f.here) ketP none)) f.bras f.mat
    here := f.here - 1 }

/-- `propagate(ketP, sense)`, /repo/src/dmrg/lform.cc:77-81 -/
def LForm.propagate (f : LForm R) (ketP : Tensor R) (sense : Int) : LForm R :=
  if sense > 0 then f.propagateRight ketP else f.propagateLeft ketP

/-- effect of one call of a history (this is only notation for the theorems) -/
def LForm.move (f : LForm R) : Move (Tensor R) → LForm R
  | .right X => f.propagate X 1
  | .left X => f.propagate X (-1)

/-- constructor, /repo/src/dmrg/lform.cc:26-66: `start` steps to the right from site 0, then, from the last site,
`size()-1-start` steps to the left.  (The loops of the program test `here()` and do not end if `start ≥ size()`, because
`propagate_right` does not move beyond the last site; `start < size()` is assumed.) -/
def LForm.new (weight : List R) (bras : List (List (Tensor R))) (ket : List (Tensor R)) (start : Nat) : LForm R :=
  let f : LForm R := ⟨weight, bras, 0, bras.map fun _ => List.replicate ((bras.getD 0 []).length + 1) Tensor.empty⟩
  let f := (List.range start).foldl (fun f _ => f.propagateRight (site ket f.here)) f
  let f : LForm R := { f with here := f.size - 1 }
  (List.range (f.size - 1 - start)).foldl (fun f _ => f.propagateLeft (site ket f.here)) f

/-- `compose(L, P, R)`, /repo/src/dmrg/lform.cc:116-137 -/
def lfCompose (L P Rt : Tensor R) : Tensor R :=
  let L := if L.isEmpty then ones4 else L
  let Rt := if Rt.isEmpty then ones4 else Rt
  fold (fold (reshape L [L.dim 2, L.dim 3]) 0 P 0) (-1) (reshape Rt [Rt.dim 0, Rt.dim 1]) 0

/-- `single_site_vector()`, /repo/src/dmrg/lform.cc:139-150 -/
def LForm.singleSiteVector (f : LForm R) : Tensor R :=
  (List.range f.bras.length).foldl (fun out n =>
    maybeAdd out (lfCompose ((f.mat.getD n []).getD f.here Tensor.empty)
      (conj (smul (f.weight.getD n 0) (site (f.bras.getD n []) f.here)))
      ((f.mat.getD n []).getD (f.here + 1) Tensor.empty))) Tensor.empty

/-- `compose4(L, P1, P2, R)`, /repo/src/dmrg/lform.cc:152-173 -/
def lfCompose4 (L P1 P2 Rt : Tensor R) : Tensor R :=
  let L := if L.isEmpty then ones4 else L
  let Rt := if Rt.isEmpty then ones4 else Rt
  fold (fold (reshape L [L.dim 2, L.dim 3]) 0 (fold P1 (-1) P2 0) 0) (-1) (reshape Rt [Rt.dim 0, Rt.dim 1]) 0

/-- the pair of sites `i`, `j = i+1` of the two-site functions, /repo/src/dmrg/lform.cc:180-188 (same in qform.cc);
`none` = failed assert.  The result is `i`. -/
def pairAt (here size : Nat) (sense : Int) : Option Nat :=
  if sense > 0 then (if here + 1 < size then some here else none)
  else (if 0 < here then some (here - 1) else none)

/-- `two_site_vector(sense)`, /repo/src/dmrg/lform.cc:175-198 -/
def LForm.twoSiteVector (f : LForm R) (sense : Int) : Option (Tensor R) :=
  (pairAt f.here f.size sense).map fun i =>
    (List.range f.bras.length).foldl (fun out n =>
      maybeAdd out (lfCompose4 ((f.mat.getD n []).getD i Tensor.empty)
        (conj (smul (f.weight.getD n 0) (site (f.bras.getD n []) i)))
        (conj (site (f.bras.getD n []) (i + 1)))
        ((f.mat.getD n []).getD (i + 1 + 1) Tensor.empty))) Tensor.empty

/-- the sum `v` in `norm2()`, /repo/src/dmrg/lform.cc:200-212, which is then returned as `sqrt(abs(v))`; `none` = failed
assert in `scprod` -/
def LForm.normSum (f : LForm R) : Option R :=
  (List.range f.bras.length).foldlM (fun v i =>
    (List.range (i + 1)).foldlM (fun v j =>
      (scprod (f.bras.getD i []) (f.bras.getD j []) 1).map fun p =>
        let x := star (f.weight.getD i 0) * f.weight.getD j 0 * p
        if i ≠ j then v + x + star x else v + x) v) 0

/-- `norm2()`, /repo/src/dmrg/lform.cc:200-212 -/
noncomputable def LForm.norm2 {K : Type} [RCLike K] (f : LForm K) : Option ℝ := f.normSum.map fun v => Real.sqrt ‖v‖

/-! ### QuadraticForm -/

/-- `struct Pair`, /repo/include/mps/qform.h:84-96 -/
structure Pair (R : Type) where
  left : Nat
  right : Nat
  op : Tensor R

/-- constructor of `Pair`: `reshape(tensor(range(i), range(), range(), range(j)), d, d)`, /repo/include/mps/qform.h:88-93 -/
def Pair.new (i j : Nat) (T : Tensor R) : Pair R :=
  ⟨i, j, ⟨[T.dim 1, T.dim 2], fun x => T.get [i, x.getD 0 0, x.getD 1 0, j]⟩⟩

/-- `is_empty()`: `norm2(op) == 0`, i.e. all entries vanish, /repo/include/mps/qform.h:95 -/
def Pair.isZero [DecidableEq R] (p : Pair R) : Bool :=
  (List.range (p.op.dim 0)).all fun x => (List.range (p.op.dim 1)).all fun y => p.op.get [x, y] = 0

/-- `make_pairs(mpo)` for one site, /repo/src/dmrg/qform.cc:78-96 -/
def makePairs [DecidableEq R] (T : Tensor R) : List (Pair R) :=
  ((List.range (T.dim 0)).flatMap fun i => (List.range (T.dim 3)).map fun j => Pair.new i j T).filter fun p => !p.isZero

/-- the state of a `QuadraticForm`, /repo/include/mps/qform.h:104-106; `mat j` is `matrix_[j]` -/
structure QForm (R : Type) where
  here : Nat
  size : Nat
  mat : List (List (Tensor R))
  pairs : List (List (Pair R))

/-- one pass of the loop of `propagate_left`, /repo/src/dmrg/qform.cc:125-133 -/
def qfLeftStep (mr : List (Tensor R)) (braP ketP : Tensor R) (acc : List (Tensor R)) (p : Pair R) : List (Tensor R) :=
  if (mr.getD p.right Tensor.empty).isEmpty then acc
  else acc.set p.left (maybeAdd (acc.getD p.left Tensor.empty)
    (propMatrix (mr.getD p.right Tensor.empty) (-1) braP ketP (some p.op)))

/-- one pass of the loop of `propagate_right`, /repo/src/dmrg/qform.cc:152-159 -/
def qfRightStep (ml : List (Tensor R)) (braP ketP : Tensor R) (acc : List (Tensor R)) (p : Pair R) : List (Tensor R) :=
  if (ml.getD p.left Tensor.empty).isEmpty then acc
  else acc.set p.right (maybeAdd (acc.getD p.right Tensor.empty)
    (propMatrix (ml.getD p.left Tensor.empty) 1 braP ketP (some p.op)))

/-- `propagate_left(braP, ketP)`, /repo/src/dmrg/qform.cc:113-138 -/
def QForm.propagateLeft (f : QForm R) (braP ketP : Tensor R) : QForm R :=
  if f.here = 0 then f
  else
    let mr := f.mat.getD (f.here + 1) []
    let new := (f.mat.getD f.here []).map fun _ => Tensor.empty
    { f with mat := f.mat.set f.here ((f.pairs.getD f.here []).foldl (qfLeftStep mr braP ketP) new), here := f.here - 1 }

/-- `propagate_right(braP, ketP)`, /repo/src/dmrg/qform.cc:140-164 -/
def QForm.propagateRight (f : QForm R) (braP ketP : Tensor R) : QForm R :=
  if f.here = f.size - 1 then f
  else
    let ml := f.mat.getD f.here []
    let new := (f.mat.getD (f.here + 1) []).map fun _ => Tensor.empty
    { f with mat := f.mat.set (f.here + 1) ((f.pairs.getD f.here []).foldl (qfRightStep ml braP ketP) new), here := f.here + 1 }

/-- `propagate(braP, ketP, sense)`, /repo/src/dmrg/qform.cc:107-111 -/
def QForm.propagate (f : QForm R) (braP ketP : Tensor R) (sense : Int) : QForm R :=
  if sense > 0 then f.propagateRight braP ketP else f.propagateLeft braP ketP

/-- effect of one call of a history (this is only notation for the theorems) -/
def QForm.move (f : QForm R) : Move (Tensor R × Tensor R) → QForm R
  | .right X => f.propagate X.1 X.2 1
  | .left X => f.propagate X.1 X.2 (-1)

/-- `make_matrix_database(mpo)`, /repo/src/dmrg/qform.cc:46-61 -/
def makeDatabase (O : List (Tensor R)) : List (List (Tensor R)) :=
  (List.range (O.length + 1)).map fun i =>
    if i = 0 ∨ i = O.length then [ones4] else List.replicate ((site O i).dim 0) Tensor.empty

/-- constructor, /repo/src/dmrg/qform.cc:27-44; `none` = failed assert.  (As for `LinearForm`, the loops do not end if
`start ≥ size()`.) -/
def QForm.new [DecidableEq R] (O bra ket : List (Tensor R)) (start : Nat) : Option (QForm R) :=
  if (site O 0).dim 0 ≠ 1 ∨ (site bra 0).dim 0 ≠ 1 ∨ (site ket 0).dim 0 ≠ 1 then none
  else
    let f : QForm R := ⟨O.length - 1, O.length, makeDatabase O, O.map makePairs⟩
    let f := (List.range (f.size - 1 - start)).foldl (fun f _ => f.propagateLeft (site bra f.here) (site ket f.here)) f
    let f : QForm R := { f with here := 0 }
    some ((List.range start).foldl (fun f _ => f.propagateRight (site bra f.here) (site ket f.here)) f)

/-- `compose(L, op, R)`, /repo/src/dmrg/qform.cc:166-180 -/
def qfCompose (L op Rt : Tensor R) : Tensor R :=
  kron (kron (reshape Rt [Rt.dim 0, Rt.dim 1]) op) (reshape L [L.dim 2, L.dim 3])

/-- `compose(L, op1, op2, R)`, /repo/src/dmrg/qform.cc:182-197 -/
def qfCompose2 (L op1 op2 Rt : Tensor R) : Tensor R :=
  kron (kron (kron (reshape Rt [Rt.dim 0, Rt.dim 1]) op2) op1) (reshape L [L.dim 2, L.dim 3])

/-- the common form of the loops over the pairs of one site: add `g p L R` for all pairs whose left and right matrices are
not empty, /repo/src/dmrg/qform.cc:204-212, 254-275, 284-305 -/
def QForm.sumPairs (f : QForm R) (g : Pair R → Tensor R → Tensor R → Tensor R) : Tensor R :=
  (f.pairs.getD f.here []).foldl (fun out p =>
    let L := (f.mat.getD f.here []).getD p.left Tensor.empty
    let Rt := (f.mat.getD (f.here + 1) []).getD p.right Tensor.empty
    if !L.isEmpty && !Rt.isEmpty then maybeAdd out (g p L Rt) else out) Tensor.empty

/-- `single_site_matrix()`, /repo/src/dmrg/qform.cc:199-214 -/
def QForm.singleSiteMatrix (f : QForm R) : Tensor R := f.sumPairs fun p L Rt => qfCompose L p.op Rt

/-- `apply_one_site_matrix(P)`, /repo/src/dmrg/qform.cc:249-277 -/
def QForm.applyOneSite (f : QForm R) (P : Tensor R) : Tensor R :=
  f.sumPairs fun p L Rt => fold (fold (reshape L [L.dim 2, L.dim 3]) 1 (foldin p.op (-1) P 1) 0) 2
    (reshape Rt [Rt.dim 0, Rt.dim 1]) 1

/-- `take_diag(A)` of a square matrix -/
def takeDiag (A : Tensor R) : Tensor R := ⟨[A.dim 0], fun x => A.get [x.getD 0 0, x.getD 0 0]⟩

/-- `kron2(a, b)` of vectors: the index of `a` is the fastest -/
def kron2v (a b : Tensor R) : Tensor R :=
  ⟨[a.dim 0 * b.dim 0], fun x => a.get [x.getD 0 0 % a.dim 0] * b.get [x.getD 0 0 / a.dim 0]⟩

/-- `kron2_sum(a, b)` of vectors: the sum instead of the product, `kron2(a, 1) + kron2(1, b)` -/
def kron2vSum (a b : Tensor R) : Tensor R :=
  ⟨[a.dim 0 * b.dim 0], fun x => a.get [x.getD 0 0 % a.dim 0] + b.get [x.getD 0 0 / a.dim 0]⟩

/-- `take_single_site_matrix_diag()`, /repo/src/dmrg/qform.cc:279-307 -/
def QForm.singleDiag (f : QForm R) : Tensor R :=
  f.sumPairs fun p L Rt => kron2vSum (kron2vSum (takeDiag (reshape L [L.dim 2, L.dim 3])) (takeDiag p.op))
    (takeDiag (reshape Rt [Rt.dim 0, Rt.dim 1]))

/-- the common form of the loops over two pairs, at the sites `i` and `i+1`, with equal inner index,
/repo/src/dmrg/qform.cc:232-245, 324-353, 372-409 -/
def QForm.sumPairs2 (f : QForm R) (i : Nat) (g : Pair R → Pair R → Tensor R → Tensor R → Tensor R) : Tensor R :=
  (f.pairs.getD i []).foldl (fun out p1 =>
    (f.pairs.getD (i + 1) []).foldl (fun out p2 =>
      if p1.right = p2.left then
        let L := (f.mat.getD i []).getD p1.left Tensor.empty
        let Rt := (f.mat.getD (i + 1 + 1) []).getD p2.right Tensor.empty
        if !L.isEmpty && !Rt.isEmpty then maybeAdd out (g p1 p2 L Rt) else out
      else out) out) Tensor.empty

/-- `two_site_matrix(sense)`, /repo/src/dmrg/qform.cc:216-247 -/
def QForm.twoSiteMatrix (f : QForm R) (sense : Int) : Option (Tensor R) :=
  (pairAt f.here f.size sense).map fun i => f.sumPairs2 i fun p1 p2 L Rt => qfCompose2 L p1.op p2.op Rt

/-- `apply_two_site_matrix(P12, sense)`, /repo/src/dmrg/qform.cc:309-355 -/
def QForm.applyTwoSite (f : QForm R) (P12 : Tensor R) (sense : Int) : Option (Tensor R) :=
  (pairAt f.here f.size sense).map fun i => f.sumPairs2 i fun p1 p2 L Rt =>
    fold (fold (reshape L [L.dim 2, L.dim 3]) 1 (foldin p1.op (-1) (foldin p2.op (-1) P12 2) 1) 0) 3
      (reshape Rt [Rt.dim 0, Rt.dim 1]) 1

/-- `take_two_site_matrix_diag(sense)`, /repo/src/dmrg/qform.cc:357-411 -/
def QForm.twoDiag (f : QForm R) (sense : Int) : Option (Tensor R) :=
  (pairAt f.here f.size sense).map fun i => f.sumPairs2 i fun p1 p2 L Rt =>
    kron2v (kron2v (takeDiag (reshape L [L.dim 2, L.dim 3])) (takeDiag p1.op))
      (kron2v (takeDiag p2.op) (takeDiag (reshape Rt [Rt.dim 0, Rt.dim 1])))

end MPS.Form
