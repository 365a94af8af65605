import Verif.Tensor

/-!
# Model of /repo/src/mps: propagation of scalar products, expected values, vectors

An MPS object (`RMPS`, `CMPS`) is the list of its tensors (`std::vector<Tensor> data_`,
/repo/include/mps/mp_base.h:41-81).
-/

namespace MPS

open Tensor
variable {R : Type} [CommRing R]

/-- access `mps[k]`; /repo/include/mps/mp_base.h:58-61 (`assert` on the range: callers below only use
valid `k`; out of range is the empty tensor here) -/
def site (ψ : List (Tensor R)) (k : Nat) : Tensor R := ψ.getD k Tensor.empty

/-- `RMPS::normal_index`, /repo/src/mps/rmps.cc:39-48; `none` = failed assert. -/
def normalIndex (size : Nat) (i : Int) : Option Nat :=
  if i < 0 then
    if -(size : Int) ≤ i then some (i + size).toNat else none
  else
    if i < size then some i.toNat else none

/-- the loop body of `mps_to_vector`, /repo/src/mps/rmps_to_vector.cc:34-37 -/
def toVectorLoop (d0 : Nat) : Tensor R → List (Tensor R) → Tensor R
  | output, [] => output
  | output, A :: As =>
    let o := fold output (-1) A 0
    toVectorLoop d0 (reshape o [d0, o.dim 1 * o.dim 2, o.dim 3]) As

/-- `mps_to_vector`, /repo/src/mps/rmps_to_vector.cc:27-39 (and cmps_to_vector.cc:27-39);
`none` = failed `assert(mps.size() > 0)` -/
def mpsToVector : List (Tensor R) → Option (Tensor R)
  | [] => none
  | A :: As => some (trace (toVectorLoop (A.dim 0) A As))

section Star
variable [StarRing R]

/-- `do_prop_init`, /repo/src/mps/mps_prop_matrix.cc:24-33 -/
def propInit (Q P : Tensor R) (op : Option (Tensor R)) : Tensor R :=
  let M := match op with
    | some o => foldc Q 1 (fold o 1 P 1) 0
    | none => foldc Q 1 P 1
  permute M 1 2

/-- `do_prop_close(M)`, /repo/src/mps/mps_prop_matrix.cc:35-41 -/
def propClose1 (M : Tensor R) : Tensor R :=
  trace (reshape M [M.dim 0 * M.dim 1, M.dim 2 * M.dim 3])

/-- `do_prop_close(L,R)`, /repo/src/mps/mps_prop_matrix.cc:43-57 -/
def propClose2 (L Rt : Tensor R) : Tensor R :=
  if Rt.isEmpty then propClose1 L
  else if L.isEmpty then propClose1 Rt
  else
    let b1 := Rt.dim 0
    let b2 := Rt.dim 1
    let a1 := Rt.dim 2
    let a2 := Rt.dim 3
    mmult (reshape L [1, a1 * a2 * b1 * b2])
      (reshape (transpose (reshape Rt [b1 * b2, a1 * a2])) [a1 * a2 * b1 * b2, 1])

/-- the part of `do_prop_right` for a rank-4 `M0`, /repo/src/mps/mps_prop_matrix.cc:68-79 -/
def propRight4 (M0 Q P : Tensor R) (op : Option (Tensor R)) : Tensor R :=
  let a1 := M0.dim 0
  let b1 := M0.dim 1
  let b2 := P.dim 0
  let i2 := P.dim 1
  let a3 := Q.dim 2
  let b3 := P.dim 2
  let M := match op with
    | some o => fold M0 2 (fold o 0 (conj Q) 1) 1
    | none => fold M0 2 (conj Q) 0
  fold (reshape M [a1, b1, b2 * i2, a3]) 2 (reshape P [b2 * i2, b3]) 0

/-- `do_prop_right`, /repo/src/mps/mps_prop_matrix.cc:59-80 -/
def propRight (M0 Q P : Tensor R) (op : Option (Tensor R)) : Tensor R :=
  if M0.isEmpty then propInit Q P op
  else if M0.rank = 2 then propRight4 (reshape M0 [1, 1, M0.dim 0, M0.dim 1]) Q P op
  else propRight4 M0 Q P op

/-- the part of `do_prop_left` for a rank-4 `M0`, /repo/src/mps/mps_prop_matrix.cc:91-101 -/
def propLeft4 (M0 Q P : Tensor R) (op : Option (Tensor R)) : Tensor R :=
  let a2 := M0.dim 2
  let b2 := M0.dim 3
  let a0 := Q.dim 0
  let a1 := Q.dim 2
  let b0 := P.dim 0
  let i0 := P.dim 1
  let M := match op with
    | some o => fold (fold P 1 o (-1)) 1 M0 1
    | none => fold P (-1) M0 1
  foldc (reshape Q [a0, i0 * a1]) (-1) (reshape M [b0, i0 * a1, a2, b2]) 1

/-- `do_prop_left`, /repo/src/mps/mps_prop_matrix.cc:82-102 -/
def propLeft (M0 Q P : Tensor R) (op : Option (Tensor R)) : Tensor R :=
  if M0.isEmpty then propInit Q P op
  else if M0.rank = 2 then propLeft4 (reshape M0 [M0.dim 0, M0.dim 1, 1, 1]) Q P op
  else propLeft4 M0 Q P op

/-- `prop_matrix`, /repo/src/mps/mps_prop_matrix_d.cc:35-45 (same in `_z.cc`) -/
def propMatrix (M0 : Tensor R) (sense : Int) (Q P : Tensor R) (op : Option (Tensor R)) : Tensor R :=
  if M0.isEmpty then propInit Q P op
  else if sense > 0 then propRight M0 Q P op
  else propLeft M0 Q P op

/-- left-to-right loop `for k: M = prop_matrix(M, +1, a[k], b[k], op_k)`, the common form of
/repo/src/mps/mps_expected1.cc:35-43,53-55,68-70 and mps_expected2.cc:40-50 -/
def propAllRight : Tensor R → List (Tensor R × Tensor R × Option (Tensor R)) → Tensor R
  | M, [] => M
  | M, (q, p, o) :: rest => propAllRight (propMatrix M 1 q p o) rest

/-- right-to-left loop `for k = size; k--;: M = prop_matrix(M, -1, a[k], b[k], NULL)`,
/repo/src/mps/mps_expected1.cc:72-74 : the list is consumed from its last element -/
def propAllLeft (M : Tensor R) (l : List (Tensor R × Tensor R × Option (Tensor R))) : Tensor R :=
  l.foldr (fun x M => propMatrix M (-1) x.1 x.2.1 x.2.2) M

/-- `scalar_product` / `scprod`, /repo/src/mps/mps_expected1.cc:61-77, mps_scprod_d.cc.
`none` = failed `assert(a.size() == b.size())`.  (An empty pair closes an empty tensor: also undefined.) -/
def scprod (a b : List (Tensor R)) (sense : Int) : Option R :=
  if a.length = b.length ∧ a ≠ [] then
    let l := (a.zip b).map (fun x => (x.1, x.2, (none : Option (Tensor R))))
    let M := if sense ≥ 0 then propAllRight Tensor.empty l else propAllLeft Tensor.empty l
    some ((propClose1 M).lin 0)
  else none

/-- the value under the square root of `state_norm` before `real`/`abs`:
`prop_matrix_close(M)[0]`, /repo/src/mps/mps_expected1.cc:49-56 -/
def normClosed (a : List (Tensor R)) : R :=
  (propClose1 (propAllRight Tensor.empty (a.map (fun x => (x, x, (none : Option (Tensor R))))))).lin 0

/-- `single_site_expected`, /repo/src/mps/mps_expected1.cc:29-45 -/
def expected1 (a : List (Tensor R)) (op : Tensor R) (k1 : Int) : Option R := do
  let k1 ← normalIndex a.length k1
  let l := (List.range a.length).map fun k =>
    (site a k, site a k, if k = k1 then some op else none)
  pure ((propClose1 (propAllRight Tensor.empty l)).lin 0)

/-- `two_sites_expected`, /repo/src/mps/mps_expected2.cc:29-53.  The comparison `k1 == k2` is made on the
indices as passed by the user, before `normal_index`. -/
def expected2 (a : List (Tensor R)) (op1 : Tensor R) (k1 : Int) (op2 : Tensor R) (k2 : Int) : Option R :=
  if k1 = k2 then expected1 a (mmult op1 op2) k1
  else do
    let k1 ← normalIndex a.length k1
    let k2 ← normalIndex a.length k2
    let l := (List.range a.length).map fun k =>
      (site a k, site a k, if k = k1 then some op1 else if k = k2 then some op2 else none)
    pure ((propClose1 (propAllRight Tensor.empty l)).lin 0)

/-- `expected(a, op)` summed over the chain, /repo/src/mps/mps_expected1_d.cc:32-39 -/
def expectedSum (a : List (Tensor R)) (op : Tensor R) : Option R :=
  (List.range a.length).foldlM (fun out (i : Nat) => (expected1 a op (i : Int)).map (fun v => out + v)) 0

/-- `auxLeft[i]` for `i = 0 .. L-1`: `auxLeft[0]` is the default (empty) tensor and
`auxLeft[i] = left = prop_matrix(left, +1, a[i-1], b[i-1], 0)`;
/repo/src/mps/mps_expected1_all.cc:44-48, mps_expected2_all.cc:52-58 -/
def auxLefts : Tensor R → List (Tensor R × Tensor R) → List (Tensor R)
  | left, [] => [left]
  | left, (q, p) :: rest => left :: auxLefts (propMatrix left 1 q p none) rest

/-- `auxRight[i]` for `i = 0 .. L-1`: `auxRight[L-1]` is empty and
`auxRight[i-1] = aux = prop_matrix(aux, -1, a[i], b[i], 0)`; /repo/src/mps/mps_expected2_all.cc:59-64 -/
def auxRights (a b : List (Tensor R)) : List (Tensor R) :=
  (List.range a.length).map fun i =>
    propAllLeft Tensor.empty (((a.zip b).drop (i + 1)).map fun x => (x.1, x.2, none))

/-- the loop `for (i = L; i--;)` of `all_expected_vector_fast`, /repo/src/mps/mps_expected1_all.cc:49-55 -/
def expVecLoop (a b ops aux : List (Tensor R)) : Nat → Tensor R → List R → List R
  | 0, _, out => out
  | i + 1, right, out =>
    let left := propMatrix (aux.getD i Tensor.empty) 1 (site a i) (site b i) (some (site ops i))
    expVecLoop a b ops aux i (propMatrix right (-1) (site a i) (site b i) none)
      ((propClose2 left right).lin 0 :: out)

/-- `all_expected_vector_fast`, /repo/src/mps/mps_expected1_all.cc:29-57; `none` = abort() -/
def allExpectedVector (a ops b : List (Tensor R)) : Option (List R) :=
  if b.length = a.length ∧ ops.length = a.length then
    some (expVecLoop a b ops (auxLefts Tensor.empty ((a.zip b).dropLast)) a.length Tensor.empty [])
  else none

/-- `expected_vector(a, ops)`, /repo/src/mps/mps_expected1_all_d.cc:27-30 -/
def expectedVector (a ops : List (Tensor R)) : Option (List R) := allExpectedVector a ops a

/-- `expected_vector(a, op)`, /repo/src/mps/mps_expected1_all_d.cc:32-36 -/
def expectedVector1 (a : List (Tensor R)) (op : Tensor R) : Option (List R) :=
  allExpectedVector a (List.replicate a.length op) a

/-- assignment to an entry of the output matrix -/
def updM (out : Nat → Nat → R) (i j : Nat) (v : R) : Nat → Nat → R :=
  fun i' j' => if i' = i ∧ j' = j then v else out i' j'

/-- inner loop over `j` of the first pass, /repo/src/mps/mps_expected2_all.cc:74-80 (progress output to
`std::cout` is not modelled) -/
def corrInner1 (a b op2 auxR : List (Tensor R)) (jw : Option (Tensor R)) (i : Nat) :
    List Nat → Tensor R → (Nat → Nat → R) → (Nat → Nat → R)
  | [], _, out => out
  | j :: js, aux, out =>
    let aux2 := propMatrix aux 1 (site a j) (site b j) (some (site op2 j))
    let v := (propClose2 aux2 (auxR.getD j Tensor.empty)).lin 0
    let out := updM out i j v
    corrInner1 a b op2 auxR jw i js (propMatrix aux 1 (site a j) (site b j) jw)
      (updM out j i (star v))

/-- inner loop over `j` of the second pass, /repo/src/mps/mps_expected2_all.cc:86-91 -/
def corrInner2 (a b op1 auxR : List (Tensor R)) (jw : Option (Tensor R)) (i : Nat) :
    List Nat → Tensor R → (Nat → Nat → R) → (Nat → Nat → R)
  | [], _, out => out
  | j :: js, aux, out =>
    let aux2 := propMatrix aux 1 (site a j) (site b j) (some (site op1 j))
    let v := (propClose2 aux2 (auxR.getD j Tensor.empty)).lin 0
    corrInner2 a b op1 auxR jw i js (propMatrix aux 1 (site a j) (site b j) jw) (updM out j i v)

/-- body of the loop over `i` of the first pass, /repo/src/mps/mps_expected2_all.cc:66-82 -/
def corrOuter1 (a b op1 op2 auxL auxR : List (Tensor R)) (jw : Option (Tensor R))
    (out : Nat → Nat → R) (i : Nat) : Nat → Nat → R :=
  let op12 := mmult (site op1 i) (site op2 i)
  let aux := propMatrix (auxL.getD i Tensor.empty) 1 (site a i) (site b i) (some op12)
  let out := updM out i i ((propClose2 aux (auxR.getD i Tensor.empty)).lin 0)
  let aux := propMatrix (auxL.getD i Tensor.empty) 1 (site a i) (site b i) (some (site op1 i))
  corrInner1 a b op2 auxR jw i (List.range' (i + 1) (a.length - (i + 1))) aux out

/-- body of the loop over `i` of the second pass, /repo/src/mps/mps_expected2_all.cc:84-92 -/
def corrOuter2 (a b op1 op2 auxL auxR : List (Tensor R)) (jw : Option (Tensor R))
    (out : Nat → Nat → R) (i : Nat) : Nat → Nat → R :=
  let aux := propMatrix (auxL.getD i Tensor.empty) 1 (site a i) (site b i) (some (site op2 i))
  corrInner2 a b op1 auxR jw i (List.range' (i + 1) (a.length - (i + 1))) aux out

/-- `all_correlations_fast`, /repo/src/mps/mps_expected2_all.cc:29-95; `none` = abort() -/
def allCorrelations (a op1 op2 b : List (Tensor R)) (symmetric : Bool) (jw : Option (Tensor R)) :
    Option (Nat → Nat → R) :=
  if b.length = a.length ∧ op1.length = a.length ∧ op2.length = a.length then
    let auxL := auxLefts Tensor.empty ((a.zip b).dropLast)
    let auxR := auxRights a b
    let out := (List.range a.length).foldl (corrOuter1 a b op1 op2 auxL auxR jw) (fun _ _ => 0)
    some (if symmetric then out
      else (List.range a.length).foldl (corrOuter2 a b op1 op2 auxL auxR jw) out)
  else none

/-- `expected(a, ops1, ops2)`, /repo/src/mps/mps_expected2_all_d.cc:27-30 -/
def expectedMatrix (a op1 op2 : List (Tensor R)) : Option (Nat → Nat → R) :=
  allCorrelations a op1 op2 a false none

/-- `expected(a, op1, op2)`, /repo/src/mps/mps_expected2_all_d.cc:32-38 -/
def expectedMatrix1 (a : List (Tensor R)) (op1 op2 : Tensor R) : Option (Nat → Nat → R) :=
  allCorrelations a (List.replicate a.length op1) (List.replicate a.length op2) a false none

end Star

/-- `apply_local_operator`, /repo/src/mps/apply_local_operator_d.cc:26-31; `none` = failed range assert -/
def applyLocalOperator (ψ : List (Tensor R)) (op : Tensor R) (k : Int) : Option (List (Tensor R)) :=
  if 0 ≤ k ∧ k < ψ.length then
    some (ψ.set k.toNat (foldin op (-1) (site ψ k.toNat) 1))
  else none

end MPS
