import Verif.MinimizerModel

/-!
# Model of /repo/src/mps/mps_simplify.cc and mps_simplify_many.cc

The three functions `simplify(&P, Q, &sense, periodicbc, sweeps, normalize)`, `simplify(&P, {Q}, weights, &sense, sweeps,
normalize)` and `simplify(&P, {Q}, weights, Dmax, tol, &sense, sweeps, normalize)`.

The singular value decomposition is a parameter (see `CanonModel`), and so is `tolerance`, the value of
`FLAGS.get(MPS_SIMPLIFY_TOLERANCE)`.  Debug output is left out.  `none` = failed assert, `abort()`, or a division `0/0`.
-/

namespace MPS.Simp
open MPS Tensor Minim

section next
variable {R : Type} [CommRing R] [StarRing R]

/-- the contraction used at the ends of the chain, /repo/src/mps/mps_simplify.cc:89-96 and :98-105 (the same text with `Mr`
in place of `Ml`), mps_simplify_many.cc:207-214 and :217-224 -/
def edgeProjector (M Qk : Tensor R) : Tensor R :=
  let a1 := M.dim 0
  let b1 := M.dim 1
  let a2 := M.dim 2
  let b2 := M.dim 3
  let i1 := Qk.dim 1
  let M' := reshape (permute M 0 3) [b2 * b1, a2, a1]
  let Pk := reshape (permute Qk 1 2) [b2 * b1, i1]
  permute (reshape (fold M' 0 Pk 0) [a2, a1, i1]) 1 2

/-- the contraction used in the middle of the chain, /repo/src/mps/mps_simplify.cc:107-115, mps_simplify_many.cc:226-234 -/
def middleProjector (Ml Mr Qk : Tensor R) : Tensor R :=
  let a1 := Ml.dim 0
  let b1 := Ml.dim 1
  let a2 := Ml.dim 2
  let i1 := Qk.dim 1
  let b3 := Qk.dim 2
  let a3 := Mr.dim 0
  let Pk := reshape (fold Qk 0 Ml 3) [i1, b3 * a1 * b1, a2]
  let Mr' := reshape (permute (permute Mr 2 3) 0 2) [b3 * a1 * b1, a3]
  permute (reshape (fold Pk 1 Mr' 0) [i1, a2, a3]) 0 1

/-- `build_next_projector(Pk, Ml, Mr, Nl, Nr, Qk)` with `Nl`, `Nr` empty, /repo/src/mps/mps_simplify.cc:81-130 -/
def buildNextProjector (Ml Mr Qk : Tensor R) : Tensor R :=
  if Mr.isEmpty then edgeProjector Ml Qk
  else if Ml.isEmpty then edgeProjector Mr Qk
  else middleProjector Ml Mr Qk

/-- `next_projector(Ml, Mr, Qk)`, /repo/src/mps/mps_simplify_many.cc:198-236 -/
def nextProjector (Ml Mr Qk : Tensor R) : Tensor R :=
  if Mr.isEmpty then
    if Ml.isEmpty then Qk else edgeProjector Ml Qk
  else if Ml.isEmpty then edgeProjector Mr Qk
  else middleProjector Ml Mr Qk

end next

variable {K : Type} [RCLike K]

/-- `normalize_this(Pk, sense)`, /repo/src/mps/mps_simplify.cc:63-79 -/
noncomputable def normalizeThis (svd : Tensor K → SvdRes K) (Pk : Tensor K) (sense : Int) : Tensor K :=
  let a1 := Pk.dim 0
  let i1 := Pk.dim 1
  let a2 := Pk.dim 2
  if sense > 0 then reshape (svd (reshape Pk [a1 * i1, a2])).U [a1, i1, min (a1 * i1) a2]
  else reshape (svd (reshape Pk [a1, i1 * a2])).V [min a1 (i1 * a2), i1, a2]

/-! ### simplify(&P, Q, &sense, periodicbc, sweeps, normalize) -/

/-- the loop `for (k = N; k--; ) { Mr = prop_matrix(Mr, -1, P[k], Q[k]); A.at(k) = Mr; }`, /repo/src/mps/mps_simplify.cc:180-184,
entered with `k` sites left -/
def cacheRight (P Q : List (Tensor K)) : Nat → Tensor K → List (Tensor K) → List (Tensor K)
  | 0, _, A => A
  | k + 1, Mr, A =>
    let M := propMatrix Mr (-1) (site P k) (site Q k) none
    cacheRight P Q k M (A.set k M)

/-- the loop `for (k = 0; k < N; k++) { Ml = prop_matrix(Ml, +1, P[k], Q[k]); A.at(k) = Ml; }`, /repo/src/mps/mps_simplify.cc:191-195,
at site `k` with `n` sites left -/
def cacheLeft (P Q : List (Tensor K)) : Nat → Nat → Tensor K → List (Tensor K) → List (Tensor K)
  | 0, _, _, A => A
  | n + 1, k, Ml, A =>
    let M := propMatrix Ml 1 (site P k) (site Q k) none
    cacheLeft P Q n (k + 1) M (A.set k M)

/-- the variables `P`, `A`, `Ml` or `Mr`, and `Pk` of the program -/
structure Sweep (K : Type) where
  P : List (Tensor K)
  A : List (Tensor K)
  M : Tensor K
  Pk : Tensor K

/-- a sweep to the right, /repo/src/mps/mps_simplify.cc:210-226, at site `k` with `n` sites left -/
noncomputable def sweepRight (svd : Tensor K → SvdRes K) (Q : List (Tensor K)) : Nat → Nat → Sweep K → Sweep K
  | 0, _, x => x
  | n + 1, k, x =>
    let Mr := if k + 1 < x.P.length then x.A.getD (k + 1) Tensor.empty else Tensor.empty
    let T := buildNextProjector x.M Mr (site Q k)
    let Pk := if k + 1 < x.P.length then normalizeThis svd T 1 else T
    let M := propMatrix x.M 1 Pk (site Q k) none
    sweepRight svd Q n (k + 1) ⟨x.P.set k Pk, x.A.set k M, M, Pk⟩

/-- a sweep to the left, /repo/src/mps/mps_simplify.cc:236-252, with `k` sites left -/
noncomputable def sweepLeft (svd : Tensor K → SvdRes K) (Q : List (Tensor K)) : Nat → Sweep K → Sweep K
  | 0, x => x
  | k + 1, x =>
    let Ml := if k > 0 then x.A.getD (k - 1) Tensor.empty else Tensor.empty
    let T := buildNextProjector Ml x.M (site Q k)
    let Pk := if k > 0 then normalizeThis svd T (-1) else T
    let M := propMatrix x.M (-1) Pk (site Q k) none
    sweepLeft svd Q k ⟨x.P.set k Pk, x.A.set k M, M, Pk⟩

/-- what the functions leave behind.  `errs` (the numbers `err` of all the sweeps), `P0` (the state before it is normalised) and
`lost` (the weight of the singular values dropped) are not visible to the caller. -/
structure Res (K : Type) where
  err : ℝ
  P : List (Tensor K)
  sense : Int
  errs : List ℝ
  P0 : List (Tensor K)
  lost : ℝ

/-- the two ways of leaving the loop: by `break`, with `normalize` or without, and because there are no sweeps left;
/repo/src/mps/mps_simplify.cc:266-274, mps_simplify_many.cc:326-338.  `P.at(...) = Pk / sqrt(normP2)`. -/
noncomputable def leave (stop normalize : Bool) (N : Nat) (P : List (Tensor K)) (Pk : Tensor K) (normP2 : ℝ) (sense : Int) (err : ℝ)
    (errs : List ℝ) (lost : ℝ) : Res K :=
  if stop then
    if normalize then
      ⟨err, P.set (if sense > 0 then N - 1 else 0) (smul ((1 / Real.sqrt normP2 : ℝ) : K) Pk), -sense, errs, P, lost⟩
    else ⟨err, P, sense, errs, P, lost⟩
  else ⟨err, P, -sense, errs, P, lost⟩

open Classical in
/-- the loop over sweeps, /repo/src/mps/mps_simplify.cc:200-275, entered with `sweeps + 1` sweeps left.  (`prop_matrix_close(Ml)`
has no effect on `Ml`: the program reads `Ml[0]`.) -/
noncomputable def simplifyLoop (svd : Tensor K → SvdRes K) (tolerance normQ2 : ℝ) (normalize : Bool) (Q : List (Tensor K)) :
    Nat → Int → ℝ → List (Tensor K) → List (Tensor K) → List ℝ → Option (Res K)
  | sweeps, sense, olderr, P, A, errs =>
    let N := P.length
    let y := if sense > 0 then sweepRight svd Q N 0 ⟨P, A, Tensor.empty, Tensor.empty⟩
      else sweepLeft svd Q N ⟨P, A, Tensor.empty, Tensor.empty⟩
    let scp := RCLike.re (y.M.lin 0)
    let normP2 := RCLike.re (tscprod y.Pk y.Pk)
    if normQ2 * normP2 = 0 then none
    else
      let err := 1 - scp / Real.sqrt (normQ2 * normP2)
      if olderr - err < 1 / 10 ^ 5 * |olderr| ∨ err < tolerance then
        some (leave true normalize N y.P y.Pk normP2 sense err (errs ++ [err]) 0)
      else match sweeps with
        | 0 => some (leave false normalize N y.P y.Pk normP2 sense err (errs ++ [err]) 0)
        | sweeps + 1 => simplifyLoop svd tolerance normQ2 normalize Q sweeps (-sense) err y.P y.A (errs ++ [err])

/-- `do_simplify(&P, Q, &sense, periodicbc, sweeps, normalize)`, /repo/src/mps/mps_simplify.cc:152-277.  Only states of the same
size: the program does not check this.  With `periodicbc` the first call of `build_next_projector` ends in `abort()`
(/repo/src/mps/mps_simplify.cc:116-129), because one of `Nl`, `Nr` is not empty. -/
noncomputable def simplify (svd : Tensor K → SvdRes K) (tolerance : ℝ) (P Q : List (Tensor K)) (sense : Int) (periodicbc : Bool)
    (sweeps : Nat) (normalize : Bool) : Option (Res K) :=
  let normQ2 := norm2 Q ^ 2
  if sweeps = 0 then
    (scprod Q P 1).map fun z =>
      let e := normQ2 + norm2 P ^ 2 - 2 * RCLike.re z
      ⟨e, P, sense, [], P, 0⟩
  else if Q.length = 1 then none
  else if sense = 0 then none
  else if periodicbc then none
  else
    let N := P.length
    let A := List.replicate N Tensor.empty
    let A := if sense > 0 then cacheRight P Q N Tensor.empty A else cacheLeft P Q N 0 Tensor.empty A
    simplifyLoop svd tolerance normQ2 normalize Q (sweeps - 1) sense 1 P A []

/-! ### simplify(&P, {Q}, weights, ...) -/

/-- the members `Q`, `weights`, `A` and `L` of `MPSManySimplifier`, /repo/src/mps/mps_simplify_many.cc:82-94, transposed: `mat n` is
the list `A[0][n]`, `A[1][n]`, ..., so that `matrix(site, n) = mat n [site + 1]` -/
structure Many (K : Type) where
  Q : List (List (Tensor K))
  weights : List K
  L : Nat
  mat : List (List (Tensor K))

/-- `matrix(site, n)` with `j = site + 1`, /repo/src/mps/mps_simplify_many.cc:127-129 -/
def Many.matrix (m : Many K) (j n : Nat) : Tensor K := (m.mat.getD n []).getD j Tensor.empty

/-- `normQ2`, /repo/src/mps/mps_simplify_many.cc:113-124; `none` = failed assert in `scprod` -/
noncomputable def manyNorm2 (Q : List (List (Tensor K))) (weights : List K) : Option ℝ :=
  ((List.range Q.length).foldlM (fun (x : K) i =>
    (List.range (Q.length - i)).foldlM (fun (x : K) j' =>
      let j := i + j'
      (scprod (Q.getD i []) (Q.getD j []) 1).map fun p =>
        let y := p * star (weights.getD i 0) * weights.getD j 0
        if i = j then x + y else x + ((2 * RCLike.re y : ℝ) : K)) x) 0).map fun x => RCLike.re x

/-- constructor of `MPSManySimplifier`, /repo/src/mps/mps_simplify_many.cc:96-125, apart from `normQ2` -/
def Many.new (Q : List (List (Tensor K))) (weights : List K) : Option (Many K) :=
  if Q.length = 0 then none
  else
    let L := (Q.getD 0 []).length
    if L = 1 then none
    else some ⟨Q, weights, L, Q.map fun _ => List.replicate (L + 2) Tensor.empty⟩

/-- `update_matrices(site, Pk, sense)`, /repo/src/mps/mps_simplify_many.cc:145-157 -/
def Many.update (m : Many K) (k : Nat) (Pk : Tensor K) (sense : Int) : Many K :=
  { m with mat := List.zipWith (fun q a =>
      if sense > 0 then a.set (k + 1) (propMatrix (a.getD k Tensor.empty) 1 Pk (site q k) none)
      else a.set (k + 1) (propMatrix (a.getD (k + 2) Tensor.empty) (-1) Pk (site q k) none)) m.Q m.mat }

/-- `initialize_matrices(P, sense)` for `sense > 0`, /repo/src/mps/mps_simplify_many.cc:172-175, with `k` sites left -/
def Many.initRight (P : List (Tensor K)) : Nat → Many K → Many K
  | 0, m => m
  | k + 1, m => Many.initRight P k (m.update k (site P k) (-1))

/-- `initialize_matrices(P, sense)` for `sense < 0`, /repo/src/mps/mps_simplify_many.cc:176-179, at site `k` with `n` sites left -/
def Many.initLeft (P : List (Tensor K)) : Nat → Nat → Many K → Many K
  | 0, _, m => m
  | n + 1, k, m => Many.initLeft P n (k + 1) (m.update k (site P k) 1)

/-- `scalar_product(site)`, /repo/src/mps/mps_simplify_many.cc:187-196 -/
def Many.scalarProduct (m : Many K) (k : Nat) : K :=
  (List.range m.Q.length).foldl (fun M n => M + (propClose1 (m.matrix (k + 1) n)).lin 0 * m.weights.getD n 0) 0

/-- `next_projector(site)`, /repo/src/mps/mps_simplify_many.cc:247-260 -/
def Many.next (m : Many K) (k : Nat) : Tensor K :=
  (List.range m.Q.length).foldl (fun out n =>
    let T := smul (m.weights.getD n 0) (nextProjector (m.matrix k n) (m.matrix (k + 2) n) (site (m.Q.getD n []) k))
    if n ≠ 0 then add out T else T) Tensor.empty

/-- `next_projector_2_sites(site)`, /repo/src/mps/mps_simplify_many.cc:345-363; `i1` and `i2` are those of the last vector -/
def Many.next2 (m : Many K) (k : Nat) : Tensor K :=
  let out := (List.range m.Q.length).foldl (fun out n =>
    let q := m.Q.getD n []
    let P := fold (site q k) (-1) (site q (k + 1)) 0
    let T := smul (m.weights.getD n 0) (nextProjector (m.matrix k n) (m.matrix (k + 3) n)
      (reshape P [P.dim 0, P.dim 1 * P.dim 2, P.dim 3]))
    if n ≠ 0 then add out T else T) Tensor.empty
  let q := m.Q.getD (m.Q.length - 1) []
  let P := fold (site q k) (-1) (site q (k + 1)) 0
  reshape out [out.dim 0, P.dim 1, P.dim 2, out.dim 2]

/-- the state of a sweep: `P`, the object, `Pk`, and the weight lost so far (not part of the program) -/
structure MSweep (K : Type) where
  P : List (Tensor K)
  m : Many K
  Pk : Tensor K
  lost : ℝ

/-- a sweep to the right, /repo/src/mps/mps_simplify_many.cc:305-310, at site `k` with `n` sites left -/
noncomputable def manyRight (svd : Tensor K → SvdRes K) (eps dflt : ℝ) : Nat → Nat → MSweep K → MSweep K
  | 0, _, x => x
  | n + 1, k, x =>
    let c := setCanonical svd eps dflt x.P k (x.m.next k) 1 false
    manyRight svd eps dflt n (k + 1) ⟨c.1, x.m.update k (site c.1 k) 1, site c.1 k, x.lost + c.2⟩

/-- a sweep to the left, /repo/src/mps/mps_simplify_many.cc:314-319, with `k` sites left -/
noncomputable def manyLeft (svd : Tensor K → SvdRes K) (eps dflt : ℝ) : Nat → MSweep K → MSweep K
  | 0, x => x
  | k + 1, x =>
    let c := setCanonical svd eps dflt x.P k (x.m.next k) (-1) false
    manyLeft svd eps dflt k ⟨c.1, x.m.update k (site c.1 k) (-1), site c.1 k, x.lost + c.2⟩

/-- a sweep to the right with pairs of sites, /repo/src/mps/mps_simplify_many.cc:410-415, at site `k` with `n` pairs left;
`canonicalize_both` has the default value `true` (/repo/include/mps/mps.h) -/
noncomputable def manyRight2 (svd : Tensor K → SvdRes K) (eps dflt : ℝ) (Dmax : Nat) (tol : ℝ) :
    Nat → Nat → MSweep K → Option (MSweep K)
  | 0, k, x => some ⟨x.P, x.m.update k (site x.P k) 1, site x.P k, x.lost⟩
  | n + 1, k, x =>
    (setCanonical2 svd eps dflt x.P (x.m.next2 k) k 1 Dmax tol true).bind fun c =>
      manyRight2 svd eps dflt Dmax tol n (k + 1) ⟨c.1, x.m.update k (site c.1 k) 1, x.Pk, x.lost + c.2.1⟩

/-- a sweep to the left with pairs of sites, /repo/src/mps/mps_simplify_many.cc:419-424, at site `k` -/
noncomputable def manyLeft2 (svd : Tensor K → SvdRes K) (eps dflt : ℝ) (Dmax : Nat) (tol : ℝ) :
    Nat → MSweep K → Option (MSweep K)
  | 0, x => some ⟨x.P, x.m.update 0 (site x.P 0) (-1), site x.P 0, x.lost⟩
  | k + 1, x =>
    (setCanonical2 svd eps dflt x.P (x.m.next2 k) (k + 1 : Nat) (-1) Dmax tol true).bind fun c =>
      manyLeft2 svd eps dflt Dmax tol k ⟨c.1, x.m.update (k + 1) (site c.1 (k + 1)) (-1), x.Pk, x.lost + c.2.1⟩

open Classical in
/-- the end of one turn of the loop over sweeps, /repo/src/mps/mps_simplify_many.cc:311-338 and :417-444, after the sweep that gave `y`;
`go` is what is done with the error if the loop is not left here.  `P.at(ndx) = Pk / sqrt(normP2)` divides by zero if the state vanishes. -/
noncomputable def manyTurn (tolerance normQ2 : ℝ) (normalize : Bool) (sense : Int) (olderr : ℝ) (y : MSweep K) (errs : List ℝ)
    (go : ℝ → ℝ → Option (Res K)) : Option (Res K) :=
  let L := y.m.L
  let scp := RCLike.re (y.m.scalarProduct (if sense > 0 then L - 1 else 0))
  let normP2 := RCLike.re (tscprod y.Pk y.Pk)
  let err := |normQ2 + normP2 - 2 * scp|
  if |olderr - err| < 1 / 10 ^ 5 * |normQ2| ∨ err < tolerance * normQ2 ∨ err < 1 / 10 ^ 14 then
    if normalize ∧ normP2 = 0 then none
    else some (leave true normalize L y.P y.Pk normP2 sense err (errs ++ [err]) y.lost)
  else go err normP2

/-- the loop over sweeps, /repo/src/mps/mps_simplify_many.cc:301-341 and :407-447, entered with `sweeps + 1` sweeps left -/
noncomputable def manyLoop (sweep : Int → MSweep K → Option (MSweep K)) (tolerance normQ2 : ℝ) (normalize : Bool) :
    Nat → Int → ℝ → MSweep K → List ℝ → Option (Res K)
  | 0, sense, olderr, x, errs =>
    (sweep sense x).bind fun y => manyTurn tolerance normQ2 normalize sense olderr y errs fun err normP2 =>
      some (leave false normalize y.m.L y.P y.Pk normP2 sense err (errs ++ [err]) y.lost)
  | sweeps + 1, sense, olderr, x, errs =>
    (sweep sense x).bind fun y => manyTurn tolerance normQ2 normalize sense olderr y errs fun err _ =>
      manyLoop sweep tolerance normQ2 normalize sweeps (-sense) err y (errs ++ [err])

/-- what the two functions have in common: `sense` is a null pointer (`none`) or the direction -/
noncomputable def manySimplify (sweep : Int → MSweep K → Option (MSweep K)) (tolerance : ℝ) (P : List (Tensor K))
    (Q : List (List (Tensor K))) (weights : List K) (sense : Option Int) (sweeps : Nat) (normalize : Bool) : Option (Res K) :=
  (Many.new Q weights).bind fun m =>
    (manyNorm2 Q weights).bind fun normQ2 =>
      let sense := sense.getD 1
      if sense = 0 then none
      else
        let m := if sense > 0 then m.initRight P m.L else m.initLeft P m.L 0
        manyLoop sweep tolerance normQ2 normalize (max sweeps 1 - 1) sense (normQ2 * 10) ⟨P, m, Tensor.empty, 0⟩ []

/-- `simplify(&P, {Q}, weights, &sense, sweeps, normalize)`, /repo/src/mps/mps_simplify_many.cc:282-342 -/
noncomputable def simplifyMany (svd : Tensor K → SvdRes K) (eps dflt tolerance : ℝ) (P : List (Tensor K)) (Q : List (List (Tensor K)))
    (weights : List K) (sense : Option Int) (sweeps : Nat) (normalize : Bool) : Option (Res K) :=
  manySimplify (fun s x => some (if s > 0 then manyRight svd eps dflt x.m.L 0 x else manyLeft svd eps dflt x.m.L x))
    tolerance P Q weights sense sweeps normalize

/-- `simplify(&P, {Q}, weights, Dmax, tol, &sense, sweeps, normalize)`, /repo/src/mps/mps_simplify_many.cc:385-448 -/
noncomputable def simplifyMany2 (svd : Tensor K → SvdRes K) (eps dflt tolerance : ℝ) (P : List (Tensor K)) (Q : List (List (Tensor K)))
    (weights : List K) (Dmax : Nat) (tol : ℝ) (sense : Option Int) (sweeps : Nat) (normalize : Bool) : Option (Res K) :=
  manySimplify (fun s x => if s > 0 then manyRight2 svd eps dflt Dmax tol (x.m.L - 1) 0 x else manyLeft2 svd eps dflt Dmax tol (x.m.L - 1) x)
    tolerance P Q weights sense sweeps normalize

end MPS.Simp
