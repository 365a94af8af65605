import Verif.ITebdModel
import Verif.ToolsModel
import Verif.HamClasses

/-!
# Model of /repo/src/iTEBD/itebd_canonical.hpp and itebd_itime.hpp: canonical form, two-site gates, imaginary time evolution

The functions of the library `tensor` which are not part of the repository are parameters: `svd` (`linalg::svd`, `linalg::block_svd`),
`eigSym` (`linalg::eig_sym`), `eigs` (`linalg::eigs(A, n, LargestMagnitude, 1, &v)`, which gets the function `A`, the size `n` and the
starting vector `v`, and of which only the vector it leaves in `v` is used) and `expm`.
-/

namespace MPS.ITebd
open MPS Tensor
variable {K : Type} [RCLike K]

/-- result of `s = linalg::eig_sym(V, &R)` -/
structure SymRes (K : Type) where
  R : Tensor K
  s : List ℝ

/-- the functions of the library `tensor` and the two numbers `DBL_EPSILON`, `MPS_TRUNCATION_TOLERANCE` -/
structure Lib (K : Type) where
  svd : Tensor K → SvdRes K
  eigSym : Tensor K → SymRes K
  eigs : (Tensor K → Tensor K) → Nat → Tensor K → Tensor K
  expm : Tensor K → Tensor K
  eps : ℝ
  dflt : ℝ

/-- `adjoint(R)`: conjugate transpose -/
def adjoint (R : Tensor K) : Tensor K := transpose (conj R)

/-- `ortho_basis(V, &U, &Uinv)`, /repo/src/iTEBD/itebd_canonical.hpp:43-64 -/
noncomputable def orthoBasis (eigSym : Tensor K → SymRes K) (V : Tensor K) : Tensor K × Tensor K :=
  let r := eigSym V
  let s := r.s.map fun x => Real.sqrt |x|
  (scale r.R (-1) (vecOf s), scale (adjoint r.R) 0 (vecOf (s.map fun x => 1 / x)))

/-- `px4(v, sense, A, B, a)`, /repo/src/iTEBD/itebd_canonical.hpp:192-199 -/
def px4 (sense : Int) (A B : Tensor K) (a : Nat) (v : Tensor K) : Tensor K :=
  reshape (propMatrix (propMatrix (reshape v [a, a]) sense A A none) sense B B none) [a * a]

/-- the function handed to `eigs`, /repo/src/iTEBD/itebd_canonical.hpp:221-231 -/
def cellMap (psi : State K) (sense : Int) : Tensor K → Tensor K :=
  let a := psi.lB.size
  if sense > 0 then px4 sense (scale psi.A 0 psi.lB) (scale psi.B 0 psi.lA) a
  else px4 sense (scale psi.B (-1) psi.lB) (scale psi.A (-1) psi.lA) a

/-- the vector returned by `eigs`, /repo/src/iTEBD/itebd_canonical.hpp:220-231 -/
noncomputable def cellVec (L : Lib K) (psi : State K) (sense : Int) : Tensor K :=
  let a := psi.lB.size
  L.eigs (cellMap psi sense) (a * a) (reshape (smul ((1 / Real.sqrt (a : ℝ) : ℝ) : K) (eye a)) [a * a])

/-- `itebd_power_eig(A, lA, B, lB, sense)`, /repo/src/iTEBD/itebd_canonical.hpp:201-239 -/
noncomputable def powerEig (L : Lib K) (psi : State K) (sense : Int) : Tensor K :=
  let a := psi.lB.size
  let v := reshape (cellVec L psi sense) [a, a]
  smul (((1 / 2 : ℝ)) : K) (add (transpose v) (conj v))

/-- `canonical_form()`, /repo/src/iTEBD/itebd_canonical.hpp:259-312, with `ortho_right`, `ortho_left`, :241-257.  The asserts of the
constructor hold for what it is called with and are left out; the arguments `tolerance` and `max_dim` are not used by the code. -/
noncomputable def canonForm (L : Lib K) (psi : State K) : State K :=
  let X := orthoBasis L.eigSym (powerEig L psi (-1))
  let Y := orthoBasis L.eigSym (powerEig L psi 1)
  let newA := fold X.2 (-1) psi.A 0
  let newB := fold psi.B (-1) Y.2 (-1)
  let aux := fold Y.1 0 (scale X.1 0 psi.lB) 0
  let r := L.svd aux
  State.ofParts (fold r.V (-1) newA 0) psi.lA (fold newB (-1) r.U 0) (vecOf r.s) true

/-- `limited_svd(A, &U, &V, tolerance, max_dim)`, /repo/src/tools/limited_svd_d.cc:25-35 -/
noncomputable def limitedSvdDim (L : Lib K) (A : Tensor K) (tol : ℝ) (maxDim : Int) : LimSvd K :=
  let r := L.svd A
  let c := whereToTruncate L.eps L.dflt r.s tol maxDim
  let s := r.s.take c
  ⟨changeDim r.U 1 c, s.map fun x => x / vecNorm s, changeDim r.V 0 c⟩

/-- `1.0 / v` -/
noncomputable def vinv (v : Tensor K) : Tensor K := ⟨v.dims, fun i => 1 / v.get i⟩

/-- `split_tensor(GAB, lAB, &A, &lA, &B, &lB, tolerance, max_dim, true)`, /repo/src/iTEBD/itebd_canonical.hpp:142-176, and the
constructor call that follows it, :317.  `none` = the call of `reshape` with the wrong dimension `i` in place of `j` fails. -/
noncomputable def splitTensor (L : Lib K) (GAB lAB : Tensor K) (tol : ℝ) (maxDim : Int) : Option (State K) :=
  let i := GAB.dim 1
  let j := GAB.dim 2
  let a := lAB.size
  let b := lAB.size
  let G := scale (scale GAB 0 lAB) (-1) lAB
  let r := limitedSvdDim L (reshape G [a * i, j * b]) tol maxDim
  let c := r.s.length
  if i = j then
    some (State.ofParts (scale (reshape r.U [a, i, c]) 0 (vinv lAB)) (vecOf r.s) (scale (reshape r.V [c, i, b]) (-1) (vinv lAB)) lAB false)
  else none

/-- `apply_operator(U, 0, tolerance, max_dim)` of a state in canonical form, /repo/src/iTEBD/itebd_canonical.hpp:328-333 -/
noncomputable def applyCanon (L : Lib K) (psi : State K) (U : Tensor K) (tol : ℝ) (maxDim : Int) : Option (State K) :=
  let G := fold psi.AlA (-1) psi.B 0
  let a := G.dim 0
  let i := G.dim 1
  let j := G.dim 2
  let b := G.dim 3
  splitTensor L (reshape (foldin U (-1) (reshape G [a, i * j, b]) 1) [a, i, j, b]) psi.lB tol maxDim

/-- `apply_operator(U, 0, tolerance, max_dim)`, /repo/src/iTEBD/itebd_canonical.hpp:325-334 -/
noncomputable def applyEven (L : Lib K) (psi : State K) (U : Tensor K) (tol : ℝ) (maxDim : Int) : Option (State K) :=
  if psi.canonical then applyCanon L psi U tol maxDim else applyCanon L (canonForm L psi) U tol maxDim

/-- `iTEBD(B_, lB_, A_, lA_, false)`: the same chain seen from the next site, /repo/src/iTEBD/itebd_canonical.hpp:322,324 -/
def State.swap (psi : State K) : State K := State.ofParts psi.B psi.lB psi.A psi.lA false

/-- `apply_operator(U, site, tolerance, max_dim)`, /repo/src/iTEBD/itebd_canonical.hpp:314-352 -/
noncomputable def applyOperator (L : Lib K) (psi : State K) (U : Tensor K) (site : Int) (tol : ℝ) (maxDim : Int) : Option (State K) :=
  if site % 2 = 1 then (applyEven L (canonForm L psi.swap) U tol maxDim).map State.swap
  else applyEven L psi U tol maxDim

/-- `entropy(site)` of a state flagged canonical, /repo/src/iTEBD/itebd.hpp:87-91; `none` = NaN (`MPS.entropy`) -/
noncomputable def entropyCanon (psi : State K) : Option ℝ :=
  MPS.entropy ((List.range (psi.lA.dim 0)).map fun k => ‖psi.lA.get [k] * psi.lA.get [k]‖)

/-- `entropy(site)` with `entropy() = entropy(0) + entropy(1)`, /repo/src/iTEBD/itebd.hpp:82-92, /repo/include/mps/itebd.h:79 -/
noncomputable def entropyAt (L : Lib K) (psi : State K) (_site : Int) : Option ℝ :=
  if psi.canonical then entropyCanon psi
  else do
    let x ← entropyCanon (canonForm L psi)
    let y ← entropyCanon (canonForm L psi)
    pure (x + y)

/-- `entropy()`, /repo/include/mps/itebd.h:79 -/
noncomputable def entropyTotal (L : Lib K) (psi : State K) : Option ℝ := do
  let x ← entropyAt L psi 0
  let y ← entropyAt L psi 1
  pure (x + y)

/-- `schmidt(site)`, /repo/src/iTEBD/itebd.hpp:94-99: the elements of the vector returned -/
noncomputable def schmidt (psi : State K) (site : Int) : List ℝ :=
  (List.range ((psi.leftVector site).dim 0)).map fun k => ‖(psi.leftVector site).get [k]‖ * ‖(psi.leftVector site).get [k]‖

/-- the array `FR_param`, /repo/src/iTEBD/itebd_itime.hpp:36-37 -/
noncomputable def frParam (i : Nat) : ℝ :=
  [0.67560359597983, 1.35120719195966, -0.17560359597983, -1.70241438391932].getD i 0

/-- the operators `eH12[i]`, /repo/src/iTEBD/itebd_itime.hpp:39-54 -/
noncomputable def gates (L : Lib K) (H : Tensor K) (dt : ℝ) (method : Int) (i : Nat) : Tensor K :=
  if method = 1 ∨ method = 0 then
    if i = 1 then L.expm (smul ((-dt / 2 : ℝ) : K) H) else L.expm (smul ((-dt : ℝ) : K) H)
  else L.expm (smul ((-dt * frParam i : ℝ) : K) H)

/-- the calls of `apply_operator` in one step: number of the operator and site, /repo/src/iTEBD/itebd_itime.hpp:80-98 -/
def plan (method : Int) : List (Nat × Int) :=
  if method = 0 then [(0, 0), (0, 1)]
  else if method = 1 then [(1, 0), (0, 1), (1, 0)]
  else [(0, 0), (1, 1), (2, 0), (3, 1), (2, 0), (1, 1), (0, 0)]

/-- one step, /repo/src/iTEBD/itebd_itime.hpp:80-98 -/
noncomputable def itimeStep (L : Lib K) (H : Tensor K) (dt tol : ℝ) (maxDim : Int) (method : Int) (psi : State K) : Option (State K) :=
  (plan method).foldlM (fun psi x => applyOperator L psi (gates L H dt method x.1) x.2 tol maxDim) psi

/-- what `evolve_itime` returns and reports: the state, `energies`, `entropies` and the times printed -/
structure Evolution (K : Type) where
  psi : State K
  energies : List ℝ
  entropies : List (Option ℝ)
  times : List ℝ

/-- the inner loop `for (i = 0; i < deltan; i++)`: the state and the time, /repo/src/iTEBD/itebd_itime.hpp:79-100 -/
noncomputable def itimeInner (L : Lib K) (H : Tensor K) (dt tol : ℝ) (maxDim : Int) (method : Int) : Nat → State K × ℝ → Option (State K × ℝ)
  | 0, x => some x
  | n + 1, x => do
    let psi ← itimeStep L H dt tol maxDim method x.1
    itimeInner L H dt tol maxDim method n (psi, x.2 + dt)

/-- the report of a state, /repo/src/iTEBD/itebd_itime.hpp:58-62, 102-107; `energy` of a complex state is the real part -/
noncomputable def report (L : Lib K) (H : Tensor K) (out : Evolution K) (psi : State K) (time : ℝ) : Evolution K :=
  ⟨psi, out.energies ++ [RCLike.re (energy (canonForm L) psi H)], out.entropies ++ [entropyTotal L psi], out.times ++ [time]⟩

/-- the loop over the phases, /repo/src/iTEBD/itebd_itime.hpp:78-118 -/
noncomputable def itimePhases (L : Lib K) (H : Tensor K) (dt tol : ℝ) (maxDim : Int) (method : Int) (deltan : Nat) :
    Nat → Evolution K × ℝ → Option (Evolution K × ℝ)
  | 0, x => some x
  | n + 1, x => do
    let y ← itimeInner L H dt tol maxDim method deltan (x.1.psi, x.2)
    itimePhases L H dt tol maxDim method deltan n (report L H x.1 (canonForm L y.1) y.2, y.2)

/-- `evolve_itime(psi, H12, dt, nsteps, tolerance, max_dim, deltan, method, &energies, &entropies)`,
/repo/src/iTEBD/itebd_itime.hpp:27-120; `none` = failed assert -/
noncomputable def evolveItime (L : Lib K) (psi : State K) (H : Tensor K) (dt : ℝ) (nsteps : Nat) (tol : ℝ) (maxDim : Int)
    (deltan : Nat) (method : Int) : Option (Evolution K) :=
  let psi := canonForm L psi
  let out := report L H ⟨psi, [], [], []⟩ psi 0
  let deltan := if deltan = 0 then 1 else deltan
  (itimePhases L H dt tol maxDim method deltan ((nsteps + deltan - 1) / deltan) (out, 0)).map Prod.fst

end MPS.ITebd
