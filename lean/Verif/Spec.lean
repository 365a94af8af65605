import Verif.Tensor

/-!
# Independent specification vocabulary

Everything a theorem about states and operators refers to, besides the API function it is about.
Nothing in here is used to define the model of the code.

* A *configuration* of a chain is the list `s` of the local basis states, `s_k < d_k`.
* A *wave function* is a function from configurations to scalars.
-/

namespace MPS

open Tensor
variable {R : Type}

/-- `s` is a configuration of a chain with local dimensions `ds` -/
def IsCfg (ds s : List Nat) : Prop := List.Forall₂ (· < ·) s ds

/-- sum of `F s` over all configurations `s` of a chain with local dimensions `ds` -/
def sumCfg [AddCommMonoid R] : List Nat → (List Nat → R) → R
  | [], F => F []
  | d :: ds, F => ∑ i ∈ Finset.range d, sumCfg ds (fun s => F (i :: s))

section Ring
variable [CommRing R]

/-- `(A_0[s_0] A_1[s_1] ⋯)_{a,b}`: entry of the product of the site matrices, i.e. the sum over all
values of the intermediate bond indices -/
def path : List (Tensor R) → List Nat → Nat → Nat → R
  | [], [], a, b => if a = b then 1 else 0
  | A :: As, i :: s, a, b => ∑ c ∈ Finset.range (A.dim 2), A.get [a, i, c] * path As s c b
  | _, _, _, _ => 0

/-- amplitude `tr(A_0[s_0] ⋯ A_{L-1}[s_{L-1}])` of the configuration `s`
(the formula in /repo/include/mps/mps.h, section "Matrix product states") -/
def amp (ψ : List (Tensor R)) (s : List Nat) : R :=
  ∑ a ∈ Finset.range ((ψ.headD ⟨[0], fun _ => 0⟩).dim 0), path ψ s a a

/-- action of a one-site operator (a matrix `op(i,j)`) on site `k`, of local dimension `d`, of a wave function -/
def actSite (d : Nat) (op : Tensor R) (k : Nat) (φ : List Nat → R) : List Nat → R :=
  fun s => ∑ t ∈ Finset.range d, op.get [s.getD k 0, t] * φ (s.set k t)

/-- Hilbert-space scalar product ⟨φ|χ⟩ -/
def inner [Star R] (ds : List Nat) (φ χ : List Nat → R) : R :=
  sumCfg ds (fun s => star (φ s) * χ s)

/-- two-site correlator ⟨φ| o1_i o2_j |φ⟩ (operator product when `i = j`) -/
def corr [Star R] (ds : List Nat) (φ : List Nat → R) (o1 : Tensor R) (i : Nat) (o2 : Tensor R) (j : Nat) : R :=
  inner ds φ (actSite (ds.getD i 0) o1 i (actSite (ds.getD j 0) o2 j φ))

/-- a list with one `d_k × d_k` matrix per site -/
def OpsFor (ds : List Nat) (ops : List (Tensor R)) : Prop :=
  List.Forall₂ (fun d (o : Tensor R) => o.dims = [d, d]) ds ops

/-- Product of the site matrices of a matrix product operator, for output configuration `s` and input
configuration `t`; the tensors are `O(a,i,j,b)` with `i` output and `j` input. -/
def opPath : List (Tensor R) → List Nat → List Nat → Nat → Nat → R
  | [], [], [], a, b => if a = b then 1 else 0
  | A :: As, i :: s, j :: t, a, b =>
      ∑ c ∈ Finset.range (A.dim 3), A.get [a, i, j, c] * opPath As s t c b
  | _, _, _, _, _ => 0

/-- matrix element ⟨s|O|t⟩ of a matrix product operator -/
def opElt (O : List (Tensor R)) (s t : List Nat) : R :=
  ∑ a ∈ Finset.range ((O.headD ⟨[0], fun _ => 0⟩).dim 0), opPath O s t a a

/-- action of an operator given by its matrix elements on a wave function -/
def actOp (ds : List Nat) (O : List Nat → List Nat → R) (φ : List Nat → R) : List Nat → R :=
  fun s => sumCfg ds (fun t => O s t * φ t)

/-- matrix element ⟨s| f_0 ⊗ f_1 ⊗ ⋯ ⊗ f_{L-1} |t⟩ of a tensor product of one-site operators (matrices) -/
def tensorOp (L : Nat) (f : Nat → Tensor R) (s t : List Nat) : R :=
  ∏ k ∈ Finset.range L, (f k).get [s.getD k 0, t.getD k 0]

/-- tensor factors of the operator `h` on site `k` (identities elsewhere) on a chain with local dimensions `ds` -/
def onSite (ds : List Nat) (k : Nat) (h : Tensor R) : Nat → Tensor R :=
  fun j => if j = k then h else eye (ds.getD j 0)

/-- tensor factors of `hi` on site `i` and `hj` on site `j`, with `mid l` on the sites `l` strictly between them and
identities elsewhere -/
def onTwo (ds : List Nat) (i : Nat) (hi : Tensor R) (j : Nat) (hj : Tensor R) (mid : Nat → Tensor R) : Nat → Tensor R :=
  fun l => if l = i then hi else if l = j then hj
    else if min i j < l ∧ l < max i j then mid l else eye (ds.getD l 0)

/-- `A` is the `d × d` identity matrix -/
def IsIdentity (d : Nat) (A : Tensor R) : Prop :=
  ∀ x y, x < d → y < d → A.get [x, y] = if x = y then 1 else 0

end Ring

/-- The list of site tensors `ψ` is a matrix product with local dimensions `ds`, left bond `a` and right bond
`b`: tensor `k` has size `(D_k, d_k, D_{k+1})` with positive dimensions and matching bonds. -/
inductive WF : Nat → List (Tensor R) → List Nat → Nat → Prop
  | nil (a : Nat) : WF a [] [] a
  | cons {a d c b : Nat} {A : Tensor R} {As : List (Tensor R)} {ds : List Nat} :
      A.dims = [a, d, c] → 0 < a → 0 < d → 0 < c → WF c As ds b → WF a (A :: As) (d :: ds) b

/-- A matrix product state on local dimensions `ds`: at least one site, and equal outer bonds (size 1 for open
boundary conditions, any size for periodic ones). -/
def IsMPS (ds : List Nat) (ψ : List (Tensor R)) : Prop :=
  ψ ≠ [] ∧ ∃ D, WF D ψ ds D

/-- Same for matrix product operators, tensors of size `(D_k, d_k, d_k, D_{k+1})`. -/
inductive WFO : Nat → List (Tensor R) → List Nat → Nat → Prop
  | nil (a : Nat) : WFO a [] [] a
  | cons {a d c b : Nat} {A : Tensor R} {As : List (Tensor R)} {ds : List Nat} :
      A.dims = [a, d, d, c] → 0 < a → 0 < d → 0 < c → WFO c As ds b → WFO a (A :: As) (d :: ds) b

/-- A matrix product operator on local dimensions `ds`. -/
def IsMPO (ds : List Nat) (O : List (Tensor R)) : Prop :=
  O ≠ [] ∧ ∃ D, WFO D O ds D

end MPS
