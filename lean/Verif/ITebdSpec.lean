import Verif.ITebdModel
import Verif.Spec

/-!
# Windows of an infinite state
-/

namespace MPS.ITebd
open MPS Tensor
variable {K : Type} [RCLike K]

/-- the data of an infinite state fit together: `Γ_A` is `D × d × E`, `λ_A` has `E` elements, `Γ_B` is `E × e × D` and `λ_B` has
`D` elements, which are real numbers; the combined tensors are `Γ λ` -/
structure Ok (psi : State K) : Prop where
  rankA : psi.A.dims.length = 3
  rankB : psi.B.dims.length = 3
  posA : ∀ d ∈ psi.A.dims, 0 < d
  posB : ∀ d ∈ psi.B.dims, 0 < d
  AB : psi.B.dim 0 = psi.A.dim 2
  BA : psi.A.dim 0 = psi.B.dim 2
  lA : psi.lA.dims = [psi.A.dim 2]
  lB : psi.lB.dims = [psi.B.dim 2]
  real : ∀ a, star (psi.lA.get [a]) = psi.lA.get [a] ∧ star (psi.lB.get [a]) = psi.lB.get [a]
  AlA : psi.AlA = scale psi.A (-1) psi.lA
  BlB : psi.BlB = scale psi.B (-1) psi.lB

/-- the tensor `Γ λ` of a site of the infinite chain -/
def siteT (psi : State K) (k : Int) : Tensor K := scale (psi.matrix k) (-1) (psi.rightVector k)

/-- the tensors of the sites `p, p + 1, ..., p + n - 1` -/
def window (psi : State K) (p : Int) (n : Nat) : List (Tensor K) := (List.range n).map fun k : Nat => siteT psi (p + k)

/-- local dimensions of these sites -/
def winDims (psi : State K) (p : Int) (n : Nat) : List Nat := (List.range n).map fun k : Nat => (psi.matrix (p + k)).dim 1

/-- the wave function of the window when the rest of the chain is in the states `a` (left) and `b` (right):
`λ_a (Γλ)[s_p] (Γλ)[s_{p+1}] ⋯ |_{ab}` -/
def winAmp (psi : State K) (p : Int) (n : Nat) (a b : Nat) (s : List Nat) : K :=
  (psi.leftVector p).get [a] * path (window psi p n) s a b

/-- `∑_{ab} ⟨ψ_{ab}| O |ψ_{ab}⟩` -/
def winForm (psi : State K) (p : Int) (n : Nat) (O : List Nat → List Nat → K) : K :=
  ∑ a ∈ Finset.range ((psi.matrix p).dim 0), ∑ b ∈ Finset.range ((psi.matrix (p + n)).dim 0),
    MPS.inner (winDims psi p n) (winAmp psi p n a b) (actOp (winDims psi p n) O (winAmp psi p n a b))

/-- tensor product of one-site operators, `f k` acting on site `k`, on the sites `p, ..., p + n - 1` -/
def siteOps (p : Int) (n : Nat) (f : Int → Tensor K) (s t : List Nat) : K := tensorOp n (fun k : Nat => f (p + k)) s t

/-- the identity on every site -/
def ones (psi : State K) (k : Int) : Tensor K := eye ((psi.matrix k).dim 1)

/-- expected value in the window of the tensor product of the operators `f k` -/
def winExpect (psi : State K) (p : Int) (n : Nat) (f : Int → Tensor K) : K :=
  winForm psi p n (siteOps p n f) / winForm psi p n (siteOps p n (ones psi))

/-- an operator, where an empty tensor means the identity -/
def orOne (d : Nat) (o : Tensor K) : Tensor K := if o.isEmpty then eye d else o

/-- `Oi` on site `i`, `Oj` on site `j`, `Om` on the sites in between and the identity on all other sites -/
def placed (psi : State K) (Oi : Tensor K) (i : Int) (Om Oj : Tensor K) (j : Int) (k : Int) : Tensor K :=
  if k = i then orOne ((psi.matrix k).dim 1) Oi else if k = j then orOne ((psi.matrix k).dim 1) Oj
  else if i < k ∧ k < j then orOne ((psi.matrix k).dim 1) Om else ones psi k

/-- an operator which can act on site `k`: empty or a matrix of the local dimension -/
def Acts (psi : State K) (k : Int) (o : Tensor K) : Prop :=
  o.isEmpty = true ∨ o.dims = [(psi.matrix k).dim 1, (psi.matrix k).dim 1]

/-- matrix elements of the identity -/
def oneElt (s t : List Nat) : K := if s = t then 1 else 0

/-- expected value in the window of any operator, given by its matrix elements -/
def winValue (psi : State K) (p : Int) (n : Nat) (O : List Nat → List Nat → K) : K := winForm psi p n O / winForm psi p n oneElt

/-- matrix elements of a two-site operator, the index of the first site, of dimension `d`, being the fastest one -/
def pairElt (d : Nat) (op : Tensor K) (s t : List Nat) : K := op.get [s.getD 0 0 + d * s.getD 1 0, t.getD 0 0 + d * t.getD 1 0]

/-- an operator on the sites `l, ..., l + n - 1` of a longer chain, the identity on the other sites -/
def widen (l n : Nat) (O : List Nat → List Nat → K) (s t : List Nat) : K :=
  if s.take l = t.take l ∧ s.drop (l + n) = t.drop (l + n) then O ((s.drop l).take n) ((t.drop l).take n) else 0

/-- the sites `p, ..., p + m - 1` are right-canonical up to the factor `η`: `∑_s (Γλ)[s] (Γλ)[s]† = η 1` -/
def RightFixed (psi : State K) (p : Int) (m : Nat) (η : K) : Prop :=
  ∀ a < (psi.matrix p).dim 0, ∀ a' < (psi.matrix p).dim 0,
    ∑ b ∈ Finset.range ((psi.matrix (p + m)).dim 0), sumCfg (winDims psi p m) (fun s =>
      path (window psi p m) s a b * star (path (window psi p m) s a' b)) = if a = a' then η else 0

/-- the sites `p, ..., p + m - 1` are left-canonical up to the factor `η`: the density matrix `λ²` on their left gives, on their
right, `η λ²` -/
def LeftFixed (psi : State K) (p : Int) (m : Nat) (η : K) : Prop :=
  ∀ b < (psi.matrix (p + m)).dim 0, ∀ b' < (psi.matrix (p + m)).dim 0,
    ∑ a ∈ Finset.range ((psi.matrix p).dim 0), sumCfg (winDims psi p m) (fun s => star (winAmp psi p m a b s) * winAmp psi p m a b' s) =
      if b = b' then η * (psi.leftVector (p + m)).get [b] ^ 2 else 0

/-- right-canonical at both bonds -/
def RightCanonical (psi : State K) : Prop := ∀ k, RightFixed psi k 1 1

/-- left-canonical at both bonds -/
def LeftCanonical (psi : State K) : Prop := ∀ k, LeftFixed psi k 1 1

end MPS.ITebd
