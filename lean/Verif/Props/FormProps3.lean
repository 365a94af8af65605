import Verif.Props.FormProps
import Verif.Props.FormProps2

set_option linter.unusedSectionVars false
set_option linter.unusedSimpArgs false

/-! # C52: diagonals of quadratic forms; concrete cases of C49-C52 -/

namespace MPS.Props
open MPS Tensor Form
variable {R : Type} [CommRing R] [StarRing R] [DecidableEq R]

/-- **C52, two sites.**  After any history, when bra and ket have the same bond dimensions around the pair,
`take_two_site_matrix_diag(sense)` is the diagonal of `two_site_matrix(sense)`; both are empty (zero) at the same time. -/
theorem C52_two_site_diag {ds : List Nat} {O bra ket : List (Tensor R)} {start : Nat}
    (hO : WFO 1 O ds 1) (hb : WF 1 bra ds 1) (hk : WF 1 ket ds 1) (hs : start < ds.length) (sense : Int)
    (history : List (Move (Tensor R × Tensor R))) {k : List (Tensor R × Tensor R) × List (Tensor R × Tensor R)}
    {l r : List (Tensor R × Tensor R)} {a a' : Nat}
    (hh : history.foldl Move.after ((bra.zip ket).take start, (bra.zip ket).drop (start + 1)) = k)
    (hpair : HasPair sense k) (hlr : aroundPair sense k = (l, r))
    (hl1 : WF 1 (l.map Prod.fst) (ds.take l.length) a) (hr1 : WF a' (r.map Prod.fst) (ds.drop (l.length + 2)) 1)
    (hl2 : WF 1 (l.map Prod.snd) (ds.take l.length) a) (hr2 : WF a' (r.map Prod.snd) (ds.drop (l.length + 2)) 1) :
    ∃ f, QForm.new O bra ket start = some f ∧
    let g := history.foldl QForm.move f
    ∃ M D, g.twoSiteMatrix sense = some M ∧ g.twoDiag sense = some D ∧ D.isEmpty = M.isEmpty ∧ (M.isEmpty = false →
      M.dims = [D.size, D.size] ∧ D.dims = [D.size] ∧ ∀ n, n < D.size → D.get [n] = M.get [n, n]) := by
  obtain ⟨f, hf, M, hM, hMd, _, _, hD⟩ := C51_two_site_matrix hO hb hk hs sense history hh hpair hlr hl1 hr1 hl2 hr2
  obtain ⟨D, hD1, hD2, hD3⟩ := hD rfl rfl
  refine ⟨f, hf, M, D, hM, hD1, hD2, fun hne => ?_⟩
  obtain ⟨h1, h2⟩ := hD3 hne
  have hsz : D.size = [a, ds.getD l.length 0, ds.getD (l.length + 1) 0, a'].prod := by
    unfold Tensor.size; rw [h1, List.prod_singleton]
  rcases hMd with h | h
  · rw [h] at hne; cases hne
  · rw [hsz]; exact ⟨h, h1, h2⟩

/-- **C52** as a user reads it, for one site: the result of `take_single_site_matrix_diag()` is the diagonal of
`single_site_matrix()`. -/
def C52SingleStatement (R : Type) [CommRing R] [StarRing R] [DecidableEq R] : Prop :=
  ∀ (ds : List Nat) (O bra ket : List (Tensor R)) (start : Nat), WFO 1 O ds 1 → WF 1 bra ds 1 → WF 1 ket ds 1 → start < ds.length →
    ∀ f, QForm.new O bra ket start = some f → f.singleSiteMatrix.isEmpty = false →
      ∀ n, n < f.singleSiteMatrix.dim 0 → f.singleDiag.get [n] = f.singleSiteMatrix.get [n, n]

/-- one spin with the operator `diag(1, 2)` -/
def exDiagO : List (Tensor GaussianInt) := [⟨[1, 2, 2, 1], fun i => if i.getD 1 0 = i.getD 2 0 then (i.getD 1 0 : GaussianInt) + 1 else 0⟩]

def exDiagP : List (Tensor GaussianInt) := [⟨[1, 2, 1], fun _ => 1⟩]

/-- **C52, one site, is violated**: the function adds the three diagonals (`kron2_sum`) instead of multiplying them
(/repo/src/dmrg/qform.cc:307-309), so that even for one spin and the operator `diag(1, 2)` the diagonal is wrong. -/
theorem C52_single_site_violated : ¬ C52SingleStatement GaussianInt := by
  intro h
  have h5 : (QForm.new exDiagO exDiagP exDiagP 0).map (fun f => (f.singleSiteMatrix.isEmpty, f.singleSiteMatrix.dim 0,
      f.singleDiag.get [0], f.singleSiteMatrix.get [0, 0])) = some (false, 2, 3, 1) := by decide +kernel
  obtain ⟨f, hf, h6⟩ := Option.map_eq_some_iff.1 h5
  have := h [2] exDiagO exDiagP exDiagP 0 (WFO.cons rfl (by decide) (by decide) (by decide) (WFO.nil 1))
    (WF.cons rfl (by decide) (by decide) (by decide) (WF.nil 1)) (WF.cons rfl (by decide) (by decide) (by decide) (WF.nil 1)) (by decide) f hf
  simp only [Prod.mk.injEq] at h6
  obtain ⟨h1, h2, h3, h4⟩ := h6
  have := this h1 0 (by rw [h2]; decide)
  rw [h3, h4] at this
  revert this
  decide

/-! ### concrete cases: three spins, bonds 2, complex entries, a history that visits all sites -/

def exG (n : Nat) (a b : Nat) : Tensor GaussianInt :=
  ⟨[a, 2, b], fun i => ⟨(i.getD 0 0 + 2 * i.getD 1 0 : Nat) - (n : Int), (i.getD 2 0 : Int) + 1⟩⟩

def exBra : List (Tensor GaussianInt) := [exG 0 1 2, exG 1 2 2, exG 2 2 1]
def exKet : List (Tensor GaussianInt) := [exG 3 1 3, exG 4 3 2, exG 5 2 1]

def exOp (n : Nat) (a b : Nat) : Tensor GaussianInt :=
  ⟨[a, 2, 2, b], fun i => ⟨(i.getD 0 0 + i.getD 1 0 : Nat) - (n : Int), (i.getD 2 0 * i.getD 3 0 : Nat)⟩⟩

def exOps : List (Tensor GaussianInt) := [exOp 0 1 2, exOp 1 2 2, exOp 2 2 1]

theorem exBra_wf : WF 1 exBra [2, 2, 2] 1 :=
  WF.cons rfl (by decide) (by decide) (by decide) (WF.cons rfl (by decide) (by decide) (by decide)
    (WF.cons rfl (by decide) (by decide) (by decide) (WF.nil 1)))

theorem exKet_wf : WF 1 exKet [2, 2, 2] 1 :=
  WF.cons rfl (by decide) (by decide) (by decide) (WF.cons rfl (by decide) (by decide) (by decide)
    (WF.cons rfl (by decide) (by decide) (by decide) (WF.nil 1)))

theorem exOps_wf : WFO 1 exOps [2, 2, 2] 1 :=
  WFO.cons rfl (by decide) (by decide) (by decide) (WFO.cons rfl (by decide) (by decide) (by decide)
    (WFO.cons rfl (by decide) (by decide) (by decide) (WFO.nil 1)))

/-- the tensors handed to the propagations change the bond dimensions -/
def exMoves : List (Move (Tensor GaussianInt)) := [.right (exG 7 1 4), .right (exG 8 4 3), .right (exG 8 4 3), .left (exG 9 2 1)]

/-- C49 applied to it: the form starts at site 0 with two bras and ends at site 1 -/
example : (exMoves.foldl LForm.move (LForm.new [⟨0, 1⟩, ⟨2, -1⟩] [exBra, exKet] exKet 0)).here = 1 :=
  (C49_single_site_vector (ds := [2, 2, 2]) (l := [exG 7 1 4]) (r := [exG 9 2 1]) (D := 4) (E := 2) (by decide)
    (by intro b hb; simp only [List.mem_cons, List.not_mem_nil, or_false] at hb; rcases hb with rfl | rfl; exacts [exBra_wf, exKet_wf])
    exKet_wf (by decide) exMoves rfl (WF.cons rfl (by decide) (by decide) (by decide) (WF.nil _))
    (WF.cons rfl (by decide) (by decide) (by decide) (WF.nil _))).1

/-- the vector there is not zero -/
example : (exMoves.foldl LForm.move (LForm.new [⟨0, 1⟩, ⟨2, -1⟩] [exBra, exKet] exKet 0)).singleSiteVector.get [1, 1, 1] ≠ 0 := by
  decide +kernel

/-- C50 applied to the last pair of sites -/
example : ∃ V, (exMoves.foldl LForm.move (LForm.new [⟨0, 1⟩, ⟨2, -1⟩] [exBra, exKet] exKet 0)).twoSiteVector 1 = some V ∧
    V.dims = [4, 2, 2, 1] := by
  obtain ⟨V, h1, h2, _⟩ := C50_two_site_vector (ds := [2, 2, 2]) (weight := [⟨0, 1⟩, ⟨2, -1⟩]) (bras := [exBra, exKet]) (l := [exG 7 1 4]) (r := []) (D := 4) (E := 1)
    (by decide) (by intro b hb; simp only [List.mem_cons, List.not_mem_nil, or_false] at hb; rcases hb with rfl | rfl; exacts [exBra_wf, exKet_wf])
    exKet_wf (start := 0) (by decide) exMoves 1 rfl (by unfold HasPair; simp [exMoves, exKet, Move.after]) rfl
    (WF.cons rfl (by decide) (by decide) (by decide) (WF.nil _)) (WF.nil _)
  exact ⟨V, h1, h2⟩

/-- a history of a quadratic form -/
def exMoves2 : List (Move (Tensor GaussianInt × Tensor GaussianInt)) :=
  [.right (exG 7 1 4, exG 1 1 2), .right (exG 8 4 3, exG 3 2 2), .left (exG 9 2 1, exG 0 3 1)]

/-- C51 applied to it; the matrix is not empty and complex -/
example : ∃ f, QForm.new exOps exBra exKet 0 = some f ∧ (exMoves2.foldl QForm.move f).here = 1 := by
  obtain ⟨f, h1, h2, _⟩ := C51_single_site_matrix (ds := [2, 2, 2]) (l := [(exG 7 1 4, exG 1 1 2)]) (r := [(exG 9 2 1, exG 0 3 1)])
    (a := 4) (a' := 2) (b := 2) (b' := 3) exOps_wf exBra_wf exKet_wf (start := 0) (by decide) exMoves2 rfl
    (WF.cons rfl (by decide) (by decide) (by decide) (WF.nil _)) (WF.cons rfl (by decide) (by decide) (by decide) (WF.nil _))
    (WF.cons rfl (by decide) (by decide) (by decide) (WF.nil _)) (WF.cons rfl (by decide) (by decide) (by decide) (WF.nil _))
  exact ⟨f, h1, h2⟩

example : ((QForm.new exOps exBra exKet 0).map fun f => (exMoves2.foldl QForm.move f).singleSiteMatrix.dims) = some [16, 12] := by
  decide +kernel

example : ((QForm.new exOps exBra exKet 0).map fun f => decide ((exMoves2.foldl QForm.move f).singleSiteMatrix.get [5, 7] = 0)) = some false := by
  decide +kernel

/-- a history whose bra and ket tensors have the same sizes, as in the diagonals -/
example : ∃ f, QForm.new exOps exBra exBra 1 = some f ∧ ∃ M, (f.twoSiteMatrix (-1)) = some M := by
  obtain ⟨f, h1, M, D, h2, _⟩ := C52_two_site_diag (ds := [2, 2, 2]) (l := []) (r := [(exG 2 2 1, exG 2 2 1)])
    (a := 1) (a' := 2) exOps_wf exBra_wf exBra_wf (start := 1) (by decide) (-1) [] rfl (by unfold HasPair; simp [exBra]) rfl
    (WF.nil _) (WF.cons rfl (by decide) (by decide) (by decide) (WF.nil _))
    (WF.nil _) (WF.cons rfl (by decide) (by decide) (by decide) (WF.nil _))
  exact ⟨f, h1, M, h2⟩

end MPS.Props
