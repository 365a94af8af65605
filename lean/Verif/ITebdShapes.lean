import Verif.Props.ITebdApplyProps2

/-!
# Sizes of the tensors of infinite states: canonical form, two-site operators, imaginary time evolution
-/

set_option linter.unusedSectionVars false
set_option linter.unusedSimpArgs false

namespace MPS.ITebd
open MPS Tensor MPS.Props
variable {K : Type} [RCLike K]

theorem powerEig_herm {L : Lib K} {psi : State K} {D d E e : Nat} (h : Dims psi D d E e) (sense : Int) :
    (powerEig L psi sense).dims = [D, D] ∧ ∀ i < D, ∀ j < D, star ((powerEig L psi sense).get [i, j]) = (powerEig L psi sense).get [j, i] := by
  have hs : psi.lB.size = D := by simp [size, h.lB]
  refine ⟨by simp [powerEig, hs, smul, add, transpose, permute, swapIdx, nrm], fun i hi j hj => ?_⟩
  have : ∀ i j, (powerEig L psi sense).get [i, j] = (((1 / 2 : ℝ)) : K) *
      ((reshape (cellVec L psi sense) [D, D]).get [j, i] + star ((reshape (cellVec L psi sense) [D, D]).get [i, j])) := by
    intro i j
    simp [powerEig, hs, smul, add, transpose, permute, swapIdx, nrm, conj]
  rw [this, this, star_mul', star_add, star_star, RCLike.star_def, RCLike.conj_ofReal]
  ring

theorem ortho_dims {eigSym : Tensor K → SymRes K} (hg : GoodEigSym eigSym) {V : Tensor K} {n : Nat} (hV : V.dims = [n, n])
    (hh : ∀ i < n, ∀ j < n, star (V.get [i, j]) = V.get [j, i]) :
    (orthoBasis eigSym V).1.dims = [n, n] ∧ (orthoBasis eigSym V).2.dims = [n, n] := by
  obtain ⟨h1, h2, -, -⟩ := hg V n hV hh
  constructor
  · simp [orthoBasis, scale, h1]
  · simp [orthoBasis, scale, adjoint, transpose, permute, swapIdx, conj, h1, nrm]

theorem canon_shape {L : Lib K} (hsvd : GoodSvd L.svd) (hsym : GoodEigSym L.eigSym) {psi : State K} (hok : Ok psi) {D d E e : Nat}
    (h : Dims psi D d E e) : Dims (canonForm L psi) D d E e ∧ Ok (canonForm L psi) ∧ (canonForm L psi).canonical = true := by
  obtain ⟨p1, p2⟩ := powerEig_herm (L := L) h (-1)
  obtain ⟨q1, q2⟩ := powerEig_herm (L := L) h 1
  obtain ⟨x1, x2⟩ := ortho_dims hsym p1 p2
  obtain ⟨y1, y2⟩ := ortho_dims hsym q1 q2
  set X := orthoBasis L.eigSym (powerEig L psi (-1)) with hX
  set Y := orthoBasis L.eigSym (powerEig L psi 1) with hY
  set aux := fold Y.1 0 (scale X.1 0 psi.lB) 0 with haux
  have hauxd : aux.dims = [D, D] := by rw [haux]; simp [fold, scale, x1, y1, nrm]
  have hS := hsvd aux D D hauxd h.hD h.hD
  set r := L.svd aux with hr
  have hc : canonForm L psi = State.ofParts (fold r.V (-1) (fold X.2 (-1) psi.A 0) 0) psi.lA
      (fold (fold psi.B (-1) Y.2 (-1)) (-1) r.U 0) (vecOf r.s) true := rfl
  have hU1 : r.U.dims = [D, D] := by have := hS.dimsU; rwa [min_self] at this
  have hV1 : r.V.dims = [D, D] := by have := hS.dimsV; rwa [min_self] at this
  have hs1 : r.s.length = D := by have := hS.lenS; rwa [min_self] at this
  have hnA : (canonForm L psi).A.dims = [D, d, E] := by rw [hc]; simp [State.ofParts, fold, hV1, x2, h.A, nrm]
  have hnB : (canonForm L psi).B.dims = [E, e, D] := by rw [hc]; simp [State.ofParts, fold, hU1, y2, h.B, nrm]
  have hnl : (canonForm L psi).lB.dims = [D] := by rw [hc]; simp [State.ofParts, vecOf, hs1]
  have hdims : Dims (canonForm L psi) D d E e := ⟨hnA, hnB, h.lA, hnl, h.hD, h.hd, h.hE, h.he⟩
  refine ⟨hdims, hdims.ok (fun a => ⟨(hok.real a).1, ?_⟩) rfl rfl, rfl⟩
  rw [hc]; simp [State.ofParts, vecOf]

theorem swap_shape {psi : State K} {D d E e : Nat} (h : Dims psi D d E e) : Dims psi.swap E e D d :=
  ⟨h.B, h.A, h.lB, h.lA, h.hE, h.he, h.hD, h.hd⟩

theorem applyCanon_shape {L : Lib K} (hg : GoodSvd L.svd) (hd : 0 ≤ L.dflt) {tol : ℝ} (ht : 0 < effTol L.dflt tol) (M : Int)
    {psi : State K} (hok : Ok psi) {D d E : Nat} (h : Dims psi D d E d) {U : Tensor K} (hU : U.dims = [d * d, d * d]) :
    ∃ phi c, applyCanon L psi U tol M = some phi ∧ Ok phi ∧ Dims phi D d c d ∧ c ≤ D * d ∧ (0 < M → (c : Int) ≤ M) := by
  obtain ⟨hgd, _⟩ := gab_spec hok h hU
  have hs : psi.lB.size = D := by simp [size, h.lB]
  set T := thetaMat psi U D d d with hT
  have hTd : T.dims = [D * d, d * D] := rfl
  have hS := hg T _ _ hTd (Nat.mul_pos h.hD h.hd) (Nat.mul_pos h.hd h.hD)
  set r := L.svd T with hr
  set c := whereToTruncate L.eps L.dflt r.s tol M with hc
  have hlen : r.s.length = D * d := by rw [hS.lenS, Nat.mul_comm d D, min_self]
  have hcle : c ≤ D * d := by rw [← hlen]; exact wtt_le _ _ _ _ _ hd
  have hcpos : 0 < c := wtt_pos _ _ _ _ _ hd (by
    intro h0; rw [h0] at hlen; have := Nat.mul_pos h.hD h.hd; rw [← hlen] at this; exact absurd this (by simp)) (Or.inl ht)
  have hcM : 0 < M → (c : Int) ≤ M := by
    intro hM
    by_cases ht : tol < 0
    · rw [hc, C18_default L.eps L.dflt r.s tol ht hd]; exact (C18_truncate L.eps L.dflt r.s L.dflt hd M).2.1 hM
    · exact (C18_truncate L.eps L.dflt r.s tol (not_lt.mp ht) M).2.1 hM
  have hslen : ((r.s.take c).map fun x => x / vecNorm (r.s.take c)).length = c := by
    rw [List.length_map, List.length_take, hlen]; exact min_eq_left hcle
  refine ⟨State.ofParts (scale (reshape (changeDim r.U 1 c) [D, d, c]) 0 (vinv psi.lB)) (vecOf ((r.s.take c).map fun x => x / vecNorm (r.s.take c)))
    (scale (reshape (changeDim r.V 0 c) [c, d, D]) (-1) (vinv psi.lB)) psi.lB false, c, ?_, ?_⟩
  · rw [applyCanon_eq]
    unfold splitTensor
    have e1 : (gab psi U).dim 1 = d := by simp [dim, hgd, nrm]
    have e2 : (gab psi U).dim 2 = d := by simp [dim, hgd, nrm]
    have e3 : reshape (scale (scale (gab psi U) 0 psi.lB) (-1) psi.lB) [D * d, d * D] = T := rfl
    simp only [e1, e2, hs, e3, if_true]
    unfold limitedSvdDim
    simp only [← hr, ← hc, hslen]
  · have hD : Dims (State.ofParts (scale (reshape (changeDim r.U 1 c) [D, d, c]) 0 (vinv psi.lB)) (vecOf ((r.s.take c).map fun x => x / vecNorm (r.s.take c)))
        (scale (reshape (changeDim r.V 0 c) [c, d, D]) (-1) (vinv psi.lB)) psi.lB false) D d c d :=
      ⟨rfl, rfl, by show [_] = [c]; rw [hslen], h.lB, h.hD, h.hd, hcpos, h.hd⟩
    refine ⟨hD.ok (fun a => ⟨?_, (hok.real a).2⟩) rfl rfl, hD, hcle, hcM⟩
    show star (vecOf _ |>.get [a]) = _
    simp [vecOf, State.ofParts]

/-- sizes after `apply_operator` -/
theorem apply_shape {L : Lib K} (hg : GoodSvd L.svd) (hsym : GoodEigSym L.eigSym) (hd : 0 ≤ L.dflt) {tol : ℝ} (ht : 0 < effTol L.dflt tol) (M : Int)
    {psi : State K} (hok : Ok psi) {D d E : Nat} (h : Dims psi D d E d) {U : Tensor K} (hU : U.dims = [d * d, d * d]) (site : Int) :
    ∃ phi D' E', applyOperator L psi U site tol M = some phi ∧ Ok phi ∧ Dims phi D' d E' d ∧
      (site % 2 = 0 → D' = D ∧ (0 < M → (E' : Int) ≤ M)) ∧ (site % 2 = 1 → E' = E ∧ (0 < M → (D' : Int) ≤ M)) := by
  have heven : ∀ {psi : State K}, Ok psi → ∀ {D E : Nat}, Dims psi D d E d → ∃ phi c, applyEven L psi U tol M = some phi ∧ Ok phi ∧ Dims phi D d c d ∧
      c ≤ D * d ∧ (0 < M → (c : Int) ≤ M) := by
    intro psi hok D E h
    unfold applyEven
    split
    · exact applyCanon_shape hg hd ht M hok h hU
    · obtain ⟨s1, s2, -⟩ := canon_shape hg hsym hok h
      exact applyCanon_shape hg hd ht M s2 s1 hU
  unfold applyOperator
  rcases Int.emod_two_eq_zero_or_one site with hs | hs
  · rw [if_neg (by omega)]
    obtain ⟨phi, c, h1, h2, h3, h4, h5⟩ := heven hok h
    exact ⟨phi, D, c, h1, h2, h3, fun _ => ⟨rfl, h5⟩, fun h => by omega⟩
  · rw [if_pos hs]
    obtain ⟨s1, s2, -⟩ := canon_shape hg hsym (swap_ok hok) (swap_shape h)
    obtain ⟨phi, c, h1, h2, h3, h4, h5⟩ := heven s2 s1
    exact ⟨phi.swap, c, E, by rw [h1]; rfl, swap_ok h2, swap_shape h3, fun h => by omega, fun _ => ⟨rfl, h5⟩⟩

end MPS.ITebd
