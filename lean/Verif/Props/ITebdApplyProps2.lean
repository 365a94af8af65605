import Verif.Props.ITebdApplyProps

/-!
# C88: two-site operators acting on infinite states, any site, any state
-/

set_option linter.unusedSectionVars false
set_option linter.unusedSimpArgs false

namespace MPS.Props
open MPS Tensor ITebd
open scoped Matrix
variable {K : Type} [RCLike K]

/-! ### the chain seen from the next site -/

theorem swap_matrix (psi : State K) (p : Int) : psi.swap.matrix p = psi.matrix (p + 1) := by
  unfold State.matrix
  rcases Int.emod_two_eq_zero_or_one p with h | h
  · rw [if_neg (by omega), if_pos (by omega)]; rfl
  · rw [if_pos (by omega), if_neg (by omega)]; rfl

theorem swap_left (psi : State K) (p : Int) : psi.swap.leftVector p = psi.leftVector (p + 1) := by
  unfold State.leftVector
  rcases Int.emod_two_eq_zero_or_one p with h | h
  · rw [if_neg (by omega), if_pos (by omega)]; rfl
  · rw [if_pos (by omega), if_neg (by omega)]; rfl

theorem swap_right (psi : State K) (p : Int) : psi.swap.rightVector p = psi.rightVector (p + 1) := by
  unfold State.rightVector
  rcases Int.emod_two_eq_zero_or_one p with h | h
  · rw [if_neg (by omega), if_pos (by omega)]; rfl
  · rw [if_pos (by omega), if_neg (by omega)]; rfl

theorem swap_siteT (psi : State K) (p : Int) : siteT psi.swap p = siteT psi (p + 1) := by
  unfold siteT; rw [swap_matrix, swap_right]

theorem swap_window (psi : State K) (p : Int) (n : Nat) : window psi.swap p n = window psi (p + 1) n := by
  unfold window
  refine List.map_congr_left fun k _ => ?_
  rw [swap_siteT]
  congr 1; ring

theorem swap_winDims (psi : State K) (p : Int) (n : Nat) : winDims psi.swap p n = winDims psi (p + 1) n := by
  unfold winDims
  refine List.map_congr_left fun k _ => ?_
  rw [swap_matrix]
  congr 2; ring

theorem swap_winAmp (psi : State K) (p : Int) (n : Nat) : winAmp psi.swap p n = winAmp psi (p + 1) n := by
  funext a b s
  unfold winAmp
  rw [swap_left, swap_window]

theorem leftVector_parity (psi : State K) {p q : Int} (h : p % 2 = q % 2) : psi.leftVector p = psi.leftVector q := by
  unfold State.leftVector; rw [h]

theorem winAmp_shift (psi : State K) {p q : Int} (h : p % 2 = q % 2) (n : Nat) : winAmp psi p n = winAmp psi q n := by
  funext a b s
  unfold winAmp
  rw [leftVector_parity psi h, window_shift psi h]

theorem swap_ok {psi : State K} (h : Ok psi) : Ok psi.swap :=
  ⟨h.rankB, h.rankA, h.posB, h.posA, h.BA, h.AB, by rw [show psi.swap.lA = psi.lB from rfl]; exact h.lB,
    by rw [show psi.swap.lB = psi.lA from rfl]; exact h.lA, fun a => ⟨(h.real a).2, (h.real a).1⟩, rfl, rfl⟩

theorem from_winAmp (psi : State K) (site : Int) (n : Nat) : winAmp (psi.startingAt site) 0 n = winAmp psi site n := by
  unfold State.startingAt
  rcases Int.emod_two_eq_zero_or_one site with h | h
  · rw [if_neg (by omega)]; exact winAmp_shift psi (by omega) n
  · rw [if_pos h, swap_winAmp]; exact winAmp_shift psi (by omega) n

theorem from_winDims (psi : State K) (site : Int) (n : Nat) : winDims (psi.startingAt site) 0 n = winDims psi site n := by
  unfold State.startingAt
  rcases Int.emod_two_eq_zero_or_one site with h | h
  · rw [if_neg (by omega)]; exact winDims_shift psi (by omega) n
  · rw [if_pos h, swap_winDims]; exact winDims_shift psi (by omega) n

theorem from_matrix (psi : State K) (site : Int) (k : Int) : (psi.startingAt site).matrix k = psi.matrix (site + k) := by
  unfold State.startingAt
  rcases Int.emod_two_eq_zero_or_one site with h | h
  · rw [if_neg (by omega)]; exact matrix_parity psi (by omega)
  · rw [if_pos h, swap_matrix]; exact matrix_parity psi (by omega)

theorem from_left (psi : State K) (site : Int) : (psi.startingAt site).lB = psi.leftVector site := by
  unfold State.startingAt
  rcases Int.emod_two_eq_zero_or_one site with h | h
  · rw [if_neg (by omega)]; unfold State.leftVector; rw [if_neg (by omega)]
  · rw [if_pos h]; unfold State.leftVector; rw [if_pos h]; rfl

theorem from_ok {psi : State K} (h : Ok psi) (site : Int) : Ok (psi.startingAt site) := by
  unfold State.startingAt
  split
  · exact swap_ok h
  · exact h

/-- the Schmidt values of the canonical form do not vanish -/
theorem canon_ne {L : Lib K} (hsvd : GoodSvd L.svd) (hsym : GoodEigSym L.eigSym) {psi : State K} (hok : Ok psi) {D d E e : Nat}
    (h : Dims psi D d E e) {ηR εR ηL εL : ℝ} (hR : EigOk L psi D (-1) ηR εR) (hL : EigOk L psi D 1 ηL εL)
    (hl : ∀ a < D, psi.lB.get [a] ≠ 0) : ∀ a < D, (canonForm L psi).lB.get [a] ≠ 0 := by
  obtain ⟨hd', hok', g, g1, g2, g3, g4, g5⟩ := canon_gauge hsvd hsym hok h hR hL
  have h1 : Matrix.diagonal g.l' = g.Uᴴ * (g.Yᵀ * Matrix.diagonal g.l * g.X) * g.Vᴴ := by
    rw [g.svd]
    calc Matrix.diagonal g.l' = (g.Uᴴ * g.U) * Matrix.diagonal g.l' * (g.V * g.Vᴴ) := by rw [g.hU, g.hV, Matrix.one_mul, Matrix.mul_one]
      _ = _ := by simp only [Matrix.mul_assoc]
  have h2 := congrArg Matrix.det h1
  simp only [Matrix.det_mul, Matrix.det_diagonal] at h2
  have ne : ∀ {P Q : Matrix (Fin D) (Fin D) K}, P * Q = 1 → P.det ≠ 0 := by
    intro P Q hPQ h0
    have := congrArg Matrix.det hPQ
    rw [Matrix.det_mul, h0, zero_mul, Matrix.det_one] at this
    exact zero_ne_one this
  have h3 : ∏ i, g.l' i ≠ 0 := by
    rw [h2]
    refine mul_ne_zero (mul_ne_zero (ne g.hU) (mul_ne_zero (mul_ne_zero (ne g.hYt') ?_) (ne g.hX))) (ne g.hV')
    rw [g1]
    exact Finset.prod_ne_zero_iff.2 fun i _ => hl i i.2
  intro a ha
  have := Finset.prod_ne_zero_iff.1 h3 ⟨a, ha⟩ (Finset.mem_univ _)
  rw [g2] at this
  exact this

theorem from_from_winAmp (phi : State K) (site : Int) (n : Nat) : winAmp (phi.startingAt site) site n = winAmp phi 0 n := by
  unfold State.startingAt
  rcases Int.emod_two_eq_zero_or_one site with h | h
  · rw [if_neg (by omega)]; exact winAmp_shift phi (by omega) n
  · rw [if_pos h, swap_winAmp]; exact winAmp_shift phi (by omega) n

/-- a form which vanishes in one basis vanishes in the other -/
theorem basis_ne {D : Nat} {G G' H H' : Nat → Nat → K} (hG : Inverses D G G') (hH : Inverses D H H') (f : Nat → Nat → K)
    (hne : ∃ a b, a < D ∧ b < D ∧ f a b ≠ 0) :
    ∃ a b, a < D ∧ b < D ∧ ∑ c ∈ Finset.range D, ∑ d ∈ Finset.range D, G a c * f c d * H d b ≠ 0 := by
  by_contra hcon
  push Not at hcon
  have m0 : mat D D G * mat D D f * mat D D H = 0 := by
    rw [mat_mul, mat_mul]
    ext a b
    have := hcon a b a.2 b.2
    show ∑ d ∈ Finset.range D, (∑ c ∈ Finset.range D, G a c * f c d) * H d b = 0
    rw [← this, Finset.sum_comm]
    exact Finset.sum_congr rfl fun d _ => by rw [Finset.sum_mul]
  have mG : mat D D G' * mat D D G = 1 := by
    rw [mat_mul, ← mat_one]; exact mat_congr fun i hi j hj => hG.2 i hi j hj
  have mH : mat D D H * mat D D H' = 1 := by
    rw [mat_mul, ← mat_one]; exact mat_congr fun i hi j hj => hH.1 i hi j hj
  have : mat D D f = 0 := by
    calc mat D D f = (mat D D G' * mat D D G) * mat D D f * (mat D D H * mat D D H') := by rw [mG, mH, Matrix.one_mul, Matrix.mul_one]
      _ = mat D D G' * (mat D D G * mat D D f * mat D D H) * mat D D H' := by simp only [Matrix.mul_assoc]
      _ = 0 := by rw [m0, Matrix.mul_zero, Matrix.zero_mul]
  obtain ⟨a, b, ha, hb, h⟩ := hne
  exact h (congrFun (congrFun this ⟨a, ha⟩) ⟨b, hb⟩)

/-- C88, any site and state: if nothing is dropped, `apply_operator(U, site)` makes `U` act on the sites `site, site + 1`, on
`site + 2, site + 3` and so on, up to the norm and an invertible change of the bases of the surroundings -/
theorem C88_apply_anywhere {L : Lib K} (hg : GoodSvd L.svd) (hn : SortedSvd L.svd) (hsym : GoodEigSym L.eigSym) (hd : 0 ≤ L.dflt) (tol : ℝ) (M : Int)
    {psi : State K} (hok : Ok psi) (site : Int) (hcan : psi.canonical = false ∨ site % 2 = 1) {D d : Nat}
    (hD : (psi.matrix site).dim 0 = D) (hd0 : (psi.matrix 0).dim 1 = d) (hd1 : (psi.matrix 1).dim 1 = d)
    (hl : ∀ a < D, (psi.leftVector site).get [a] ≠ 0) {U : Tensor K} (hU : U.dims = [d * d, d * d])
    {ηR εR ηL εL : ℝ} (hR : EigOk L (psi.startingAt site) D (-1) ηR εR) (hL : EigOk L (psi.startingAt site) D 1 ηL εL)
    (hne : ∃ s a b, IsCfg (winDims psi site 2) s ∧ a < D ∧ b < D ∧ actOp (winDims psi site 2) (pairElt d U) (winAmp psi site 2 a b) s ≠ 0)
    (hkeep : KeepsAll L tol M (D * d)) :
    ∃ phi, applyOperator L psi U site tol M = some phi ∧ Ok phi ∧ phi.canonical = false ∧
      ∃ (ρ : ℝ) (G G' H H' : Nat → Nat → K), 0 < ρ ∧ Inverses D G G' ∧ Inverses D H H' ∧
        ∀ (n : Nat) (s : List Nat), IsCfg (winDims psi site (2 * n)) s → ∀ a < D, ∀ b < D,
          (ρ : K) ^ n * winAmp phi site (2 * n) a b s = ∑ c ∈ Finset.range D, ∑ c' ∈ Finset.range D,
            G a c * actOp (winDims psi site (2 * n)) (cellsOp (pairElt d U)) (winAmp psi site (2 * n) c c') s * H c' b := by
  have hdim1 : ∀ k, (psi.matrix k).dim 1 = d := by
    intro k
    rcases Int.emod_two_eq_zero_or_one k with h | h
    · rw [matrix_parity psi (q := 0) (by omega)]; exact hd0
    · rw [matrix_parity psi (q := 1) (by omega)]; exact hd1
  set psi0 := psi.startingAt site with hpsi0
  have hok0 : Ok psi0 := from_ok hok site
  have hm : ∀ k, psi0.matrix k = psi.matrix (site + k) := from_matrix psi site
  have hD0 : (psi0.matrix 0).dim 0 = D := by rw [hm, add_zero]; exact hD
  obtain ⟨c1, c2, c3, -, -, -⟩ := C87_canonical_form hg hsym hok0 (by rw [hD0]; exact hR) (by rw [hD0]; exact hL)
  set chi := canonForm L psi0 with hchi
  obtain ⟨s1, s2, s3, G, G', H, H', hGG, hHH, hamp⟩ := c3
  rw [hD0] at hGG hHH hamp s1
  have h0 : Dims psi0 D d (psi0.A.dim 2) d := by
    have := hok0.dims4
    have e0 : psi0.A.dim 0 = D := hD0
    have e1 : psi0.A.dim 1 = d := by rw [← matrix0, hm]; exact hdim1 _
    have e2 : psi0.B.dim 1 = d := by rw [← matrix1, hm]; exact hdim1 _
    rwa [e0, e1, e2] at this
  have hlc : ∀ a < D, chi.lB.get [a] ≠ 0 := canon_ne hg hsym hok0 h0 hR hL (by rw [hpsi0, from_left]; exact hl)
  have hwd : ∀ n, winDims chi 0 (2 * n) = winDims psi0 0 (2 * n) := by
    intro n
    induction n with
    | zero => rfl
    | succ n ih => rw [winDims_cell, winDims_cell, ih, ← matrix0, ← matrix1, s2, s3, matrix0, matrix1]
  have hwd2 : winDims chi 0 2 = winDims psi0 0 2 := hwd 1
  have hlin : ∀ (n : Nat) (O : List Nat → List Nat → K) (s : List Nat) (a b : Nat), a < D → b < D →
      actOp (winDims chi 0 (2 * n)) O (winAmp chi 0 (2 * n) a b) s = ∑ c ∈ Finset.range D, ∑ c' ∈ Finset.range D,
        G a c * actOp (winDims psi0 0 (2 * n)) O (winAmp psi0 0 (2 * n) c c') s * H c' b := by
    intro n O s a b ha hb
    unfold actOp
    rw [hwd, sumCfg_congr fun t ht => by rw [hamp n t ht a ha b hb, Finset.mul_sum, Finset.sum_congr rfl fun c _ => Finset.mul_sum _ _ _], sumCfg_sum]
    refine Finset.sum_congr rfl fun c _ => ?_
    rw [sumCfg_sum]
    refine Finset.sum_congr rfl fun c' _ => ?_
    rw [← sumCfg_mul_left, ← sumCfg_mul_right]
    exact sumCfg_congr fun t _ => by ring
  have hdc1 : (chi.matrix 0).dim 1 = d := by rw [s2, hm]; exact hdim1 _
  have hdc2 : (chi.matrix 1).dim 1 = d := by rw [s3, hm]; exact hdim1 _
  have hne' : ∃ a b s, a < D ∧ b < D ∧ IsCfg (winDims chi 0 2) s ∧ acted chi U a b s ≠ 0 := by
    obtain ⟨s, a, b, hs, ha, hb, hx⟩ := hne
    rw [← from_winDims, ← from_winAmp] at hx
    rw [← from_winDims] at hs
    obtain ⟨a', b', ha', hb', hx'⟩ := basis_ne hGG hHH (fun a b => actOp (winDims psi0 0 2) (pairElt d U) (winAmp psi0 0 2 a b) s) ⟨a, b, ha, hb, hx⟩
    refine ⟨a', b', s, ha', hb', by rw [hwd2]; exact hs, ?_⟩
    unfold acted
    rw [hdc1, show (2 : Nat) = 2 * 1 from rfl, hlin 1 (pairElt d U) s a' b' ha' hb']
    exact hx'
  obtain ⟨phi, c, p1, p2, p3, p4, p5, p6, p7, p8, p9, p10, ρ, p11, p12, p13, p14⟩ :=
    C88_apply_operator hg hn hd tol M c1 c2 0 rfl s1 hdc1 hdc2 hlc hU hne'
  have happ : applyOperator L psi U site tol M = some (phi.startingAt site) := by
    unfold applyOperator applyEven at p1 ⊢
    rw [c2] at p1
    rw [if_neg (by decide), if_pos rfl] at p1
    rcases Int.emod_two_eq_zero_or_one site with h | h
    · have hc : psi.canonical = false := by
        rcases hcan with h' | h'
        · exact h'
        · omega
      have e0 : psi0 = psi := by rw [hpsi0]; unfold State.startingAt; rw [if_neg (by omega)]
      have e1 : phi.startingAt site = phi := by unfold State.startingAt; rw [if_neg (by omega)]
      rw [if_neg (by omega), hc, e1, ← p1, hchi, e0]
      rfl
    · have e0 : psi0 = psi.swap := by rw [hpsi0]; unfold State.startingAt; rw [if_pos h]
      have e1 : phi.startingAt site = phi.swap := by unfold State.startingAt; rw [if_pos h]
      rw [if_pos h, ← e0, ← hchi, c2, if_pos rfl, p1, e1]
      rfl
  refine ⟨phi.startingAt site, happ, from_ok p2 site, ?_, ρ, G, G', H, H', p11, hGG, hHH, ?_⟩
  · unfold State.startingAt; split
    · rfl
    · exact p3
  · intro n s hs a ha b hb
    rw [from_from_winAmp]
    rw [← from_winDims] at hs
    rw [← p14 hkeep n s (by rw [hwd]; exact hs) a ha b hb, hlin n _ s a b ha hb]
    rw [from_winDims]
    simp only [hpsi0, from_winAmp]

end MPS.Props
