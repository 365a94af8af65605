import Verif.Props.ObcProps
import Verif.Props.TrotterProps2
import Verif.ExpmExists
import Verif.SvdExists

/-!
# C81: `Unitary::apply_and_simplify` with the model of `simplify_obc`
-/

set_option linter.unusedSectionVars false

namespace MPS.Props
open MPS Tensor Form Minim Obc Trotter

/-- `simplify_obc(&P', P, &sense, sweeps, normalize, Dmax)` as called in /repo/src/evolve/trotter_unitary.cc:199, with the default
tolerance -1; a failed assert is not represented (C80: there is none) -/
noncomputable def obcCall (svd : Tensor ℂ → SvdRes ℂ) (eps dflt : ℝ) (single : Bool) (tolerance : ℝ) (P : List (Tensor ℂ)) (sense : Int)
    (sweeps : Nat) (normalize : Bool) (Dmax : Nat) : List (Tensor ℂ) × ℝ :=
  match simplifyObc svd eps dflt single tolerance P [1] [P] sense sweeps normalize Dmax (-1) with
  | some out => (out.P, out.err)
  | none => (P, 0)

theorem bond_le_largest {ds : List Nat} {P : List (Tensor ℂ)} (h : WF 1 P ds 1) {j : Nat} (hj : j + 1 < ds.length) :
    (site P j).dim 2 ≤ largestBond P := by
  obtain ⟨a, c, b, k1, k2, k3, k4, -⟩ := WF.aroundPair h hj
  have hl := h.length
  rw [show (site P j).dim 2 = c from dim2_of k2, ← show (site P (j + 1)).dim 0 = c from dim0_of k3]
  refine (C68_largest_bond P).1 _ ?_
  have : j + 1 < P.length := by omega
  simp [site, this]

/-- **C81.**  A layer of gates is applied and the result is brought to bond dimension `Dmax`: the state `φ` in the middle is
exactly the layer applied to `x.P` if no singular value is dropped before the simplification.  If its bonds are small enough it
is the result; otherwise the result is what `simplify_obc` promises for `φ` (twelve sweeps at most, relative distance added to
the error).  All bonds are at most `Dmax`. -/
theorem C81_apply_and_simplify {svd : Tensor ℂ → SvdRes ℂ} (hg : GoodSvd svd) (eps : ℝ) {dflt : ℝ} (hd0 : 0 < dflt)
    {expm : Tensor ℂ → Tensor ℂ} (hexp : ∀ A n, A.dims = [n, n] → (expm A).dims = [n, n])
    {H : Ham ℂ} {ds : List Nat} (hH : HamFits H ds) (hN : 2 ≤ ds.length) (k : Nat) (hk : k ≤ 1) (dt : ℂ) {W : Unitary}
    (hW : mkUnitary expm H k dt = some W) (x : Evo) (hx : WF 1 x.P ds 1) (tol : ℝ) (htol : tol < 0 ∨ 0 < tol)
    {Dmax : Nat} (hD : 0 < Dmax) (normalize single : Bool) (tolerance : ℝ) :
    ∃ y φ e, applyAndSimplify svd eps dflt (obcCall svd eps dflt single tolerance) W x tol Dmax normalize = (y, -1) ∧
      WF 1 φ ds 1 ∧ 0 ≤ e ∧ x.hidden ≤ y.hidden ∧
      (e = 0 → y.hidden = x.hidden → ∀ s, IsCfg ds s → amp φ s = actOp ds (layerElt ds k (site W.U)) (amp x.P) s) ∧
      WF 1 y.P ds 1 ∧ (∀ j, j + 1 < ds.length → (site y.P j).dim 2 ≤ Dmax) ∧
      ((∃ s, IsCfg ds s ∧ amp φ s ≠ 0) →
        ((y.P = φ ∧ y.err = x.err + e) ∨
          (Dmax < largestBond φ ∧ ∃ out, y.P = out.P ∧ y.err = x.err + e + out.err ∧ Simplified ds [1] [φ] φ 12 normalize Dmax tolerance out))) := by
  have hne : x.P ≠ [] := by
    intro h
    have := hx.length
    rw [h] at this; simp at this; omega
  obtain ⟨W', e', hf, -⟩ := mkUnitary_fits hexp hH k hk dt
  rw [hW] at e'
  cases e'
  have ht : 0 < effTol dflt tol := by
    unfold effTol; rcases htol with h | h
    · rw [if_pos h]; exact hd0
    · rw [if_neg (by linarith)]; exact h
  obtain ⟨h1, h2, h3, h4, h5, h6⟩ := sweep_amp hg eps hd0 hf ⟨x.P, 0, x.hidden⟩ hx hne 1 tol ht 0
  have hy : apply svd eps dflt W ⟨x.P, 0, x.hidden⟩ 1 tol 0 false = (sweep svd eps dflt W ⟨x.P, 0, x.hidden⟩ 1 tol 0, -1) := by
    rw [show apply svd eps dflt W ⟨x.P, 0, x.hidden⟩ 1 tol 0 false = _ from apply_eq _ _ _ _ _ _ _ _ _]; simp
  set r := sweep svd eps dflt W ⟨x.P, 0, x.hidden⟩ 1 tol 0 with hr
  simp only at h3 h4 h6
  have h5 : r.hidden = x.hidden := h5 rfl
  have hlen := h1.length
  -- the canonical form
  have hc : canonicalForm svd eps dflt r.P (-1) = canonicalFormAt svd eps dflt r.P 0 := by simp [canonicalForm]
  obtain ⟨c1, c2, c3, c4⟩ := eitherForm_spec hg eps h1 (TolOk.start h1 h2 (Or.inl hd0)) 0 (by omega)
  obtain ⟨-, d2, -, d4, -, d5⟩ := canon_core hg eps dflt ⟨h2, 1, h1⟩ (Or.inl hd0) 0 (by omega)
  set c := canonicalFormAt svd eps dflt r.P 0 with hcd
  have hcw : WF 1 c.1 ds 1 := c1.wf
  have hmid : r.err = 0 → r.hidden + c.2 = x.hidden → ∀ s, IsCfg ds s → amp c.1 s = actOp ds (layerElt ds k (site W.U)) (amp x.P) s := by
    intro he hh s hs
    rw [d2 (by linarith) s hs]
    exact h6 he h5 s hs
  unfold applyAndSimplify
  rw [hy]
  simp only
  rw [hc]
  by_cases hb : largestBond c.1 > Dmax
  · rw [if_pos hb]
    have hdes : Described ds.length c.1 (-1) := by unfold Described; rw [if_pos (by decide)]; exact fun j h0 hj => d5 j h0 hj
    obtain ⟨out', o1', o2', o3'⟩ := C80_bonds hg eps hd0 single tolerance (w := [1]) (Q := [c.1]) (by simp) (by simpa using hcw)
      hcw (by omega) (-1) hdes (sweeps := 12) (by omega) normalize Dmax (tol := -1) (by norm_num) (Or.inr hN)
    have ho : obcCall svd eps dflt single tolerance c.1 (-1) 12 normalize Dmax = (out'.P, out'.err) := by
      unfold obcCall; rw [o1']
    simp only [ho]
    refine ⟨_, c.1, r.err, rfl, hcw, h3, by simp only; linarith, hmid, o2', o3' hD, fun hs => ?_⟩
    obtain ⟨out, o1, o2⟩ := C80_simplify_obc hg eps hd0 single tolerance (w := [1]) (Q := [c.1]) (by simp) (by simpa using hcw)
      (by rw [superpose_one]; exact hs) hcw (by omega) (-1) hdes
      (sweeps := 12) (by omega) normalize Dmax (tol := -1) (by norm_num) (Or.inr hN)
    rw [o1'] at o1
    cases o1
    exact Or.inr ⟨hb, out', rfl, by ring, o2⟩
  · rw [if_neg hb]
    refine ⟨_, c.1, r.err, rfl, hcw, h3, by simp only; linarith, hmid, hcw, fun j hj => ?_, fun hs => Or.inl ⟨rfl, rfl⟩⟩
    exact (bond_le_largest hcw hj).trans (by omega)

/-- a product state on three sites of dimensions 2, 3, 2 -/
noncomputable def exState : List (Tensor ℂ) := [⟨[1, 2, 1], fun _ => 1⟩, ⟨[1, 3, 1], fun _ => 1⟩, ⟨[1, 2, 1], fun _ => 1⟩]

theorem exState_wf : WF 1 exState [2, 3, 2] 1 :=
  WF.cons rfl Nat.one_pos (by decide) Nat.one_pos (WF.cons rfl Nat.one_pos (by decide) Nat.one_pos
    (WF.cons rfl Nat.one_pos (by decide) Nat.one_pos (WF.nil 1)))

/-- the hypotheses of C81 are met by the Hamiltonian `exHam`, the matrix exponential and a product state -/
example : ∃ (svd : Tensor ℂ → SvdRes ℂ) (expm : Tensor ℂ → Tensor ℂ) (W : Unitary), GoodSvd svd ∧
    (∀ A n, A.dims = [n, n] → (expm A).dims = [n, n]) ∧ HamFits exHam [2, 3, 2] ∧ mkUnitary expm exHam 0 1 = some W ∧
    WF 1 exState [2, 3, 2] 1 := by
  obtain ⟨svd, h⟩ := exists_goodSvd (K := ℂ)
  have hH : HamFits exHam [2, 3, 2] := ⟨rfl, fun _ _ => rfl, fun _ _ => rfl, fun _ _ => rfl⟩
  obtain ⟨W, hW, -⟩ := mkUnitary_fits exists_goodExpm.1 hH 0 (by norm_num) 1
  exact ⟨svd, matrixExp, W, h, exists_goodExpm.1, hH, hW, exState_wf⟩

end MPS.Props
