import Verif.ArnoldiLemmas3

/-!
# The Arnoldi iteration
-/

set_option linter.unusedSectionVars false
set_option linter.unusedSimpArgs false

namespace MPS.Arnoldi
open MPS Tensor Form Minim Obc
variable {ds : List Nat}

/-- the invariant of the loop -/
structure Inv (ds : List Nat) (H psi : List (Tensor ℂ)) (nvectors ndx : Nat) (b : Basis) : Prop where
  len : b.states.length = ndx
  wf : ∀ j < ndx, WF 1 (b.states.getD j []) ds 1
  dims : b.N.dims = [nvectors, nvectors] ∧ b.Heff.dims = [nvectors, nvectors]
  lost : 0 ≤ b.lost
  isOpen : b.closed = false
  cur : WF 1 b.Hcur ds 1
  curEq : Faithful ds psi b → ∀ s, IsCfg ds s → amp b.Hcur s = act ds H (b.vec (ndx - 1)) s
  first : Faithful ds psi b → ∀ s, IsCfg ds s → b.vec 0 s = amp psi s
  unit : Faithful ds psi b → ∀ j < ndx, normSq ds (b.states.getD j []) = 1
  gram : Faithful ds psi b → ∀ i < ndx, ∀ j < ndx, b.N.get [i, j] = MPS.inner ds (b.vec i) (b.vec j)
  ham : Faithful ds psi b → ∀ i < ndx, ∀ j < ndx, b.Heff.get [i, j] = MPS.inner ds (b.vec i) (act ds H (b.vec j))
  step : Faithful ds psi b → b.exact → ∀ j, j + 1 < ndx → ∃ r : ℝ, 0 < r ∧ ∀ s, IsCfg ds s → b.rest ds H j s = (r : ℂ) * b.vec (j + 1) s

theorem vec_append {b c : Basis} {φ : List (Tensor ℂ)} (h : c.states = b.states ++ [φ]) {j : Nat} (hj : j < b.states.length) : c.vec j = b.vec j := by
  unfold Basis.vec
  rw [h, List.getD_append _ _ _ _ hj]

theorem vec_last {b c : Basis} {φ : List (Tensor ℂ)} (h : c.states = b.states ++ [φ]) : c.vec b.states.length = amp φ := by
  unfold Basis.vec
  rw [h, List.getD_append_right _ _ _ _ le_rfl]
  simp

theorem rest_congr {b c : Basis} {H : List (Tensor ℂ)} {j : Nat} (h1 : c.vec j = b.vec j) (h2 : c.vec (j - 1) = b.vec (j - 1))
    (h3 : c.Heff.get [j, j] = b.Heff.get [j, j]) (h4 : j ≠ 0 → c.Heff.get [j, j - 1] = b.Heff.get [j, j - 1]) : c.rest ds H j = b.rest ds H j := by
  funext s
  unfold Basis.rest
  rw [h1, h2, h3]
  by_cases hj : j = 0
  · simp [hj]
  · rw [if_neg hj, if_neg hj, h4 hj]

theorem inner_real {φ χ : List Nat → ℂ} (h : star (MPS.inner ds φ χ) = MPS.inner ds φ χ) : ((RCLike.re (MPS.inner ds φ χ) : ℝ) : ℂ) = MPS.inner ds φ χ :=
  RCLike.conj_eq_iff_re.1 h

theorem inner_unit {φ : List (Tensor ℂ)} (h : normSq ds φ = 1) : MPS.inner ds (amp φ) (amp φ) = 1 := by
  rw [inner_self_ofReal]
  have : sumCfg ds (fun s => ‖amp φ s‖ ^ 2) = 1 := h
  rw [this]; simp

theorem normSq_same {φ χ : List (Tensor ℂ)} (h : ∀ s, IsCfg ds s → amp φ s = amp χ s) : normSq ds φ = normSq ds χ :=
  sumCfg_congr fun s hs => by rw [h s hs]

/-- the invariant after the basis has got a new vector -/
theorem Inv.next {H psi : List (Tensor ℂ)} (hH : Minim.Hermitian ds H) {nv ndx : Nat} {b : Basis} (hI : Inv ds H psi nv ndx b) (hn0 : 0 < ndx)
    {cur Hcur : List (Tensor ℂ)} {N' H' : Tensor ℂ} {l1 l2 : ℝ} {P : Prop} (hl1 : 0 ≤ l1) (hl2 : 0 ≤ l2) (hc : WF 1 cur ds 1) (hh : WF 1 Hcur ds 1)
    (hu : l1 = 0 → normSq ds cur = 1) (hcur : l2 = 0 → ∀ s, IsCfg ds s → amp Hcur s = act ds H (amp cur) s)
    (d1 : N'.dims = b.N.dims) (d2 : H'.dims = b.Heff.dims)
    (h1 : ∀ i j, i < ndx → j < ndx → N'.get [i, j] = b.N.get [i, j] ∧ H'.get [i, j] = b.Heff.get [i, j])
    (h2 : ∀ i < ndx, N'.get [i, ndx] = MPS.inner ds (b.vec i) (amp cur) ∧ N'.get [ndx, i] = star (MPS.inner ds (b.vec i) (amp cur)) ∧
        H'.get [i, ndx] = MPS.inner ds (b.vec i) (amp Hcur) ∧ H'.get [ndx, i] = star (MPS.inner ds (b.vec i) (amp Hcur)))
    (h3 : N'.get [ndx, ndx] = 1) (h4 : H'.get [ndx, ndx] = ((RCLike.re (MPS.inner ds (amp cur) (amp Hcur)) : ℝ) : ℂ))
    (hstep : Faithful ds psi b → l1 = 0 → P → ∃ r : ℝ, 0 < r ∧ ∀ s, IsCfg ds s → b.rest ds H (ndx - 1) s = (r : ℂ) * amp cur s) (er : List ℝ) :
    Inv ds H psi nv (ndx + 1) ⟨b.states ++ [cur], N', H', Hcur, er, b.lost + l1 + l2, b.exact ∧ P, false⟩ := by
  set c : Basis := ⟨b.states ++ [cur], N', H', Hcur, er, b.lost + l1 + l2, b.exact ∧ P, false⟩ with hcdef
  have hb0 := hI.lost
  have hlen := hI.len
  have hst : c.states = b.states ++ [cur] := rfl
  have split : Faithful ds psi c → Faithful ds psi b ∧ l1 = 0 ∧ l2 = 0 := by
    rintro ⟨h, h'⟩
    have : b.lost + l1 + l2 = 0 := h
    exact ⟨⟨by linarith, h'⟩, by linarith, by linarith⟩
  have old : ∀ j < ndx, c.vec j = b.vec j := fun j hj => vec_append hst (by omega)
  have new : c.vec ndx = amp cur := by rw [← hlen]; exact vec_last hst
  have hre : ∀ j, j + 1 ≤ ndx → c.rest ds H j = b.rest ds H j := fun j hj =>
    rest_congr (old j (by omega)) (old _ (by omega)) (h1 j j (by omega) (by omega)).2 fun h0 => (h1 j (j - 1) (by omega) (by omega)).2
  refine ⟨by simp [hcdef, hlen], ?_, ⟨d1.trans hI.dims.1, d2.trans hI.dims.2⟩, by show 0 ≤ b.lost + l1 + l2; linarith, rfl, hh, ?_, ?_, ?_, ?_, ?_, ?_⟩
  · intro j hj
    rcases Nat.lt_succ_iff_lt_or_eq.1 hj with h | rfl
    · show WF 1 ((b.states ++ [cur]).getD j []) ds 1
      rw [List.getD_append _ _ _ _ (by omega)]
      exact hI.wf j h
    · show WF 1 ((b.states ++ [cur]).getD j []) ds 1
      rw [List.getD_append_right _ _ _ _ (by omega)]
      simpa [hlen] using hc
  · intro h s hs
    rw [Nat.add_sub_cancel, new]
    exact hcur (split h).2.2 s hs
  · intro h s hs
    rw [old 0 hn0]
    exact hI.first (split h).1 s hs
  · intro h j hj
    show normSq ds ((b.states ++ [cur]).getD j []) = 1
    rcases Nat.lt_succ_iff_lt_or_eq.1 hj with h' | rfl
    · rw [List.getD_append _ _ _ _ (by omega)]
      exact hI.unit (split h).1 j h'
    · rw [List.getD_append_right _ _ _ _ (by omega)]
      simpa [hlen] using hu (split h).2.1
  · intro h i hi j hj
    show N'.get [i, j] = _
    rcases Nat.lt_succ_iff_lt_or_eq.1 hi with hi' | rfl <;> rcases Nat.lt_succ_iff_lt_or_eq.1 hj with hj' | rfl
    · rw [old i hi', old j hj', (h1 i j hi' hj').1]
      exact hI.gram (split h).1 i hi' j hj'
    · rw [old i hi', new, (h2 i hi').1]
    · rw [old j hj', new, (h2 j hj').2.1, Props.inner_star']
    · rw [new, h3, inner_unit (hu (split h).2.1)]
  · intro h i hi j hj
    show H'.get [i, j] = _
    have hc' := hcur (split h).2.2
    rcases Nat.lt_succ_iff_lt_or_eq.1 hi with hi' | rfl <;> rcases Nat.lt_succ_iff_lt_or_eq.1 hj with hj' | rfl
    · rw [old i hi', old j hj', (h1 i j hi' hj').2]
      exact hI.ham (split h).1 i hi' j hj'
    · rw [old i hi', new, (h2 i hi').2.2.1]
      exact inner_congr (fun _ _ => rfl) hc'
    · rw [old j hj', new, (h2 j hj').2.2.2, Props.inner_star', inner_congr hc' (fun _ _ => rfl), ← inner_act hH]
    · rw [new, h4, inner_congr (fun _ _ => rfl) hc']
      exact inner_real (by rw [Props.inner_star', ← inner_act hH])
  · intro h he j hj
    obtain ⟨g1, g2, g3⟩ := split h
    rw [hre j (by omega)]
    rcases Nat.lt_succ_iff_lt_or_eq.1 hj with h' | h'
    · rw [old (j + 1) h']
      exact hI.step g1 he.1 j h'
    · obtain ⟨r, hr, e⟩ := hstep g1 g2 he.2
      refine ⟨r, hr, fun s hs => ?_⟩
      rw [show j + 1 = ndx from h', new]
      rw [show ndx - 1 = j by omega] at e
      exact e s hs

/-- the invariant at the end of the loop -/
theorem Inv.done {H psi : List (Tensor ℂ)} {nv : Nat} {b : Basis} (hI : Inv ds H psi nv nv b) (hn0 : 0 < nv) : Krylov ds H psi nv b := by
  have hlen := hI.len
  refine ⟨by omega, by rw [hlen]; exact hI.wf, by rw [hlen]; exact hI.dims, hI.lost, hI.first, by rw [hlen]; exact hI.unit, by rw [hlen]; exact hI.gram,
    by rw [hlen]; exact hI.ham, by rw [hlen]; exact hI.step, fun _ => hlen, fun h => ?_⟩
  rw [hI.isOpen] at h; exact absurd h (by simp)

/-- the invariant when the basis is closed -/
theorem Inv.close {H psi : List (Tensor ℂ)} {nv ndx : Nat} {b : Basis} (hI : Inv ds H psi nv ndx b) (hn0 : 0 < ndx) (hle : ndx ≤ nv)
    (hstop : Faithful ds psi b → ∃ P k, WF 1 P ds 1 ∧ normSq ds P < 1 / 10 ^ 15 ∧ Best ds (b.rest ds H (ndx - 1)) P k) :
    Krylov ds H psi nv { b with N := block ndx b.N, Heff := block ndx b.Heff, closed := true } := by
  have hlen := hI.len
  refine ⟨by simp only; omega, by simp only [hlen]; exact hI.wf, by simp only [hlen]; exact ⟨rfl, rfl⟩, hI.lost, hI.first, by simp only [hlen]; exact hI.unit,
    by simp only [hlen]; exact hI.gram, by simp only [hlen]; exact hI.ham, by simp only [hlen]; exact hI.step, fun h => by simp at h, fun _ h => ?_⟩
  simp only [hlen]
  exact hstop h

/-- the wave function that the program gives to `simplify_obc` -/
theorem target_eq {H psi : List (Tensor ℂ)} {nv ndx : Nat} {b : Basis} (hI : Inv ds H psi nv ndx b) (hn0 : 0 < ndx) (hb : Faithful ds psi b) {s : List Nat}
    (hs : IsCfg ds s) :
    superpose (if ndx > 1 then [1, -b.Heff.get [ndx - 1, ndx - 1], -b.Heff.get [ndx - 1, ndx - 2]] else [1, -b.Heff.get [ndx - 1, ndx - 1]])
      (if ndx > 1 then [b.Hcur, b.states.getD (ndx - 1) [], b.states.getD (ndx - 2) []] else [b.Hcur, b.states.getD (ndx - 1) []]) s =
    b.rest ds H (ndx - 1) s := by
  unfold superpose Basis.rest
  by_cases h : ndx > 1
  · simp only [if_pos h, if_neg (show ¬ (ndx - 1 = 0) by omega), List.length_cons, List.length_nil, Finset.sum_range_succ, Finset.sum_range_zero,
      List.getD_cons_zero, List.getD_cons_succ]
    rw [hI.curEq hb s hs, show ndx - 1 - 1 = ndx - 2 by omega]
    unfold Basis.vec
    ring
  · simp only [if_neg h, if_pos (show ndx - 1 = 0 by omega), List.length_cons, List.length_nil, Finset.sum_range_succ, Finset.sum_range_zero,
      List.getD_cons_zero, List.getD_cons_succ]
    rw [hI.curEq hb s hs]
    unfold Basis.vec
    ring

theorem Best.congr' {q q' : List Nat → ℂ} {P : List (Tensor ℂ)} {k : Nat} (h : Best ds q P k) (e : ∀ s, IsCfg ds s → q s = q' s) : Best ds q' P k := by
  have e1 : ∀ Z, distTo ds q' Z = distTo ds q Z := fun Z => sumCfg_congr fun s hs => by rw [e s hs]
  have e2 : normSqOf ds q' = normSqOf ds q := sumCfg_congr fun s hs => by rw [e s hs]
  refine ⟨by rw [e1, e2]; exact h.dist, by rw [← h.overlap]; exact inner_congr (fun s hs => (e s hs).symm) fun _ _ => rfl, fun Y hY => ?_⟩
  rw [e1, e1]; exact h.best Y hY

end MPS.Arnoldi
