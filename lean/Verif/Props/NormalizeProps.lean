import Verif.TrotterTwo

/-!
# C118, C119: canonical forms of canonical states; the flag `normalize` of the Trotter solvers
-/

set_option linter.unusedSectionVars false
set_option linter.unusedSimpArgs false

namespace MPS.Props
open MPS Tensor Trotter Minim Obc
variable {K : Type} [RCLike K]

/-- `ψ` is an MPS of an open chain, left-isometric before the site `k` and right-isometric after it -/
structure CanonicalAt (ds : List Nat) (ψ : List (Tensor K)) (k : Nat) : Prop where
  wf : WF 1 ψ ds 1
  left : ∀ j < k, LeftIso (site ψ j)
  right : ∀ j, k < j → j < ds.length → RightIso (site ψ j)

/-- the bonds of `ψ` are at most `B` -/
def BondsUpTo (B : Nat) (ψ : List (Tensor K)) : Prop := ∀ A ∈ ψ, A.dim 0 ≤ B ∧ A.dim 2 ≤ B

theorem bondsUpTo_iff {B : Nat} {ψ : List (Tensor K)} : BondsUpTo B ψ ↔ BondsLe ψ B := by
  constructor
  · intro h j hj
    have : site ψ j = ψ[j] := by simp [site, hj]
    rw [this]; exact h _ (List.getElem_mem hj)
  · intro h A hA
    obtain ⟨j, hj, rfl⟩ := List.getElem_of_mem hA
    have := h j hj
    rwa [show site ψ j = ψ[j] by simp [site, hj]] at this

/-- **C118.**  `canonical_form_at(psi, k)` of a state which is already in canonical form with respect to `k` does not change the state:
all amplitudes are the same, for any tolerance `tau` for which `D * tau < 1`, `D` being the largest bond dimension (the default is
`tau = DBL_EPSILON`).  No bond grows. -/
theorem C118_fixed {svd : Tensor K → SvdRes K} (hg : GoodSvd svd) (eps : ℝ) {dflt : ℝ} (hd0 : 0 < dflt) {ds : List Nat} {ψ : List (Tensor K)} {k B : Nat}
    (h : CanonicalAt ds ψ k) (hk : k < ds.length) (hb : BondsUpTo B ψ) (hB : B * max dflt eps < 1) :
    let y := (canonicalFormAt svd eps dflt ψ k).1
    CanonicalAt ds y k ∧ BondsUpTo B y ∧ ∀ s, IsCfg ds s → amp y s = amp ψ s := by
  obtain ⟨h1, h2, h3⟩ := form_iso hg eps hd0 ⟨h.wf, h.left, h.right⟩ hk (bondsUpTo_iff.1 hb) hB
  have hne : ψ ≠ [] := by intro hh; have := h.wf.length; rw [hh] at this; simp at this; omega
  exact ⟨⟨h1.wf, h1.lo, h1.hi⟩, bondsUpTo_iff.2 h2, (C14_canonical_form_at hg eps dflt ⟨hne, 1, h.wf⟩ (Or.inl hd0) k hk).2.1 h3⟩

/-- **C118.**  `canonical_form` is idempotent: applied to its own result, in the same direction, it does not change the state. -/
theorem C118_idempotent {svd : Tensor K → SvdRes K} (hg : GoodSvd svd) (eps : ℝ) {dflt : ℝ} (hd0 : 0 < dflt) {ds : List Nat} {ψ : List (Tensor K)} {B : Nat}
    (hw : WF 1 ψ ds 1) (hne : ψ ≠ []) (sense : Int) :
    let y := (canonicalForm svd eps dflt ψ sense).1
    let z := (canonicalForm svd eps dflt y sense).1
    BondsUpTo B y → B * max dflt eps < 1 → WF 1 z ds 1 ∧ BondsUpTo B z ∧ ∀ s, IsCfg ds s → amp z s = amp y s := by
  intro y z hb hB
  have hlen := hw.length
  have hpos : 0 < ψ.length := List.length_pos_iff.2 hne
  obtain ⟨c1, c2, -, -⟩ := eitherForm_spec hg eps hw (Or.inl hd0 : StartOk dflt 1 ds ψ) (if sense < 0 then 0 else ψ.length - 1) (by split <;> omega)
  obtain ⟨-, d1, d2⟩ := C15_canonical_form_at hg eps dflt ⟨hne, 1, hw⟩ (Or.inl hd0) (if sense < 0 then 0 else ψ.length - 1) (by split <;> omega)
  have hyl : y.length = ψ.length := c2
  have e : z = (canonicalFormAt svd eps dflt y (if sense < 0 then 0 else ψ.length - 1)).1 := by
    simp only [z, canonicalForm]; rw [hyl]
  obtain ⟨f1, f2, f3⟩ := C118_fixed hg eps hd0 (ψ := y) ⟨c1.wf, d1, d2⟩ (by split <;> omega) hb hB
  rw [e]
  exact ⟨f1.wf, f2, f3⟩

/-- **C118.**  `normal_form_at(psi, k)` of a state in canonical form with respect to `k` is exactly the state divided by its norm. -/
theorem C118_normal_form {svd : Tensor K → SvdRes K} (hg : GoodSvd svd) (eps : ℝ) {dflt : ℝ} (hd0 : 0 < dflt) {ds : List Nat} {ψ : List (Tensor K)} {k B : Nat}
    (h : CanonicalAt ds ψ k) (hk : k < ds.length) (hb : BondsUpTo B ψ) (hB : B * max dflt eps < 1) (hn : norm2 ψ ≠ 0) :
    let y := (normalFormAt svd eps dflt ψ k).1
    norm2 y = 1 ∧ ∀ s, IsCfg ds s → amp y s = ((1 / norm2 ψ : ℝ) : K) * amp ψ s := by
  obtain ⟨h1, h2, h3⟩ := form_iso hg eps hd0 ⟨h.wf, h.left, h.right⟩ hk (bondsUpTo_iff.1 hb) hB
  have hne : ψ ≠ [] := by intro hh; have := h.wf.length; rw [hh] at this; simp at this; omega
  obtain ⟨-, n2, -, -, n5⟩ := C16_normal_form_at hg eps dflt hne h.wf (Or.inl hd0) k hk
  exact n5 (by rw [n2]; exact h3) hn

/-- `normal_form_at(psi, k)` is in canonical form with respect to `k` -/
theorem normal_form_canonical {svd : Tensor K → SvdRes K} (hg : GoodSvd svd) (eps : ℝ) {dflt : ℝ} (hd0 : 0 < dflt) {ds : List Nat} {ψ : List (Tensor K)}
    (hne : ψ ≠ []) (hw : WF 1 ψ ds 1) (k : Nat) (hk : k < ds.length) : CanonicalAt ds (normalFormAt svd eps dflt ψ k).1 k := by
  have hl := hw.length
  obtain ⟨h1, h2, h3, h4⟩ := eitherForm_spec hg eps hw (TolOk.start hw hne (Or.inl hd0)) k (by omega)
  set y := eitherForm svd eps dflt ψ k false with hy
  have hky : k < y.1.length := by omega
  have hz : (normalFormAt svd eps dflt ψ k).1 = y.1.set k (smul ((1 / frob (site y.1 k) : ℝ) : K) (site y.1 k)) := by
    rw [hy]; simp [normalFormAt, eitherForm]
  rw [hz]
  refine ⟨(path_set_smul h1.wf k hky _).1, fun j hj => ?_, fun j hj hj2 => ?_⟩
  · rw [site_set _ _ _ _ hky, if_neg (by omega)]; exact h3 j hj
  · rw [site_set _ _ _ _ hky, if_neg (by omega)]; exact h4 j hj (by omega)

/-! ### C119 -/

/-- What the flag `normalize` of `one_step` is expected to do, with truncation after each gate: on every open chain of two sites or more,
for every Hamiltonian and (complex) time step, with and without the flag the same error and direction are obtained, and with the flag
the state is the one obtained without it, divided by its norm, and has norm one (`Dmax` times the tolerance being less than one).  It
is in canonical form for the next step. -/
def NormalizesEachUnitary (svd : Tensor ℂ → SvdRes ℂ) (eps dflt : ℝ) (S : Solver) : Prop :=
  ∀ (single : Bool) (tolerance : ℝ) (expm : Tensor ℂ → Tensor ℂ), (∀ A n, A.dims = [n, n] → (expm A).dims = [n, n]) →
  ∀ (H : Ham ℂ) (ds : List Nat), HamFits H ds → 2 ≤ ds.length → ∀ (dt : ℂ),
  ∃ U, S.unitaries expm H dt = some U ∧
  ∀ (P : List (Tensor ℂ)), WF 1 P ds 1 → ∀ (sense : Int) (Dmax : Nat), 0 < Dmax → Dmax * max dflt eps < 1 →
  ∃ x y sense', oneStep svd eps dflt (obcCall svd eps dflt single tolerance) S U .eachUnitary false sense P Dmax = some (x, sense') ∧
    oneStep svd eps dflt (obcCall svd eps dflt single tolerance) S U .eachUnitary true sense P Dmax = some (y, sense') ∧
    WF 1 x.P ds 1 ∧ IsMPS ds y.P ∧ ReadyFor ds y.P sense' ∧ y.err = x.err ∧
    (norm2 x.P ≠ 0 → norm2 y.P = 1 ∧ ∀ s, IsCfg ds s → amp y.P s = ((1 / norm2 x.P : ℝ) : ℂ) * amp x.P s)

/-- The same without truncation: the state with the flag is `canonical_form` of the one without it, divided by its norm.  (The sweep of
`canonical_form` may truncate, see C117.) -/
def NormalizesWithoutTruncation (svd : Tensor ℂ → SvdRes ℂ) (eps dflt : ℝ) (S : Solver) : Prop :=
  ∀ (single : Bool) (tolerance : ℝ) (expm : Tensor ℂ → Tensor ℂ), (∀ A n, A.dims = [n, n] → (expm A).dims = [n, n]) →
  ∀ (H : Ham ℂ) (ds : List Nat), HamFits H ds → 2 ≤ ds.length → ∀ (dt : ℂ),
  ∃ U, S.unitaries expm H dt = some U ∧
  ∀ (P : List (Tensor ℂ)), WF 1 P ds 1 → ∀ (sense : Int) (Dmax : Nat),
  ∃ x y sense', oneStep svd eps dflt (obcCall svd eps dflt single tolerance) S U .doNotTruncate false sense P Dmax = some (x, sense') ∧
    oneStep svd eps dflt (obcCall svd eps dflt single tolerance) S U .doNotTruncate true sense P Dmax = some (y, sense') ∧
    WF 1 x.P ds 1 ∧ IsMPS ds y.P ∧ y.err = x.err ∧
    let c := (canonicalForm svd eps dflt x.P (-sense')).1
    (norm2 c ≠ 0 → norm2 y.P = 1 ∧ ∀ s, IsCfg ds s → amp y.P s = ((1 / norm2 c : ℝ) : ℂ) * amp c s)

/-- the last call of a `one_step` without simplification -/
theorem lastCall {svd : Tensor ℂ → SvdRes ℂ} (hg : GoodSvd svd) (eps : ℝ) {dflt : ℝ} (hd0 : 0 < dflt)
    (simplifyObc : List (Tensor ℂ) → Int → Nat → Bool → Nat → List (Tensor ℂ) × ℝ)
    {ds : List Nat} (hpos : 0 < ds.length) {k : Nat} (U : List Unitary) (z : Evo × Int) (c : Call) (hf : Fits (U.getD c.which ⟨0, 0, []⟩) ds k)
    (hz : WF 1 z.1.P ds 1) (htol : c.tol < 0 ∨ 0 < c.tol) (hs : c.simplify = false) (hn : c.normalize = false) :
    let x := runCall svd eps dflt simplifyObc U z c
    let y := runCall svd eps dflt simplifyObc U z { c with normalize := true }
    WF 1 x.1.P ds 1 ∧ y.1.P = (normalForm svd eps dflt x.1.P (-x.2)).1 ∧ y.1.err = x.1.err ∧ y.2 = x.2 ∧ x.2 ≠ 0 ∧
      (c.D ≠ 0 → Half ds (-x.2) x.1.P (if -x.2 > 0 then ds.length - 1 else 0)) := by
  intro x y
  have ht : 0 < effTol dflt c.tol := by
    unfold effTol; rcases htol with h | h
    · rw [if_pos h]; exact hd0
    · rw [if_neg (by linarith)]; exact h
  have hne : z.1.P ≠ [] := by intro hh; have := hz.length; rw [hh] at this; simp at this; omega
  set sn := (if z.2 = 0 then 1 else z.2) with hsn
  obtain ⟨s1, -⟩ := sweep_amp hg eps hd0 hf z.1 hz hne sn c.tol ht c.D
  have hx : x.1.P = (sweep svd eps dflt (U.getD c.which ⟨0, 0, []⟩) z.1 sn c.tol c.D).P ∧ x.2 = -sn := by
    simp only [x, runCall, hs, hn, Bool.false_eq_true, if_false, apply_eq, hsn]
    refine ⟨?_, ?_⟩ <;> trivial
  have hy : y.1.P = (normalForm svd eps dflt (sweep svd eps dflt (U.getD c.which ⟨0, 0, []⟩) z.1 sn c.tol c.D).P sn).1 ∧ y.2 = -sn := by
    simp only [y, runCall, hs, Bool.false_eq_true, if_false, apply_eq, if_true, hsn]
    refine ⟨?_, ?_⟩ <;> trivial
  have he : y.1.err = x.1.err := by
    simp only [x, y, runCall, hs, hn, Bool.false_eq_true, if_false, apply_eq, if_true]
  have hneg : -x.2 = sn := by rw [hx.2]; ring
  refine ⟨by rw [hx.1]; exact s1, by rw [hy.1, hneg, hx.1], he, by rw [hy.2, hx.2], ?_, fun hD => ?_⟩
  · rw [hx.2, hsn]; split <;> omega
  · rw [hneg, hx.1]
    exact sweep_half hg eps hd0 hf z.1 hpos sn hz c.tol ht hD

theorem unitaries_fit (S : Solver) (hl : ∀ l ∈ S.layers, l.1 = 0 ∨ l.1 = 1) {expm : Tensor ℂ → Tensor ℂ}
    (hexp : ∀ A n, A.dims = [n, n] → (expm A).dims = [n, n]) {H : Ham ℂ} {ds : List Nat} (hH : HamFits H ds) (dt : ℂ) :
    ∃ U, S.unitaries expm H dt = some U ∧ ∀ i, i < S.layers.length → ∃ k : Nat, k ≤ 1 ∧ (k : Int) = (S.layers.getD i (0, 0)).1 ∧
      mkUnitary expm H k (dt * (S.layers.getD i (0, 0)).2) = some (U.getD i ⟨0, 0, []⟩) ∧ Fits (U.getD i ⟨0, 0, []⟩) ds k := by
  have key : ∀ ll : List (Int × ℂ), (∀ l ∈ ll, l.1 = 0 ∨ l.1 = 1) → ∃ U, ll.mapM (fun l => mkUnitary expm H l.1 (dt * l.2)) = some U ∧
      ∀ i, i < ll.length → ∃ k : Nat, k ≤ 1 ∧ (k : Int) = (ll.getD i (0, 0)).1 ∧
        mkUnitary expm H k (dt * (ll.getD i (0, 0)).2) = some (U.getD i ⟨0, 0, []⟩) ∧ Fits (U.getD i ⟨0, 0, []⟩) ds k := by
    intro ll
    induction ll with
    | nil => intro _; exact ⟨[], rfl, fun i hi => by simp at hi⟩
    | cons l ll ih =>
      intro h
      obtain ⟨k, hk, e⟩ : ∃ k : Nat, k ≤ 1 ∧ l.1 = k := by
        rcases h l (by simp) with h | h
        · exact ⟨0, by omega, by simpa using h⟩
        · exact ⟨1, by omega, by simpa using h⟩
      obtain ⟨W, hW, hf, -⟩ := mkUnitary_fits hexp hH k hk (dt * l.2)
      obtain ⟨U, u1, u2⟩ := ih fun l hl => h l (by simp [hl])
      refine ⟨W :: U, by simp [List.mapM_cons, e, hW, u1], fun i hi => ?_⟩
      cases i with
      | zero => exact ⟨k, hk, by simpa using e.symm, by simpa using hW, by simpa using hf⟩
      | succ i => simpa using u2 i (by simpa using hi)
  exact key S.layers hl

theorem normalizes_of {svd : Tensor ℂ → SvdRes ℂ} (hg : GoodSvd svd) (eps : ℝ) {dflt : ℝ} (hd0 : 0 < dflt) (S : Solver)
    (hb : StepBounded svd eps dflt S .eachUnitary) (hl : ∀ l ∈ S.layers, l.1 = 0 ∨ l.1 = 1)
    (hc : ∀ Dmax, ∃ init c, S.calls .eachUnitary false Dmax = init ++ [c] ∧ S.calls .eachUnitary true Dmax = init ++ [{ c with normalize := true }] ∧
      c.D = Dmax ∧ c.normalize = false ∧ ∀ c' ∈ init ++ [c], c'.simplify = false ∧ (c'.tol < 0 ∨ 0 < c'.tol) ∧ c'.which < S.layers.length) :
    NormalizesEachUnitary svd eps dflt S := by
  intro single tolerance expm hexp H ds hH hN dt
  obtain ⟨U, hU, hb⟩ := hb single tolerance expm hexp H ds hH hN dt
  obtain ⟨U', hU', hfit⟩ := unitaries_fit S hl hexp hH dt
  rw [hU] at hU'
  cases hU'
  refine ⟨U, hU, fun P hP sense Dmax hD hB => ?_⟩
  obtain ⟨x, s', e1, e2, e3⟩ := hb P hP false sense Dmax hD
  obtain ⟨init, c, c1, c2, c3, c4, c5⟩ := hc Dmax
  have hfit' : ∀ i, ∃ k : Nat, k ≤ 1 ∧ (i < S.layers.length → mkUnitary expm H k (dt * (S.layers.getD i (0, 0)).2) = some (U.getD i ⟨0, 0, []⟩)) := by
    intro i
    by_cases hi : i < S.layers.length
    · obtain ⟨k, k1, -, k3, -⟩ := hfit i hi
      exact ⟨k, k1, fun _ => k3⟩
    · exact ⟨0, by omega, fun h => absurd h hi⟩
  choose par hpar using hfit'
  have w0 := runCalls_bonds hg eps hd0 single tolerance hexp hH hN U (fun i => dt * (S.layers.getD i (0, 0)).2) par (fun i => (hpar i).1)
    init (fun c' h => by
      obtain ⟨a1, a2, a3⟩ := c5 c' (by simp [h])
      exact ⟨(hpar _).2 a3, a2, fun h => by rw [a1] at h; exact absurd h (by simp)⟩) (⟨P, 0, 0⟩, sense) hP
  unfold oneStep at e1 ⊢
  rw [if_neg (by rintro ⟨h, -⟩; omega), c1, List.foldl_append] at e1
  rw [if_neg (by rintro ⟨h, -⟩; omega), if_neg (by rintro ⟨h, -⟩; omega), c1, c2, List.foldl_append, List.foldl_append]
  set z := init.foldl (runCall svd eps dflt (obcCall svd eps dflt single tolerance) U) (⟨P, 0, 0⟩, sense) with hz
  clear_value z
  obtain ⟨a1, a2, a3⟩ := c5 c (by simp)
  obtain ⟨k, k1, -, -, k4⟩ := hfit c.which a3
  obtain ⟨l1, l2, l3, l4, l5, l6⟩ := lastCall hg eps hd0 (obcCall svd eps dflt single tolerance) (by omega) U z c k4 w0 a2 a1 c4
  simp only [List.foldl_cons, List.foldl_nil] at e1 ⊢
  set X := runCall svd eps dflt (obcCall svd eps dflt single tolerance) U z c with hX
  set Y := runCall svd eps dflt (obcCall svd eps dflt single tolerance) U z { c with normalize := true } with hY
  have e1 : X = (x, s') := by simpa using e1
  have x1 : X.1 = x := by rw [e1]
  have x2 : X.2 = s' := by rw [e1]
  rw [x1] at l1 l3
  rw [x2] at l5
  rw [x1, x2] at l2 l6
  have l4 : Y.2 = s' := by rw [l4, x2]
  have hxl := e2.length
  have hxne : x.P ≠ [] := by intro hh; rw [hh] at hxl; simp at hxl; omega
  have hnf : normalForm svd eps dflt x.P (-s') = normalFormAt svd eps dflt x.P (if -s' < 0 then 0 else x.P.length - 1) := rfl
  have hin : (if -s' < 0 then 0 else x.P.length - 1) < ds.length := by split <;> omega
  have hcan : CanonicalAt ds x.P (if -s' < 0 then 0 else x.P.length - 1) := by
    have h6 := l6 (by rw [c3]; omega)
    by_cases hneg : -s' > 0
    · rw [if_neg (by omega)]
      rw [if_pos hneg] at h6
      exact ⟨e2, fun j hj => h6.lo hneg j (by omega), fun j hj hj2 => by omega⟩
    · rw [if_pos (by omega)]
      rw [if_neg hneg] at h6
      exact ⟨e2, fun j hj => by omega, fun j hj hj2 => h6.hi hneg j hj hj2⟩
  have hbonds : BondsUpTo Dmax x.P := by
    rw [bondsUpTo_iff]
    intro j hj
    have hd : ∀ j, j < ds.length → (site x.P j).dim 2 ≤ Dmax := by
      intro j hj
      by_cases hl : j + 1 < ds.length
      · exact e3 j hl
      · obtain ⟨a, b, -, w2, w3, -, -, -⟩ := WF.around e2 hj
        rw [dim2_of w2]
        have : x.P.drop (j + 1) = [] := by rw [List.drop_eq_nil_iff]; omega
        have h2 : ds.drop (j + 1) = [] := by rw [List.drop_eq_nil_iff]; omega
        rw [this, h2] at w3
        cases w3; omega
    refine ⟨?_, hd j (by omega)⟩
    cases j with
    | zero =>
      obtain ⟨a, b, w1, w2, -⟩ := WF.around e2 (show 0 < ds.length by omega)
      rw [dim0_of w2]
      simp only [List.take_zero] at w1
      cases w1; omega
    | succ j =>
      obtain ⟨a, d, b, d2, f, q1, q2, -⟩ := pair_dims e2 j (by omega)
      have := hd j (by omega)
      rw [dim2_of q1] at this
      rw [dim0_of q2]; exact this
  refine ⟨x, Y.1, s', by rw [e1], by rw [← l4], e2, ?_, ?_, l3, fun hn => ?_⟩
  · rw [l2, hnf]
    exact (C16_normal_form_at hg eps dflt hxne e2 (Or.inl hd0) _ hin).1
  · have hca := normal_form_canonical hg eps hd0 hxne e2 _ hin
    rw [l2, hnf]
    refine ⟨hca.wf, ?_, fun hs j hj hj2 => ?_, fun hs j hj => ?_⟩
    · intro hh; have := hca.wf.length; rw [hh] at this; simp at this; omega
    · exact hca.right j (by rw [if_pos (by omega)]; exact hj) hj2
    · exact hca.left j (by rw [if_neg (by omega)]; omega)
  · rw [l2, hnf]
    exact C118_normal_form hg eps hd0 hcan hin hbonds hB hn

theorem normalizesWithout_of {svd : Tensor ℂ → SvdRes ℂ} (hg : GoodSvd svd) (eps : ℝ) {dflt : ℝ} (hd0 : 0 < dflt) (S : Solver)
    (hl : ∀ l ∈ S.layers, l.1 = 0 ∨ l.1 = 1)
    (hc : ∀ Dmax, ∃ init c, S.calls .doNotTruncate false Dmax = init ++ [c] ∧ S.calls .doNotTruncate true Dmax = init ++ [{ c with normalize := true }] ∧
      c.normalize = false ∧ ∀ c' ∈ init ++ [c], c'.simplify = false ∧ (c'.tol < 0 ∨ 0 < c'.tol) ∧ c'.which < S.layers.length) :
    NormalizesWithoutTruncation svd eps dflt S := by
  intro single tolerance expm hexp H ds hH hN dt
  obtain ⟨U, hU, hfit⟩ := unitaries_fit S hl hexp hH dt
  refine ⟨U, hU, fun P hP sense Dmax => ?_⟩
  obtain ⟨init, c, c1, c2, c4, c5⟩ := hc Dmax
  have hfit' : ∀ i, ∃ k : Nat, k ≤ 1 ∧ (i < S.layers.length → mkUnitary expm H k (dt * (S.layers.getD i (0, 0)).2) = some (U.getD i ⟨0, 0, []⟩)) := by
    intro i
    by_cases hi : i < S.layers.length
    · obtain ⟨k, k1, -, k3, -⟩ := hfit i hi
      exact ⟨k, k1, fun _ => k3⟩
    · exact ⟨0, by omega, fun h => absurd h hi⟩
  choose par hpar using hfit'
  have w0 := runCalls_bonds hg eps hd0 single tolerance hexp hH hN U (fun i => dt * (S.layers.getD i (0, 0)).2) par (fun i => (hpar i).1)
    init (fun c' h => by
      obtain ⟨a1, a2, a3⟩ := c5 c' (by simp [h])
      exact ⟨(hpar _).2 a3, a2, fun h => by rw [a1] at h; exact absurd h (by simp)⟩) (⟨P, 0, 0⟩, sense) hP
  unfold oneStep
  rw [if_neg (by simp), if_neg (by simp), c1, c2, List.foldl_append, List.foldl_append]
  set z := init.foldl (runCall svd eps dflt (obcCall svd eps dflt single tolerance) U) (⟨P, 0, 0⟩, sense) with hz
  clear_value z
  obtain ⟨a1, a2, a3⟩ := c5 c (by simp)
  obtain ⟨k, k1, -, -, k4⟩ := hfit c.which a3
  obtain ⟨l1, l2, l3, l4, l5, -⟩ := lastCall hg eps hd0 (obcCall svd eps dflt single tolerance) (by omega) U z c k4 w0 a2 a1 c4
  simp only [List.foldl_cons, List.foldl_nil]
  set X := runCall svd eps dflt (obcCall svd eps dflt single tolerance) U z c with hX
  set Y := runCall svd eps dflt (obcCall svd eps dflt single tolerance) U z { c with normalize := true } with hY
  have hxl := l1.length
  have hxne : X.1.P ≠ [] := by intro hh; rw [hh] at hxl; simp at hxl; omega
  have hin : (if -X.2 < 0 then 0 else X.1.P.length - 1) < ds.length := by split <;> omega
  obtain ⟨n1, -, n3, n4, -⟩ := C16_normal_form_at hg eps dflt hxne l1 (Or.inl hd0) _ hin
  refine ⟨X.1, Y.1, X.2, rfl, by rw [← l4], l1, by rw [l2]; exact n1, l3, fun hn => ?_⟩
  rw [l2]
  exact ⟨n4 hn, n3⟩

/-- **C119**: `Trotter2Solver`, `Trotter3Solver` and `ForestRuthSolver` with truncation after each gate -/
theorem C119_each_unitary_partial {svd : Tensor ℂ → SvdRes ℂ} (hg : GoodSvd svd) {eps : ℝ} (he : 0 < eps) {dflt : ℝ} (hd0 : 0 < dflt) :
    NormalizesEachUnitary svd eps dflt (trotter2 eps) ∧ NormalizesEachUnitary svd eps dflt (trotter3 eps) ∧
      NormalizesEachUnitary svd eps dflt forestRuth := by
  refine ⟨normalizes_of hg eps hd0 _ (C82_trotter2 hg he hd0 .eachUnitary (by decide)) (by simp [trotter2]) fun D => ?_,
    normalizes_of hg eps hd0 _ (C82_trotter3 hg he hd0 .eachUnitary (by decide)) (by simp [trotter3]) fun D => ?_,
    normalizes_of hg eps hd0 _ (C82_forest_ruth hg hd0 .eachUnitary (by decide) (by decide)) (by simp [forestRuth]) fun D => ?_⟩
  · exact ⟨[_], _, rfl, rfl, rfl, rfl, by simp [trotter2, defaultTol]⟩
  · exact ⟨[_, _], _, rfl, rfl, rfl, rfl, by simp [trotter3, defaultTol]⟩
  · exact ⟨[_, _, _, _, _, _], _, rfl, rfl, rfl, rfl, by simp [forestRuth, defaultTol]⟩

/-- **C119**: `Trotter3Solver` and `ForestRuthSolver` without truncation -/
theorem C119_do_not_truncate_partial {svd : Tensor ℂ → SvdRes ℂ} (hg : GoodSvd svd) {eps : ℝ} (he : 0 < eps) {dflt : ℝ} (hd0 : 0 < dflt) :
    NormalizesWithoutTruncation svd eps dflt (trotter3 eps) ∧ NormalizesWithoutTruncation svd eps dflt forestRuth := by
  refine ⟨normalizesWithout_of hg eps hd0 _ (by simp [trotter3]) fun D => ?_, normalizesWithout_of hg eps hd0 _ (by simp [forestRuth]) fun D => ?_⟩
  · exact ⟨[_, _], _, rfl, rfl, rfl, by simp [trotter3, defaultTol, he, he.ne']⟩
  · exact ⟨[_, _, _, _, _, _], _, rfl, rfl, rfl, by simp [forestRuth, defaultTol]⟩

/-- `normalize` has no effect on two qubits: with `Dmax ≥ 2` the state returned with the flag has the norm of the initial state -/
def FlagIgnored (svd : Tensor ℂ → SvdRes ℂ) (eps dflt : ℝ) (S : Solver) (strategy : Strategy) : Prop :=
  ∀ (simplifyObc : List (Tensor ℂ) → Int → Nat → Bool → Nat → List (Tensor ℂ) × ℝ) (expm : Tensor ℂ → Tensor ℂ), GoodExpm expm →
  ∀ (H : Ham ℂ), HamFits H [2, 2] → HamHermitian H [2, 2] → ∀ (dt : ℝ),
  ∃ U, S.unitaries expm H dt = some U ∧
  ∀ (P : List (Tensor ℂ)), WF 1 P [2, 2] 1 → ∀ (normalize : Bool) (sense : Int) (Dmax : Nat), 2 ≤ Dmax →
  ∃ y sense', oneStep svd eps dflt simplifyObc S U strategy normalize sense P Dmax = some (y, sense') ∧ WF 1 y.P [2, 2] 1 ∧ norm2 y.P = norm2 P

theorem calls_two {svd : Tensor ℂ → SvdRes ℂ} (hg : GoodSvd svd) {eps : ℝ} (he : eps < 1) {dflt : ℝ} (hd0 : 0 < dflt)
    (simplifyObc : List (Tensor ℂ) → Int → Nat → Bool → Nat → List (Tensor ℂ) × ℝ) {expm : Tensor ℂ → Tensor ℂ} (hexp : GoodExpm expm)
    {H : Ham ℂ} (hH : HamFits H [2, 2]) (hh : HamHermitian H [2, 2]) (U : List Unitary) : ∀ (cs : List Call),
    (∀ c ∈ cs, (c.tol < 0 ∨ 0 < c.tol) ∧ ((c.simplify = true ∧ 2 ≤ c.D) ∨ (c.simplify = false ∧ c.D = 0 ∧ c.normalize = false)) ∧
      ∃ k : Nat, k ≤ 1 ∧ ∃ dt : ℝ, mkUnitary expm H k dt = some (U.getD c.which ⟨0, 0, []⟩) ∧ Fits (U.getD c.which ⟨0, 0, []⟩) [2, 2] k) →
    ∀ (x : Evo × Int), WF 1 x.1.P [2, 2] 1 →
    let y := cs.foldl (runCall svd eps dflt simplifyObc U) x
    WF 1 y.1.P [2, 2] 1 ∧ MPS.inner [2, 2] (amp y.1.P) (amp y.1.P) = MPS.inner [2, 2] (amp x.1.P) (amp x.1.P)
  | [], _, x, hx => ⟨hx, rfl⟩
  | c :: cs, hc, x, hx => by
    obtain ⟨h1, h2, k, hk, dt, h3, h4⟩ := hc c (by simp)
    obtain ⟨a1, -, -, a4⟩ := call_two hg he hd0 simplifyObc U x c h4 hx h1 h2
    obtain ⟨b1, b2⟩ := calls_two hg he hd0 simplifyObc hexp hH hh U cs (fun c h => hc c (by simp [h])) _ a1
    refine ⟨b1, b2.trans ?_⟩
    have hl := layerSteps_norm hexp hH hh dt [(k, 1)] (by simp) (amp x.1.P)
    rw [← hl]
    obtain ⟨W, w1, w2⟩ := C58_gates hH expm ((dt : ℂ) * 1) k hk
    rw [mul_one, h3] at w1
    cases w1
    have e : ∀ s, IsCfg [2, 2] s → amp (runCall svd eps dflt simplifyObc U x c).1.P s = layerSteps expm H [2, 2] dt [(k, 1)] (amp x.1.P) s := by
      intro s hs
      rw [a4 s hs]
      unfold layerSteps
      simp only [List.foldl_cons, List.foldl_nil]
      unfold layerStep
      exact actOp_congr (fun s t => layerElt_congr (fun p hp => w2 p hp) s t) (fun _ _ => rfl) s
    exact inner_congr e e

theorem flagIgnored_of {svd : Tensor ℂ → SvdRes ℂ} (hg : GoodSvd svd) {eps : ℝ} (he : eps < 1) {dflt : ℝ} (hd0 : 0 < dflt) (S : Solver)
    (strategy : Strategy) (hl : ∀ l ∈ S.layers, (l.1 = 0 ∨ l.1 = 1) ∧ l.2.im = 0)
    (hc : ∀ normalize Dmax, 2 ≤ Dmax → ∀ c ∈ S.calls strategy normalize Dmax, (c.tol < 0 ∨ 0 < c.tol) ∧
      ((c.simplify = true ∧ 2 ≤ c.D) ∨ (c.simplify = false ∧ c.D = 0 ∧ c.normalize = false)) ∧ c.which < S.layers.length) :
    FlagIgnored svd eps dflt S strategy := by
  intro simplifyObc expm hexp H hH hh dt
  obtain ⟨U, hU, hfit⟩ := unitaries_fit S (fun l h => (hl l h).1) hexp.dims hH dt
  refine ⟨U, hU, fun P hP normalize sense Dmax hD => ?_⟩
  obtain ⟨h1, h2⟩ := calls_two hg he hd0 simplifyObc hexp hH hh U (S.calls strategy normalize Dmax) (by
    intro c hcm
    obtain ⟨a1, a2, a3⟩ := hc normalize Dmax hD c hcm
    obtain ⟨k, k1, -, k3, k4⟩ := hfit c.which a3
    have hmem : S.layers.getD c.which (0, 0) ∈ S.layers := by
      rw [List.getD_eq_getElem _ _ a3]; exact List.getElem_mem a3
    have him := (hl _ hmem).2
    refine ⟨a1, a2, k, k1, ((dt : ℂ) * (S.layers.getD c.which (0, 0)).2).re, ?_, k4⟩
    have hre : ((((dt : ℂ) * (S.layers.getD c.which (0, 0)).2).re : ℝ) : ℂ) = (dt : ℂ) * (S.layers.getD c.which (0, 0)).2 := by
      generalize (S.layers.getD c.which (0, 0)).2 = w at him
      exact Complex.ext (by simp) (by simp [him])
    rw [hre]
    exact k3) (⟨P, 0, 0⟩, sense) hP
  refine ⟨_, _, by unfold oneStep; rw [if_neg (by rintro ⟨h, -⟩; omega)], h1, ?_⟩
  have hne : ∀ Q : List (Tensor ℂ), WF 1 Q [2, 2] 1 → IsMPS [2, 2] Q := fun Q hQ =>
    ⟨by intro hh; have := hQ.length; rw [hh] at this; simp at this, 1, hQ⟩
  rw [norm2_spec (hne _ h1), norm2_spec (hne _ hP)]
  congr 1
  rw [inner_self_ofReal, inner_self_ofReal] at h2
  exact_mod_cast h2

/-- **C119** is violated by the strategies which simplify after each layer (the default) or each group of layers, and by
`Trotter2Solver` without truncation: for every Hermitian Hamiltonian of two qubits, every real time step and every state, one step
with the flag returns a state with the norm of the initial state. -/
theorem C119_violated {svd : Tensor ℂ → SvdRes ℂ} (hg : GoodSvd svd) {eps : ℝ} (he0 : 0 < eps) (he : eps < 1) {dflt : ℝ} (hd0 : 0 < dflt) :
    FlagIgnored svd eps dflt (trotter2 eps) .eachLayer ∧ FlagIgnored svd eps dflt (trotter2 eps) .groups ∧
    FlagIgnored svd eps dflt (trotter2 eps) .doNotTruncate ∧ FlagIgnored svd eps dflt (trotter3 eps) .eachLayer ∧
    FlagIgnored svd eps dflt (trotter3 eps) .groups ∧ FlagIgnored svd eps dflt forestRuth .groups := by
  refine ⟨?_, ?_, ?_, ?_, ?_, ?_⟩ <;> refine flagIgnored_of hg he hd0 _ _ ?_ fun n D hD => ?_
  · simp [trotter2]
  · simp [trotter2, defaultTol, he0, he0.ne', hD]
  · simp [trotter2]
  · simp [trotter2, defaultTol, he0, he0.ne', hD]
  · simp [trotter2]
  · simp [trotter2, defaultTol, he0, he0.ne', hD]
  · simp [trotter3]
  · simp [trotter3, defaultTol, he0, he0.ne', hD]
  · simp [trotter3]
  · simp [trotter3, defaultTol, he0, he0.ne', hD]
  · intro l hl'
    simp only [forestRuth, List.mem_cons, List.not_mem_nil, or_false] at hl'
    rcases hl' with rfl | rfl | rfl | rfl <;> simp [frParam]
    all_goals norm_num [Complex.ext_iff]
  · simp [forestRuth, defaultTol, hD]

/-- twice the Bell pair, canonical with respect to the second site -/
noncomputable def bellPair : List (Tensor ℂ) :=
  [⟨[1, 2, 2], fun i => if i.getD 1 0 = i.getD 2 0 then 1 else 0⟩, ⟨[2, 2, 1], fun i => if i.getD 0 0 = i.getD 1 0 then 2 else 0⟩]

theorem bellPair_norm : norm2 bellPair = Real.sqrt 8 := by
  have hw : WF 1 bellPair [2, 2] 1 :=
    WF.cons rfl Nat.one_pos (by decide) Nat.two_pos (WF.cons rfl Nat.two_pos (by decide) Nat.one_pos (WF.nil 1))
  rw [norm2_spec ⟨by simp [bellPair], 1, hw⟩]
  congr 1
  have e : ∀ a b : Nat, a < 2 → b < 2 → amp bellPair [a, b] = if a = b then 2 else 0 := by
    intro a b ha hb
    rw [amp_of_WF hw (by simp [bellPair])]
    simp only [bellPair, path, Finset.sum_range_succ, Finset.sum_range_zero, Tensor.dim, Tensor.get]
    interval_cases a <;> interval_cases b <;> simp
  simp only [sumCfg, Finset.sum_range_succ, Finset.sum_range_zero]
  rw [e 0 0 (by omega) (by omega), e 0 1 (by omega) (by omega), e 1 0 (by omega) (by omega), e 1 1 (by omega) (by omega)]
  norm_num

/-- the hypotheses of C118 are met by an entangled state which is not normalised, and by the default tolerance -/
theorem C118_example : CanonicalAt [2, 2] bellPair 1 ∧ BondsUpTo 2 bellPair ∧ (2 : ℝ) * max ((2 : ℝ)⁻¹ ^ 52) ((2 : ℝ)⁻¹ ^ 52) < 1 ∧
    norm2 bellPair ≠ 0 ∧ norm2 bellPair ≠ 1 := by
  refine ⟨⟨WF.cons rfl Nat.one_pos (by decide) Nat.two_pos (WF.cons rfl Nat.two_pos (by decide) Nat.one_pos (WF.nil 1)), ?_, ?_⟩, ?_, ?_, ?_, ?_⟩
  · intro j hj x x' hx hx'
    have : j = 0 := by omega
    subst this
    have h1 : x < 2 := by simpa [bellPair, site, Tensor.dim] using hx
    have h2 : x' < 2 := by simpa [bellPair, site, Tensor.dim] using hx'
    interval_cases x <;> interval_cases x' <;> simp [bellPair, site, Tensor.dim, Tensor.get, Finset.sum_range_succ]
  · intro j h1 h2
    simp at h2; omega
  · intro A hA
    simp only [bellPair, List.mem_cons, List.not_mem_nil, or_false] at hA
    rcases hA with rfl | rfl <;> simp [Tensor.dim]
  · norm_num
  · rw [bellPair_norm]; positivity
  · rw [bellPair_norm]
    intro h
    have := Real.sq_sqrt (show (0 : ℝ) ≤ 8 by norm_num)
    rw [h] at this; norm_num at this

/-- a Hermitian Hamiltonian of two qubits with an interaction and local terms -/
noncomputable def pairHam : Ham ℂ where
  size := 2
  dim _ := 2
  loc _ := ⟨[2, 2], fun i => if i.getD 0 0 = i.getD 1 0 then i.getD 0 0 else 0⟩
  inter _ := ⟨[4, 4], fun _ => 1⟩
  depth _ := 0
  left _ _ := Tensor.empty
  right _ _ := Tensor.empty
  periodic := false

theorem pairHam_fits : HamFits pairHam [2, 2] := by
  refine ⟨rfl, fun p hp => ?_, fun p hp => ?_, fun p hp => ?_⟩
  all_goals (simp at hp; try interval_cases p) <;> simp_all [pairHam]

theorem pairHam_hermitian : HamHermitian pairHam [2, 2] := by
  refine ⟨fun p hp x y hx hy => ?_, fun p hp x y hx hy => ?_⟩
  · simp only [pairHam]
    by_cases h : x = y
    · subst h; simp
    · simp [h, Ne.symm h]
  · simp [pairHam]

/-- **C119_violated** on a concrete run: with the default strategy and the flag `normalize`, `Trotter2Solver` maps the state `bellPair` to one
of norm `√8` -/
theorem C119_default_example {svd : Tensor ℂ → SvdRes ℂ} (hg : GoodSvd svd) {eps : ℝ} (he0 : 0 < eps) (he : eps < 1) {dflt : ℝ} (hd0 : 0 < dflt)
    (single : Bool) (tolerance dt : ℝ) :
    ∃ U y sense', (trotter2 eps).unitaries matrixExp pairHam dt = some U ∧
      oneStep svd eps dflt (obcCall svd eps dflt single tolerance) (trotter2 eps) U .eachLayer true 0 bellPair 2 = some (y, sense') ∧
      norm2 y.P ≠ 1 := by
  obtain ⟨U, hU, h⟩ := (C119_violated hg he0 he hd0).1 (obcCall svd eps dflt single tolerance) matrixExp exists_goodExpm pairHam pairHam_fits
    pairHam_hermitian dt
  obtain ⟨y, s, h1, -, h3⟩ := h bellPair C118_example.1.wf true 0 2 (le_refl 2)
  exact ⟨U, y, s, hU, h1, by rw [h3]; exact C118_example.2.2.2.2⟩

/-- the hypotheses of `C119_each_unitary_partial` on a concrete run -/
example {svd : Tensor ℂ → SvdRes ℂ} (hg : GoodSvd svd) (single : Bool) (tolerance : ℝ) :
    ∃ U x y sense', (trotter2 (1 / 8)).unitaries matrixExp exHam 1 = some U ∧
      oneStep svd (1 / 8) (1 / 8) (obcCall svd (1 / 8) (1 / 8) single tolerance) (trotter2 (1 / 8)) U .eachUnitary false 0 exState 3 = some (x, sense') ∧
      oneStep svd (1 / 8) (1 / 8) (obcCall svd (1 / 8) (1 / 8) single tolerance) (trotter2 (1 / 8)) U .eachUnitary true 0 exState 3 = some (y, sense') ∧
      (norm2 x.P ≠ 0 → norm2 y.P = 1) := by
  obtain ⟨U, hU, h⟩ := (C119_each_unitary_partial hg (eps := 1 / 8) (by norm_num) (dflt := 1 / 8) (by norm_num)).1 single tolerance matrixExp exists_goodExpm.1
    exHam [2, 3, 2] ⟨rfl, fun _ _ => rfl, fun _ _ => rfl, fun _ _ => rfl⟩ (by simp) 1
  obtain ⟨x, y, s, h1, h2, -, -, -, -, h5⟩ := h exState exState_wf 0 3 (by norm_num) (by norm_num)
  exact ⟨U, x, y, s, hU, h1, h2, fun hn => (h5 hn).1⟩

end MPS.Props
