import Verif.Props.ObcProps2

/-!
# C82: one step of a Trotter solver respects the maximal bond dimension
-/

set_option linter.unusedSectionVars false

namespace MPS.Props
open MPS Tensor Form Minim Obc Trotter
variable {K : Type} [RCLike K]

theorem canonLoopLeft_bonds {svd : Tensor K → SvdRes K} (hg : GoodSvd svd) (eps : ℝ) {dflt : ℝ} (hd0 : 0 < dflt) {a b : Nat}
    {ds : List Nat} {ψ : List (Tensor K)} (h : StartOk dflt a ds ψ) (k : Nat) : ∀ (i : Nat) (x : List (Tensor K) × ℝ),
    Carried dflt a b ds ψ x → i < x.1.length →
    ∀ j, (site (canonLoopLeft svd eps dflt k i x).1 j).dim 2 ≤ (site x.1 j).dim 2 := by
  intro i
  induction i with
  | zero => intro x _ _ j; exact le_rfl
  | succ i ih =>
    intro x hx hi j
    unfold canonLoopLeft
    by_cases hk : i + 1 > k
    · rw [if_pos hk]
      have hb := setCanonical_bonds hg eps hd0 hx.wf (i + 1) hi (-1) j
      have h1 := (hx.left hg eps h i hi).1
      have hlen := setCanonical_length svd eps dflt x.1 (i + 1) (site x.1 (i + 1)) (-1) true
      exact (ih (_, _) h1 (by simp only [hlen]; omega) j).trans hb
    · rw [if_neg hk]

theorem canonLoopRight_bonds {svd : Tensor K → SvdRes K} (hg : GoodSvd svd) (eps : ℝ) {dflt : ℝ} (hd0 : 0 < dflt) {a b : Nat}
    {ds : List Nat} {ψ : List (Tensor K)} (h : StartOk dflt a ds ψ) : ∀ (n i : Nat) (x : List (Tensor K) × ℝ),
    Carried dflt a b ds ψ x → i + n < x.1.length →
    ∀ j, (site (canonLoopRight svd eps dflt n i x).1 j).dim 2 ≤ (site x.1 j).dim 2 := by
  intro n
  induction n with
  | zero => intro i x _ _ j; exact le_rfl
  | succ n ih =>
    intro i x hx hi j
    unfold canonLoopRight
    have hb := setCanonical_bonds hg eps hd0 hx.wf i (by omega) 1 j
    have h1 := (hx.right hg eps h i (by omega)).1
    have hlen := setCanonical_length svd eps dflt x.1 i (site x.1 i) 1 true
    exact (ih (i + 1) (_, _) h1 (by simp only [hlen]; omega) j).trans hb

/-- canonical and normal forms never increase a bond dimension -/
theorem eitherForm_bonds {svd : Tensor K → SvdRes K} (hg : GoodSvd svd) (eps : ℝ) {dflt : ℝ} (hd0 : 0 < dflt)
    {ds : List Nat} {ψ : List (Tensor K)} (hw : WF 1 ψ ds 1) (hne : ψ ≠ []) (k : Nat) (hk : k < ψ.length) (normalize : Bool) :
    WF 1 (eitherForm svd eps dflt ψ k normalize).1 ds 1 ∧
      ∀ j, (site (eitherForm svd eps dflt ψ k normalize).1 j).dim 2 ≤ (site ψ j).dim 2 := by
  have h : StartOk dflt 1 ds ψ := TolOk.start hw hne (Or.inl hd0)
  have h0 : Carried dflt 1 1 ds ψ (ψ, 0) := ⟨hw, le_refl _, fun _ _ _ _ _ _ => rfl, fun _ => rfl⟩
  obtain ⟨a1, a2, a3⟩ := canonLoopLeft_spec hg eps h k (ψ.length - 1) (ψ, 0) h0 (by show ψ.length - 1 < ψ.length; omega)
    (fun j hj hj2 => by have hj2 : j < ψ.length := hj2; omega)
  have hL := canonLoopLeft_bonds hg eps hd0 h k (ψ.length - 1) (ψ, 0) h0 (by show ψ.length - 1 < ψ.length; omega)
  obtain ⟨c1, c2, -, -⟩ := eitherForm_spec hg eps hw h k hk
  set x := canonLoopLeft svd eps dflt k (ψ.length - 1) (ψ, 0) with hx
  have a2 : x.1.length = ψ.length := a2
  have hR := canonLoopRight_bonds hg eps hd0 h k 0 x a1 (by omega)
  have e : eitherForm svd eps dflt ψ k false = canonLoopRight svd eps dflt k 0 x := by
    simp only [eitherForm, ← hx]; rfl
  have e' : eitherForm svd eps dflt ψ k normalize = if normalize then ((eitherForm svd eps dflt ψ k false).1.set k
      (smul ((1 / frob (site (eitherForm svd eps dflt ψ k false).1 k) : ℝ) : K) (site (eitherForm svd eps dflt ψ k false).1 k)),
      (eitherForm svd eps dflt ψ k false).2) else eitherForm svd eps dflt ψ k false := by
    rw [e]; simp only [eitherForm, ← hx]
  have hb : ∀ j, (site (eitherForm svd eps dflt ψ k false).1 j).dim 2 ≤ (site ψ j).dim 2 := fun j => by
    rw [e]; exact (hR j).trans (hL j)
  set z := eitherForm svd eps dflt ψ k false with hz
  clear_value z
  rw [e']
  have c2 : z.1.length = ψ.length := c2
  cases normalize with
  | false => exact ⟨c1.wf, hb⟩
  | true =>
    have hkd : k < ds.length := by rw [← c1.wf.length]; omega
    have hkz : k < z.1.length := by omega
    simp only [if_true]
    constructor
    · obtain ⟨p, q, k1, k2, k3, k4, k5, k6⟩ := WF.around c1.wf hkd
      exact WF.replace hkd c1.wf.length k1 k3 (by exact k2) k4 k5 k6
    · intro j
      rw [site_set _ _ _ _ hkz]
      split
      · next hj => subst hj; exact hb j
      · exact hb j

/-- one application of a layer with maximal dimension: the bonds acted upon are within the limit and no bond grows above it -/
theorem apply_bonds {svd : Tensor ℂ → SvdRes ℂ} (hg : GoodSvd svd) (eps : ℝ) {dflt : ℝ} (hd0 : 0 < dflt)
    {ds : List Nat} (hN : 0 < ds.length) {k : Nat} {W : Unitary} (hf : Fits W ds k) (x : Evo) (hx : WF 1 x.P ds 1) (sense : Int) (tol : ℝ)
    (htol : tol < 0 ∨ 0 < tol) (Dmax : Nat) (normalize : Bool) :
    let y := apply svd eps dflt W x sense tol Dmax normalize
    WF 1 y.1.P ds 1 ∧ (0 < Dmax → (∀ j, (site y.1.P j).dim 2 ≤ max ((site x.P j).dim 2) Dmax) ∧
      ∀ p, PairAt ds.length k p → (site y.1.P p).dim 2 ≤ Dmax) := by
  have ht : 0 < effTol dflt tol := by
    unfold effTol; rcases htol with h | h
    · rw [if_pos h]; exact hd0
    · rw [if_neg (by linarith)]; exact h
  obtain ⟨S, hS, hr⟩ := sweep_spec hg eps hd0 hf x hx hN (if sense = 0 then 1 else sense) tol ht Dmax
  intro y
  have hy : y = _ := apply_eq svd eps dflt W x sense tol Dmax normalize
  simp only at hy
  set z := sweep svd eps dflt W x (if sense = 0 then 1 else sense) tol Dmax with hz
  clear_value z
  have hzl := hr.wf.length
  have hzn : z.P ≠ [] := by intro h; rw [h] at hzl; simp at hzl; omega
  have hnf := eitherForm_bonds hg eps hd0 hr.wf hzn (if (if sense = 0 then 1 else sense) < 0 then 0 else z.P.length - 1)
    (by split_ifs <;> omega) true
  have key : WF 1 y.1.P ds 1 ∧ ∀ j, (site y.1.P j).dim 2 ≤ (site z.P j).dim 2 := by
    rw [hy]
    cases normalize with
    | false => exact ⟨hr.wf, fun _ => le_rfl⟩
    | true => exact hnf
  refine ⟨key.1, fun hD => ?_⟩
  obtain ⟨b1, b2⟩ := hr.bonds hD
  exact ⟨fun j => (key.2 j).trans (b1 j), fun p hp => (key.2 p).trans (b2 p hp (hS p (by have := hp.2; omega) (Or.inl hp)))⟩

/-- the bonds of the parity `k` -/
def BondsOf (ds : List Nat) (k D : Nat) (P : List (Tensor ℂ)) : Prop := ∀ p, PairAt ds.length k p → (site P p).dim 2 ≤ D

/-- one call of `one_step` -/
theorem runCall_bonds {svd : Tensor ℂ → SvdRes ℂ} (hg : GoodSvd svd) (eps : ℝ) {dflt : ℝ} (hd0 : 0 < dflt) (single : Bool) (tolerance : ℝ)
    {expm : Tensor ℂ → Tensor ℂ} (hexp : ∀ A n, A.dims = [n, n] → (expm A).dims = [n, n])
    {H : Ham ℂ} {ds : List Nat} (hH : HamFits H ds) (hN : 2 ≤ ds.length) (U : List Unitary) (x : Evo × Int) (hx : WF 1 x.1.P ds 1)
    (c : Call) (k : Nat) (hk : k ≤ 1) (dt : ℂ) (hW : mkUnitary expm H k dt = some (U.getD c.which ⟨0, 0, []⟩))
    (htol : c.tol < 0 ∨ 0 < c.tol) (hc : c.simplify = true → 0 < c.D) :
    let y := runCall svd eps dflt (obcCall svd eps dflt single tolerance) U x c
    WF 1 y.1.P ds 1 ∧ (c.simplify = true → ∀ k', BondsOf ds k' c.D y.1.P) ∧
      (0 < c.D → BondsOf ds k c.D y.1.P ∧ ∀ k', BondsOf ds k' c.D x.1.P → BondsOf ds k' c.D y.1.P) := by
  intro y
  obtain ⟨W', e', hf, -⟩ := mkUnitary_fits hexp hH k hk dt
  rw [hW] at e'
  cases e'
  cases hs : c.simplify with
  | true =>
    obtain ⟨z, φ, e, h1, -, -, -, -, h2, h3, -⟩ := C81_apply_and_simplify hg eps hd0 hexp hH hN k hk dt hW x.1 hx c.tol htol (hc hs)
      c.normalize single tolerance
    have hy : y.1.P = z.P := by
      show (runCall svd eps dflt (obcCall svd eps dflt single tolerance) U x c).1.P = _
      unfold runCall
      simp only [hs, if_true, h1]
    rw [hy]
    have : ∀ k', BondsOf ds k' c.D z.P := fun k' p hp => h3 p hp.2
    exact ⟨h2, fun _ => this, fun _ => ⟨this k, fun k' _ => this k'⟩⟩
  | false =>
    obtain ⟨h1, h2⟩ := apply_bonds hg eps hd0 (by omega) hf x.1 hx x.2 c.tol htol c.D c.normalize
    have hy : y.1.P = (apply svd eps dflt (U.getD c.which ⟨0, 0, []⟩) x.1 x.2 c.tol c.D c.normalize).1.P := by
      show (runCall svd eps dflt (obcCall svd eps dflt single tolerance) U x c).1.P = _
      unfold runCall
      simp [hs]
    rw [hy]
    refine ⟨h1, fun h => by simp at h, fun hD => ?_⟩
    obtain ⟨b1, b2⟩ := h2 hD
    exact ⟨b2, fun k' hb p hp => (b1 p).trans (max_le (hb p hp) le_rfl)⟩

/-- the calls are of layers the solver has -/
theorem runCalls_bonds {svd : Tensor ℂ → SvdRes ℂ} (hg : GoodSvd svd) (eps : ℝ) {dflt : ℝ} (hd0 : 0 < dflt) (single : Bool) (tolerance : ℝ)
    {expm : Tensor ℂ → Tensor ℂ} (hexp : ∀ A n, A.dims = [n, n] → (expm A).dims = [n, n])
    {H : Ham ℂ} {ds : List Nat} (hH : HamFits H ds) (hN : 2 ≤ ds.length) (U : List Unitary) (dt : Nat → ℂ) (par : Nat → Nat)
    (hpar : ∀ i, par i ≤ 1) (cs : List Call)
    (hcs : ∀ c ∈ cs, mkUnitary expm H (par c.which) (dt c.which) = some (U.getD c.which ⟨0, 0, []⟩) ∧ (c.tol < 0 ∨ 0 < c.tol) ∧
      (c.simplify = true → 0 < c.D)) : ∀ (x : Evo × Int), WF 1 x.1.P ds 1 →
    WF 1 (cs.foldl (runCall svd eps dflt (obcCall svd eps dflt single tolerance) U) x).1.P ds 1 := by
  induction cs with
  | nil => intro x hx; exact hx
  | cons c cs ih =>
    intro x hx
    obtain ⟨c1, c2, c3⟩ := hcs c (by simp)
    exact ih (fun c h => hcs c (by simp [h])) _ (runCall_bonds hg eps hd0 single tolerance hexp hH hN U x hx c _ (hpar _) _ c1 c2 c3).1

/-- What C82 says of a solver and a strategy: after `one_step(&P, Dmax)` of an open chain `P`, all bonds are at most `Dmax`. -/
def StepBounded (svd : Tensor ℂ → SvdRes ℂ) (eps dflt : ℝ) (S : Solver) (strategy : Strategy) : Prop :=
  ∀ (single : Bool) (tolerance : ℝ) (expm : Tensor ℂ → Tensor ℂ), (∀ A n, A.dims = [n, n] → (expm A).dims = [n, n]) →
  ∀ (H : Ham ℂ) (ds : List Nat), HamFits H ds → 2 ≤ ds.length → ∀ (dt : ℂ),
  ∃ U, S.unitaries expm H dt = some U ∧
  ∀ (P : List (Tensor ℂ)), WF 1 P ds 1 → ∀ (normalize : Bool) (sense : Int) (Dmax : Nat), 0 < Dmax →
  ∃ y sense', oneStep svd eps dflt (obcCall svd eps dflt single tolerance) S U strategy normalize sense P Dmax = some (y, sense') ∧
    WF 1 y.P ds 1 ∧ ∀ j, j + 1 < ds.length → (site y.P j).dim 2 ≤ Dmax

theorem stepBounded_of {svd : Tensor ℂ → SvdRes ℂ} (hg : GoodSvd svd) (eps : ℝ) {dflt : ℝ} (hd0 : 0 < dflt) (S : Solver)
    (strategy : Strategy) (hl : ∀ l ∈ S.layers, l.1 = 0 ∨ l.1 = 1)
    (hc : ∀ normalize Dmax, 0 < Dmax → ∀ c ∈ S.calls strategy normalize Dmax, (c.tol < 0 ∨ 0 < c.tol) ∧ c.which < S.layers.length ∧
      (c.simplify = true → 0 < c.D))
    (hend : ∀ normalize Dmax, ∃ init p q, S.calls strategy normalize Dmax = init ++ [p, q] ∧ q.D = Dmax ∧
      (q.simplify = true ∨ (p.D = Dmax ∧ (S.layers.getD p.which (0, 0)).1 + (S.layers.getD q.which (0, 0)).1 = 1))) :
    StepBounded svd eps dflt S strategy := by
  intro single tolerance expm hexp H ds hH hN dt
  have hm : ∀ l ∈ S.layers, ∃ W, mkUnitary expm H l.1 (dt * l.2) = some W := by
    intro l hl'
    have : ∃ k : Nat, k ≤ 1 ∧ l.1 = k := by
      rcases hl l hl' with h | h
      · exact ⟨0, by omega, by simpa using h⟩
      · exact ⟨1, by omega, by simpa using h⟩
    obtain ⟨k, hk, e⟩ := this
    obtain ⟨W, hW, -⟩ := mkUnitary_fits hexp hH k hk (dt * l.2)
    exact ⟨W, by rw [e]; exact hW⟩
  have hU : ∀ ll : List (Int × ℂ), (∀ l ∈ ll, ∃ W, mkUnitary expm H l.1 (dt * l.2) = some W) →
      ∃ U, ll.mapM (fun l => mkUnitary expm H l.1 (dt * l.2)) = some U ∧ ∀ i, i < ll.length →
        mkUnitary expm H (ll.getD i (0, 0)).1 (dt * (ll.getD i (0, 0)).2) = some (U.getD i ⟨0, 0, []⟩) := by
    intro ll
    induction ll with
    | nil => intro _; exact ⟨[], rfl, fun i hi => by simp at hi⟩
    | cons l ll ih =>
      intro h
      obtain ⟨W, hW⟩ := h l (by simp)
      obtain ⟨U, u1, u2⟩ := ih fun l hl => h l (by simp [hl])
      refine ⟨W :: U, by simp [List.mapM_cons, hW, u1], fun i hi => ?_⟩
      cases i with
      | zero => simpa using hW
      | succ i => simpa using u2 i (by simpa using hi)
  obtain ⟨U, u1, u2⟩ := hU S.layers hm
  refine ⟨U, u1, fun P hP normalize sense Dmax hD => ?_⟩
  set par : Nat → Nat := fun i => (S.layers.getD i (0, 0)).1.toNat with hp
  have hpar : ∀ i, ((par i : Nat) : Int) = (S.layers.getD i (0, 0)).1 ∧ par i ≤ 1 := by
    intro i
    have h6 : (S.layers.getD i (0, 0)).1 = 0 ∨ (S.layers.getD i (0, 0)).1 = 1 := by
      by_cases h : i < S.layers.length
      · refine hl _ ?_
        rw [List.getD_eq_getElem _ _ h]; exact List.getElem_mem h
      · left; rw [List.getD_eq_default _ _ (by omega)]
    rw [hp]
    simp only
    omega
  have hcs : ∀ c ∈ S.calls strategy normalize Dmax, mkUnitary expm H (par c.which) (dt * (S.layers.getD c.which (0, 0)).2) =
      some (U.getD c.which ⟨0, 0, []⟩) ∧ (c.tol < 0 ∨ 0 < c.tol) ∧ (c.simplify = true → 0 < c.D) := by
    intro c hcm
    obtain ⟨h1, h2, h3⟩ := hc normalize Dmax hD c hcm
    refine ⟨?_, h1, h3⟩
    rw [(hpar _).1]; exact u2 _ h2
  obtain ⟨init, p, q, e1, e2, e3⟩ := hend normalize Dmax
  rw [e1] at hcs
  have w0 := runCalls_bonds hg eps hd0 single tolerance hexp hH hN U (fun i => dt * (S.layers.getD i (0, 0)).2) par (fun i => (hpar i).2)
    init (fun c h => hcs c (by simp [h])) (⟨P, 0, 0⟩, sense) hP
  unfold oneStep
  rw [if_neg (by rintro ⟨h, -⟩; omega), e1, List.foldl_append]
  set z := init.foldl (runCall svd eps dflt (obcCall svd eps dflt single tolerance) U) (⟨P, 0, 0⟩, sense) with hz
  clear_value z
  obtain ⟨p1, p2, p3⟩ := hcs p (by simp)
  obtain ⟨q1, q2, q3⟩ := hcs q (by simp)
  obtain ⟨a1, a2, a3⟩ := runCall_bonds hg eps hd0 single tolerance hexp hH hN U z w0 p _ (hpar _).2 _ p1 p2 p3
  obtain ⟨b1, b2, b3⟩ := runCall_bonds hg eps hd0 single tolerance hexp hH hN U _ a1 q _ (hpar _).2 _ q1 q2 q3
  refine ⟨_, _, rfl, b1, fun j hj => ?_⟩
  have hjp : PairAt ds.length (j % 2) j := ⟨rfl, hj⟩
  simp only [List.foldl_cons, List.foldl_nil]
  rw [e2] at b2 b3
  rcases e3 with h | ⟨h1, h2⟩
  · exact b2 h _ j hjp
  · obtain ⟨c1, c2⟩ := b3 hD
    rw [h1] at a3
    obtain ⟨d1, -⟩ := a3 hD
    rw [← (hpar p.which).1, ← (hpar q.which).1] at h2
    have := (hpar p.which).2
    have := (hpar q.which).2
    by_cases hq : j % 2 = par q.which
    · exact c1 j (by rw [← hq]; exact hjp)
    · have : j % 2 = par p.which := by omega
      exact c2 _ d1 j (by rw [← this]; exact hjp)

/-- **C82**: one step of `Trotter2Solver` -/
theorem C82_trotter2 {svd : Tensor ℂ → SvdRes ℂ} (hg : GoodSvd svd) {eps : ℝ} (he : 0 < eps) {dflt : ℝ} (hd0 : 0 < dflt)
    (strategy : Strategy) (hs : strategy ≠ .doNotTruncate) : StepBounded svd eps dflt (trotter2 eps) strategy := by
  refine stepBounded_of hg eps hd0 _ _ (by simp [trotter2]) ?_ ?_
  · intro n D hD
    cases strategy <;> simp [trotter2, defaultTol, he, he.ne', hD]
  · intro n D
    cases strategy with
    | doNotTruncate => exact absurd rfl hs
    | groups => exact ⟨[], _, _, rfl, rfl, Or.inl rfl⟩
    | eachLayer => exact ⟨[], _, _, rfl, rfl, Or.inl rfl⟩
    | eachUnitary => exact ⟨[], _, _, rfl, rfl, Or.inr ⟨rfl, by simp [trotter2]⟩⟩

/-- **C82**: one step of `Trotter3Solver` -/
theorem C82_trotter3 {svd : Tensor ℂ → SvdRes ℂ} (hg : GoodSvd svd) {eps : ℝ} (he : 0 < eps) {dflt : ℝ} (hd0 : 0 < dflt)
    (strategy : Strategy) (hs : strategy ≠ .doNotTruncate) : StepBounded svd eps dflt (trotter3 eps) strategy := by
  refine stepBounded_of hg eps hd0 _ _ (by simp [trotter3]) ?_ ?_
  · intro n D hD
    cases strategy <;> simp [trotter3, defaultTol, he, he.ne', hD]
  · intro n D
    cases strategy with
    | doNotTruncate => exact absurd rfl hs
    | groups => exact ⟨[_], _, _, rfl, rfl, Or.inl rfl⟩
    | eachLayer => exact ⟨[_], _, _, rfl, rfl, Or.inl rfl⟩
    | eachUnitary => exact ⟨[_], _, _, rfl, rfl, Or.inr ⟨rfl, by simp [trotter3]⟩⟩

/-- **C82**: one step of `ForestRuthSolver`, whose strategy "each layer" ends with two layers without maximal dimension -/
theorem C82_forest_ruth {svd : Tensor ℂ → SvdRes ℂ} (hg : GoodSvd svd) {eps : ℝ} {dflt : ℝ} (hd0 : 0 < dflt)
    (strategy : Strategy) (hs : strategy ≠ .doNotTruncate) (hs' : strategy ≠ .eachLayer) : StepBounded svd eps dflt forestRuth strategy := by
  refine stepBounded_of hg eps hd0 _ _ (by simp [forestRuth]) ?_ ?_
  · intro n D hD
    cases strategy <;> simp_all [forestRuth, defaultTol]
  · intro n D
    cases strategy with
    | doNotTruncate => exact absurd rfl hs
    | eachLayer => exact absurd rfl hs'
    | groups => exact ⟨[_, _, _, _, _], _, _, rfl, rfl, Or.inl rfl⟩
    | eachUnitary => exact ⟨[_, _, _, _, _], _, _, rfl, rfl, Or.inr ⟨rfl, by simp [forestRuth]⟩⟩

/-- the hypotheses are met: `exHam`, a product state, the matrix exponential -/
example (svd : Tensor ℂ → SvdRes ℂ) (hg : GoodSvd svd) (tolerance : ℝ) :
    ∃ U y s, (trotter2 1).unitaries matrixExp exHam 1 = some U ∧
      oneStep svd 1 1 (obcCall svd 1 1 true tolerance) (trotter2 1) U .eachUnitary true 0 exState 1 = some (y, s) ∧
      WF 1 y.P [2, 3, 2] 1 ∧ ∀ j, j + 1 < 3 → (site y.P j).dim 2 ≤ 1 := by
  obtain ⟨U, hU, h⟩ := C82_trotter2 hg one_pos one_pos .eachUnitary (by decide) true tolerance matrixExp exists_goodExpm.1
    exHam [2, 3, 2] ⟨rfl, fun _ _ => rfl, fun _ _ => rfl, fun _ _ => rfl⟩ (by simp) 1
  obtain ⟨y, s, h1, h2, h3⟩ := h exState exState_wf true 0 1 one_pos
  exact ⟨U, y, s, hU, h1, h2, h3⟩

end MPS.Props
