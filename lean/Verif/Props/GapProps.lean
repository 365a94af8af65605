import Verif.GapModel
import Verif.Props.MinimizerProps2

/-!
# C141: the option `compute_gap` of `minimize`
-/

set_option linter.unusedSectionVars false
set_option linter.unusedSimpArgs false

namespace MPS.Props
open MPS Tensor Form Minim
variable {K : Type} [RCLike K]

/-- whatever `a` returns, `b` returns too, and the two are the same if `T` holds -/
def Agree {α : Type} (T : Prop) (a b : Option α) : Prop := (∀ r, a = some r → b = some r) ∧ (T → a = b)

theorem Agree.refl {α : Type} (T : Prop) (a : Option α) : Agree T a a := ⟨fun _ h => h, fun _ => rfl⟩

theorem Agree.trans {α : Type} {T : Prop} {a b c : Option α} (h : Agree T a b) (h' : Agree T b c) : Agree T a c :=
  ⟨fun r hr => h'.1 r (h.1 r hr), fun t => (h.2 t).trans (h'.2 t)⟩

theorem Agree.bind {α β : Type} {T : Prop} {a b : Option α} {f g : α → Option β} (h : Agree T a b) (hf : ∀ r, b = some r → Agree T (f r) (g r)) :
    Agree T (a.bind f) (b.bind g) := by
  constructor
  · intro r hr
    obtain ⟨x, x1, x2⟩ := Option.bind_eq_some_iff.1 hr
    have hb := h.1 x x1
    rw [hb, Option.bind_some]
    exact (hf x hb).1 r x2
  · intro t
    rw [h.2 t]
    cases hb : b with
    | none => rfl
    | some x => exact (hf x hb).2 t

theorem Agree.map {α β : Type} {T : Prop} {a b : Option α} (f : α → β) (h : Agree T a b) : Agree T (a.map f) (b.map f) := by
  rw [Option.map_eq_bind, Option.map_eq_bind]
  exact h.bind fun r _ => Agree.refl T _

/-- the additional call of `eigs` always returns -/
def Returns (eigs2 : Eigs2 K) : Prop := ∀ A n P, ∃ ok, eigs2 A n P = some ok

theorem agree_call {eigs2 : Eigs2 K} {c : Prop} [Decidable c] {A : Tensor K → Tensor K} {n : Nat} {P : Tensor K} {x : Bool} {β : Type} {f : Bool → Option β}
    (h : ∀ ok, eigs2 A n P = some ok → f ok = f x) :
    Agree (Returns eigs2) ((if c then eigs2 A n P else some x).bind f) (f x) := by
  by_cases hc : c
  · rw [if_pos hc]
    cases he : eigs2 A n P with
    | none =>
      refine ⟨fun r hr => absurd hr (by simp), fun t => ?_⟩
      obtain ⟨ok, hok⟩ := t A n P
      rw [he] at hok
      exact absurd hok (by simp)
    | some ok =>
      rw [Option.bind_some, h ok he]
      exact Agree.refl _ _
  · rw [if_neg hc]
    exact Agree.refl _ _

section
variable (svd : Tensor K → SvdRes K) (eps dflt : ℝ) (eigs : Eigs K) (eigs2 : Eigs2 K) (gap : Bool) (o : Opts)

theorem agree_single_step (hc : ∀ A n P ok A' n' P', eigs2 A n P = some ok → ok = (eigs A' n' P').ok) (m : Minz K) :
    Agree (Returns eigs2) (singleSiteStepG svd eps dflt eigs eigs2 gap m) (singleSiteStep svd eps dflt eigs m) := by
  unfold singleSiteStepG singleSiteStep
  refine (Agree.refl _ _).bind fun vs _ => ?_
  simp only
  by_cases h1 : (m.H.applyOneSite (site m.psi m.site)).isEmpty = true
  · rw [if_pos h1, if_pos h1]
    exact Agree.refl _ _
  · rw [if_neg h1, if_neg h1]
    refine agree_call (eigs2 := eigs2) ?_
    intro ok h
    rw [hc _ _ _ ok _ _ _ h]

theorem agree_two_solve (m : Minz K) (hc : m.N = none ∨ ∀ A n P ok A' n' P', eigs2 A n P = some ok → ok = (eigs A' n' P').ok)
    (vs : List (Tensor K)) (P12 : Tensor K) :
    Agree (Returns eigs2) (twoSiteSolveG eigs eigs2 gap m vs P12) (twoSiteSolve eigs m vs P12) := by
  unfold twoSiteSolveG twoSiteSolve
  simp only
  refine Agree.trans (agree_call (eigs2 := eigs2) (x := true) (fun ok _ => rfl)) ?_
  rcases hN : m.N with _ | ⟨N, v⟩
  · exact Agree.refl _ _
  · simp only
    rw [Option.map_eq_bind]
    refine (Agree.refl _ _).bind fun aux _ => ?_
    simp only [Function.comp_apply]
    by_cases h1 : (subspaceOf aux v).length = 0
    · rw [if_pos h1, if_pos h1]
      exact Agree.refl _ _
    · rw [if_neg h1, if_neg h1]
      rcases hc with hc | hc
      · exact absurd (hN.symm.trans hc) (by simp)
      · refine agree_call (eigs2 := eigs2) (f := fun ok => some (some (_, _, ok))) ?_
        intro ok h
        rw [hc _ _ _ ok _ _ _ h]

theorem agree_two_step (m : Minz K) (hc : m.N = none ∨ ∀ A n P ok A' n' P', eigs2 A n P = some ok → ok = (eigs A' n' P').ok) :
    Agree (Returns eigs2) (twoSiteStepG svd eps dflt eigs eigs2 gap o m) (twoSiteStep svd eps dflt eigs o m) := by
  unfold twoSiteStepG twoSiteStep
  refine (Agree.refl _ _).bind fun vs _ => ?_
  split_ifs with h1 h2 <;> first
    | exact Agree.refl _ _
    | exact (agree_two_solve eigs eigs2 gap m hc vs _).bind fun s _ => Agree.refl _ _

theorem two_step_bare {m : Minz K} (hN : m.N = none) {r : Minz K × ℝ} (h : twoSiteStep svd eps dflt eigs o m = some r) : r.1.N = none := by
  unfold twoSiteStep at h
  obtain ⟨vs, -, h⟩ := Option.bind_eq_some_iff.1 h
  split_ifs at h <;>
  · obtain ⟨s, -, h⟩ := Option.bind_eq_some_iff.1 h
    rcases s with _ | ⟨P, E, ok⟩
    · simp only [Option.some.injEq] at h
      rw [← h]
      exact hN
    · simp only at h
      split_ifs at h
      · obtain ⟨c, -, rfl⟩ := Option.map_eq_some_iff.1 h
        simp [propagate, hN]
      · simp only [Option.some.injEq] at h
        rw [← h]
        simp [propagate, hN]

theorem agree_single_right (hc : ∀ A n P ok A' n' P', eigs2 A n P = some ok → ok = (eigs A' n' P').ok) (fuel k : Nat) (m : Minz K) (E : ℝ) :
    Agree (Returns eigs2) (singleRightG svd eps dflt eigs eigs2 gap fuel k m E) (singleRight svd eps dflt eigs fuel k m E) := by
  induction fuel generalizing k m E with
  | zero => exact Agree.refl _ _
  | succ fuel ih =>
    rw [singleRightG, singleRight]
    split_ifs
    · exact (agree_single_step svd eps dflt eigs eigs2 gap hc _).bind fun r _ => ih _ _ _
    · exact Agree.refl _ _

theorem agree_single_left (hc : ∀ A n P ok A' n' P', eigs2 A n P = some ok → ok = (eigs A' n' P').ok) (k : Nat) (m : Minz K) (E : ℝ) :
    Agree (Returns eigs2) (singleLeftG svd eps dflt eigs eigs2 gap k m E) (singleLeft svd eps dflt eigs k m E) := by
  induction k generalizing m E with
  | zero => exact Agree.refl _ _
  | succ k ih =>
    rw [singleLeftG, singleLeft]
    split_ifs
    · exact (agree_single_step svd eps dflt eigs eigs2 gap hc _).bind fun r _ => ih _ _
    · exact Agree.refl _ _

theorem agree_two_right {C : Prop} (hc : C → ∀ A n P ok A' n' P', eigs2 A n P = some ok → ok = (eigs A' n' P').ok) (fuel k : Nat) (m : Minz K) (E : ℝ)
    (hm : m.N = none ∨ C) :
    Agree (Returns eigs2) (twoRightG svd eps dflt eigs eigs2 gap o fuel k m E) (twoRight svd eps dflt eigs o fuel k m E) := by
  induction fuel generalizing k m E with
  | zero => exact Agree.refl _ _
  | succ fuel ih =>
    rw [twoRightG, twoRight]
    split_ifs
    · exact (agree_two_step svd eps dflt eigs eigs2 gap o { m with site := k } (hm.imp id hc)).bind fun r hr =>
        ih _ _ _ (hm.imp (fun h => two_step_bare svd eps dflt eigs o (m := { m with site := k }) h hr) id)
    · exact Agree.refl _ _

theorem agree_two_left {C : Prop} (hc : C → ∀ A n P ok A' n' P', eigs2 A n P = some ok → ok = (eigs A' n' P').ok) (k : Nat) (m : Minz K) (E : ℝ)
    (hm : m.N = none ∨ C) :
    Agree (Returns eigs2) (twoLeftG svd eps dflt eigs eigs2 gap o k m E) (twoLeft svd eps dflt eigs o k m E) := by
  induction k generalizing m E with
  | zero => exact Agree.refl _ _
  | succ k ih =>
    rw [twoLeftG, twoLeft]
    split_ifs
    · exact (agree_two_step svd eps dflt eigs eigs2 gap o { m with site := k + 1 } (hm.imp id hc)).bind fun r hr =>
        ih _ _ (hm.imp (fun h => two_step_bare svd eps dflt eigs o (m := { m with site := k + 1 }) h hr) id)
    · exact Agree.refl _ _

theorem two_right_bare (fuel k : Nat) {m : Minz K} (E : ℝ) (hN : m.N = none) {r : Minz K × ℝ}
    (h : twoRight svd eps dflt eigs o fuel k m E = some r) : r.1.N = none := by
  induction fuel generalizing k m E with
  | zero => rw [twoRight] at h; rw [← Option.some.inj h]; exact hN
  | succ fuel ih =>
    rw [twoRight] at h
    split_ifs at h
    · obtain ⟨x, hx, h⟩ := Option.bind_eq_some_iff.1 h
      exact ih _ _ (two_step_bare svd eps dflt eigs o (m := { m with site := k }) hN hx) h
    · rw [← Option.some.inj h]; exact hN

theorem two_left_bare (k : Nat) {m : Minz K} (E : ℝ) (hN : m.N = none) {r : Minz K × ℝ}
    (h : twoLeft svd eps dflt eigs o k m E = some r) : r.1.N = none := by
  induction k generalizing m E with
  | zero => rw [twoLeft] at h; rw [← Option.some.inj h]; exact hN
  | succ k ih =>
    rw [twoLeft] at h
    split_ifs at h
    · obtain ⟨x, hx, h⟩ := Option.bind_eq_some_iff.1 h
      exact ih _ (two_step_bare svd eps dflt eigs o (m := { m with site := k + 1 }) hN hx) h
    · rw [← Option.some.inj h]; exact hN

theorem agree_single_sweep (hc : ∀ A n P ok A' n' P', eigs2 A n P = some ok → ok = (eigs A' n' P').ok) (m : Minz K) :
    Agree (Returns eigs2) (singleSweepG svd eps dflt eigs eigs2 gap m) (singleSweep svd eps dflt eigs m) := by
  unfold singleSweepG singleSweep
  refine Agree.map _ ?_
  by_cases h : m.step > 0
  · rw [if_pos h, if_pos h]; exact agree_single_right svd eps dflt eigs eigs2 gap hc _ _ _ _
  · rw [if_neg h, if_neg h]; exact agree_single_left svd eps dflt eigs eigs2 gap hc _ _ _

theorem agree_two_sweep {C : Prop} (hc : C → ∀ A n P ok A' n' P', eigs2 A n P = some ok → ok = (eigs A' n' P').ok) (m : Minz K) (hm : m.N = none ∨ C) :
    Agree (Returns eigs2) (twoSweepG svd eps dflt eigs eigs2 gap o m) (twoSweep svd eps dflt eigs o m) := by
  unfold twoSweepG twoSweep
  by_cases h0 : m.psi.length < 2
  · rw [if_pos h0, if_pos h0]; exact Agree.refl _ _
  rw [if_neg h0, if_neg h0]
  refine Agree.map _ ?_
  by_cases h : m.step > 0
  · rw [if_pos h, if_pos h]; exact agree_two_right svd eps dflt eigs eigs2 gap o hc _ _ _ _ hm
  · rw [if_neg h, if_neg h]; exact agree_two_left svd eps dflt eigs eigs2 gap o hc _ _ _ hm

theorem two_sweep_bare {m : Minz K} (hN : m.N = none) {r : Minz K × ℝ} (h : twoSweep svd eps dflt eigs o m = some r) : r.1.N = none := by
  unfold twoSweep at h
  split_ifs at h <;>
  · obtain ⟨x, hx, rfl⟩ := Option.map_eq_some_iff.1 h
    show x.1.N = none
    first
    | exact two_right_bare svd eps dflt eigs o _ _ _ hN hx
    | exact two_left_bare svd eps dflt eigs o _ _ hN hx

theorem agree_loop {T : Prop} {f g : Minz K → Option (Minz K × ℝ)} (I : Minz K → Prop) (hfg : ∀ m, I m → Agree T (f m) (g m))
    (hI : ∀ m r, I m → g m = some r → I r.1) (fuel i : Nat) (failures : Int) (E : ℝ) (m : Minz K) (es : List ℝ) (hm : I m) :
    Agree T (sweepLoop f o fuel i failures E m es) (sweepLoop g o fuel i failures E m es) := by
  induction fuel generalizing i failures E m es with
  | zero => exact Agree.refl _ _
  | succ fuel ih =>
    rw [sweepLoop, sweepLoop]
    refine (hfg m hm).bind fun r hr => ?_
    have := hI m r hm hr
    simp only
    split_ifs <;> first
      | exact Agree.refl _ _
      | exact ih _ _ _ _ _ this

theorem agree_full {C : Prop} (hc : C → ∀ A n P ok A' n' P', eigs2 A n P = some ok → ok = (eigs A' n' P').ok) (m : Minz K) (hm : (0 < o.Dmax ∧ m.N = none) ∨ C) :
    Agree (Returns eigs2) (fullSweepG svd eps dflt eigs eigs2 gap o m) (fullSweep svd eps dflt eigs o m) := by
  unfold fullSweepG fullSweep
  by_cases hD : o.Dmax = 0
  · rw [if_pos hD, if_pos hD]
    exact agree_loop o (fun _ => True) (fun m _ => agree_single_sweep svd eps dflt eigs eigs2 gap (hc (hm.resolve_left (by omega))) m)
      (fun _ _ _ _ => trivial) _ _ _ _ _ _ trivial
  · rw [if_neg hD, if_neg hD]
    refine agree_loop o (fun m => m.N = none ∨ C) (fun m h => agree_two_sweep svd eps dflt eigs eigs2 gap o hc m h)
      (fun m r h hr => h.imp (fun h => two_sweep_bare svd eps dflt eigs o h hr) id) _ _ _ _ _ _ (hm.imp And.right id)
end

/-- **C141.**  Without constraint, the two-site algorithm (`opt.Dmax > 0`) with `opt.compute_gap = true` returns what it returns with `false`: whenever it
returns, and always if the additional calls of the solver do. -/
theorem C141_two_site (svd : Tensor K → SvdRes K) (eps dflt : ℝ) (eigs : Eigs K) (eigs2 : Eigs2 K) (H ψ : List (Tensor K)) (o : Opts) (hD : 0 < o.Dmax) :
    (∀ out, minimizeG svd eps dflt eigs eigs2 true H ψ o = some out → minimize svd eps dflt eigs H ψ o = some out) ∧
    ((∀ A n P, ∃ ok, eigs2 A n P = some ok) → minimizeG svd eps dflt eigs eigs2 true H ψ o = minimize svd eps dflt eigs H ψ o) := by
  refine Agree.bind (T := Returns eigs2) (Agree.refl _ _) fun m hm => ?_
  refine agree_full svd eps dflt eigs eigs2 true o (C := False) (fun h => h.elim) m (Or.inl ⟨hD, ?_⟩)
  unfold Minz.new at hm
  obtain ⟨f, -, rfl⟩ := Option.map_eq_some_iff.1 hm
  rfl

/-- **C141** for all algorithms, with or without constraint and orthogonal states, if the solver converges in all its calls. -/
theorem C141_converging_partial (svd : Tensor K → SvdRes K) (eps dflt : ℝ) (eigs : Eigs K) (eigs2 : Eigs2 K) (H ψ : List (Tensor K)) (o : Opts)
    (h1 : ∀ A n P, (eigs A n P).ok = true) (h2 : ∀ A n P, eigs2 A n P ≠ some false) :
    ((∀ out, minimizeG svd eps dflt eigs eigs2 true H ψ o = some out → minimize svd eps dflt eigs H ψ o = some out) ∧
      ((∀ A n P, ∃ ok, eigs2 A n P = some ok) → minimizeG svd eps dflt eigs eigs2 true H ψ o = minimize svd eps dflt eigs H ψ o)) ∧
    ∀ (constraint : List (Tensor K)) (value : K) (other : List (List (Tensor K))),
      (∀ out, minimizeConstrainedG svd eps dflt eigs eigs2 true H ψ o constraint value other = some out →
        minimizeConstrained svd eps dflt eigs H ψ o constraint value other = some out) ∧
      ((∀ A n P, ∃ ok, eigs2 A n P = some ok) → minimizeConstrainedG svd eps dflt eigs eigs2 true H ψ o constraint value other =
        minimizeConstrained svd eps dflt eigs H ψ o constraint value other) := by
  have hc : True → ∀ A n P ok A' n' P', eigs2 A n P = some ok → ok = (eigs A' n' P').ok := by
    intro _ A n P ok A' n' P' h
    rw [h1]
    cases ok with
    | true => rfl
    | false => exact absurd h (h2 A n P)
  refine ⟨Agree.bind (T := Returns eigs2) (Agree.refl _ _) fun m _ => agree_full svd eps dflt eigs eigs2 true o hc m (Or.inr trivial), fun constraint value other => ?_⟩
  exact Agree.bind (T := Returns eigs2) (Agree.refl _ _) fun m _ => Agree.bind (Agree.refl _ _) fun N _ => agree_full svd eps dflt eigs eigs2 true o hc _ (Or.inr trivial)

/-- the option set to `false`: nothing but the functions of `MinimizerModel.lean` -/
theorem single_step_off (svd : Tensor K → SvdRes K) (eps dflt : ℝ) (eigs : Eigs K) (eigs2 : Eigs2 K) (m : Minz K) {gap : Bool}
    (h : m.site ≠ m.psi.length / 2 ∨ gap = false) : singleSiteStepG svd eps dflt eigs eigs2 gap m = singleSiteStep svd eps dflt eigs m := by
  have hn : ¬ (m.site = m.psi.length / 2 ∧ gap = true) := by
    rintro ⟨h1, h2⟩
    rcases h with h | h
    · exact h h1
    · rw [h2] at h; exact absurd h (by simp)
  unfold singleSiteStepG singleSiteStep
  simp only [if_neg hn]
  rfl

theorem single_step_length (svd : Tensor K → SvdRes K) (eps dflt : ℝ) (eigs : Eigs K) {m : Minz K} {r : Minz K × ℝ}
    (h : singleSiteStep svd eps dflt eigs m = some r) : r.1.psi.length = m.psi.length := by
  unfold singleSiteStep at h
  obtain ⟨vs, -, h⟩ := Option.bind_eq_some_iff.1 h
  simp only at h
  split_ifs at h
  · rw [← Option.some.inj h]; simp [propagate, setCanonical_length]
  · rw [← Option.some.inj h]

/-- the first sweep ends at the site in the middle if the additional call does not converge there -/
theorem right_stops (svd : Tensor K → SvdRes K) (eps dflt : ℝ) (eigs : Eigs K) {eigs2 : Eigs2 K} (h2 : ∀ A n P, eigs2 A n P = some false)
    (fuel k : Nat) (m : Minz K) (E : ℝ) (hk : k ≤ m.psi.length / 2) (hf : m.psi.length / 2 < k + fuel)
    (h : (singleRight svd eps dflt eigs fuel k m E).isSome) :
    ∃ r, singleRightG svd eps dflt eigs eigs2 true fuel k m E = some r ∧ r.1.converged = false := by
  induction fuel generalizing k m E with
  | zero => omega
  | succ fuel ih =>
    rw [singleRight] at h
    rw [singleRightG]
    by_cases hm : m.converged = true
    · rw [if_pos hm] at h ⊢
      cases hs : singleSiteStep svd eps dflt eigs { m with site := k } with
      | none => rw [hs] at h; exact absurd h (by simp)
      | some r =>
        rw [hs, Option.bind_some] at h
        by_cases hmid : k = m.psi.length / 2
        · unfold singleSiteStep at hs
          unfold singleSiteStepG
          obtain ⟨vs, hv, hs⟩ := Option.bind_eq_some_iff.1 hs
          rw [hv]
          simp only [Option.bind_some] at hs ⊢
          by_cases h1 : (m.H.applyOneSite (site m.psi k)).isEmpty = true
          · rw [if_pos h1] at hs; exact absurd hs (by simp)
          · rw [if_neg h1, if_pos ⟨hmid, trivial⟩, h2, Option.bind_some, if_neg (by simp), Option.bind_some]
            cases fuel <;> rw [singleRightG] <;> simp
        · have e := single_step_off svd eps dflt eigs eigs2 { m with site := k } (gap := true) (Or.inl hmid)
          have l := single_step_length svd eps dflt eigs hs
          simp only at l
          rw [e, hs, Option.bind_some]
          exact ih (k + 1) r.1 r.2 (by omega) (by omega) h
    · rw [if_neg hm] at h ⊢
      exact ⟨_, rfl, by simpa using hm⟩

/-- **C141** is violated by the single-site algorithm (`opt.Dmax = 0`): if the additional call of the solver does not converge, the empty state is
returned, although the calls which compute the state converge and `minimize` returns a state with the option off (`C77_single_site`). -/
theorem C141_lost_violated {svd : Tensor K → SvdRes K} (hg : GoodSvd svd) (eps dflt : ℝ) {eigs : Eigs K} (he : GoodEigs eigs)
    (hsol : ∀ A n P, (eigs A n P).ok = true) {eigs2 : Eigs2 K} (h2 : ∀ A n P, eigs2 A n P = some false)
    {ds : List Nat} {H ψ : List (Tensor K)} (hH : WFO 1 H ds 1) (hherm : Hermitian ds H) (hdef : NonZero ds H) (hw : WF 1 ψ ds 1)
    (hd : 0 < ds.length) (ht : TolOk dflt ds ψ) (o : Opts) (hD : o.Dmax = 0) (hs : 0 < o.sweeps) :
    (∃ out, minimizeG svd eps dflt eigs eigs2 true H ψ o = some out ∧ out.psi = []) ∧
    ∃ out, minimize svd eps dflt eigs H ψ o = some out ∧ WF 1 out.psi ds 1 ∧ normSq ds out.psi = 1 := by
  constructor
  swap
  · obtain ⟨out, h1, h2⟩ := C77_returns hg eps dflt he hsol hH hherm hdef hw hd ht o hD
    obtain ⟨c1, c2, -⟩ := C77_single_site hg eps dflt he hH hherm hw hd ht o hD hs h1 h2
    exact ⟨out, h1, c1, c2⟩
  have hd0 : 0 ≤ dflt := by rcases ht with h | h; exact h.le; exact h.1.ge
  obtain ⟨m, m1, m2, m3, m4, m5, m6, m7, m8⟩ := new_spec hg eps dflt hH hw hd ht
  have hlen := m2.wf.length
  obtain ⟨m'', E, r1, r2⟩ := single_sweep_runs hg eps hd0 he hsol hH hherm hdef (by rw [m5]; simpa [endOf] using m2) m3 m6
  have hst : m.step > 0 := by rw [m5]; decide
  unfold singleSweep at r1
  obtain ⟨x, x1, -⟩ := Option.map_eq_some_iff.1 r1
  rw [if_pos hst] at x1
  obtain ⟨r, g1, g2⟩ := right_stops svd eps dflt eigs h2 m.psi.length 0 m 0 (by omega) (by omega) (by rw [x1]; rfl)
  have hsw : singleSweepG svd eps dflt eigs eigs2 true m = some ({ r.1 with step := -1 }, r.2) := by
    unfold singleSweepG
    rw [if_pos hst, g1, if_pos hst]
    rfl
  obtain ⟨n, hn⟩ : ∃ n, o.sweeps = n + 1 := ⟨o.sweeps - 1, by omega⟩
  unfold minimizeG
  rw [m1, Option.bind_some]
  unfold fullSweepG
  rw [if_pos hD, hn, sweepLoop, hsw, Option.bind_some]
  simp [g2]

/-- **C141** is violated in the other direction, too: on a chain of one site, when the solver does not converge `minimize` returns the empty state; but if
the additional call for the gap converges, the flag of the first call is overwritten, and the vector the solver gave up with is returned as the state. -/
theorem C141_masked_violated {svd : Tensor K → SvdRes K} (hg : GoodSvd svd) (eps dflt : ℝ) {eigs : Eigs K}
    (hsol : ∀ A n P, (eigs A n P).ok = false) {eigs2 : Eigs2 K} (h2 : ∀ A n P, eigs2 A n P = some true)
    {d : Nat} {H ψ : List (Tensor K)} (hH : WFO 1 H [d] 1) (hdef : NonZero [d] H) (hw : WF 1 ψ [d] 1)
    (ht : TolOk dflt [d] ψ) (o : Opts) (hD : o.Dmax = 0) (hs : o.sweeps = 1) :
    (∃ out, minimize svd eps dflt eigs H ψ o = some out ∧ out.psi = []) ∧
    ∃ out A P, minimizeG svd eps dflt eigs eigs2 true H ψ o = some out ∧ out.psi = [reshape (eigs A d P).P [1, d, 1]] ∧
      out.E = RCLike.re (eigs A d P).E := by
  obtain ⟨m, m1, m2, m3, m4, m5, m6, m7, m8⟩ := new_spec hg eps dflt hH hw (by simp) ht
  have hlen := m2.wf.length
  simp only [List.length_singleton] at hlen
  have hne := single_nonempty m2.wf hH hdef m2.lt m2.q
  have hst : m.step > 0 := by rw [m5]; decide
  obtain ⟨T, hT⟩ : ∃ T, m.psi = [T] := List.length_eq_one_iff.1 hlen
  have hTd : T.dims = [1, d, 1] := by
    have := m2.wf
    rw [hT] at this
    cases this with
    | cons h1 _ _ _ h => cases h; exact h1
  have hsite : site m.psi 0 = T := by rw [hT]; rfl
  have hsz : T.size = d := by simp [Tensor.size, hTd]
  rw [hsite] at hne
  constructor
  · have hstep : singleSiteStep svd eps dflt eigs { m with site := 0 } = some ({ m with site := 0, converged := false },
        RCLike.re (eigs (applyQform1 [1, d, 1] m.H []) d (reshape T [d])).E) := by
      unfold singleSiteStep
      rw [projectors_nil (m := { m with site := 0 }) m3, Option.bind_some]
      simp only [hsite, hne, hsol, hsz, hTd, if_false, Bool.false_eq_true]
    have hsw : singleSweep svd eps dflt eigs m = some ({ m with site := 0, converged := false, step := -1 },
        RCLike.re (eigs (applyQform1 [1, d, 1] m.H []) d (reshape T [d])).E) := by
      unfold singleSweep
      rw [if_pos hst, if_pos hst, hlen, singleRight, if_pos m6, hstep, Option.bind_some, singleRight]
      rfl
    unfold minimize
    rw [m1, Option.bind_some]
    unfold fullSweep
    rw [if_pos hD, hs, sweepLoop, hsw, Option.bind_some]
    simp
  · set r := eigs (applyQform1 [1, d, 1] m.H []) d (reshape T [d]) with hr
    set x : Minz K := propagate { m with site := 0, psi := [reshape r.P [1, d, 1]], converged := true, lost := 0 } with hx
    have hset : setCanonical svd eps dflt m.psi 0 (reshape r.P [1, d, 1]) m.step false = ([reshape r.P [1, d, 1]], 0) := by
      unfold setCanonical
      rw [if_pos hst, if_pos (by rw [hlen]), hT]
      rfl
    have hstep : singleSiteStepG svd eps dflt eigs eigs2 true { m with site := 0 } = some (x, RCLike.re r.E) := by
      unfold singleSiteStepG
      rw [projectors_nil (m := { m with site := 0 }) m3, Option.bind_some]
      simp only [hsite, hne, hsz, hTd, if_false, Bool.false_eq_true, hlen]
      rw [if_pos (by simp), h2, Option.bind_some, if_pos rfl, ← hr, hset]
    have hsw : singleSweepG svd eps dflt eigs eigs2 true m = some ({ x with step := -1 }, RCLike.re r.E) := by
      unfold singleSweepG
      rw [if_pos hst, if_pos hst, hlen, singleRightG, if_pos m6, hstep, Option.bind_some, singleRightG]
      rfl
    refine ⟨⟨RCLike.re r.E, [reshape r.P [1, d, 1]], [RCLike.re r.E], 0, true⟩, applyQform1 [1, d, 1] m.H [], reshape T [d], ?_, rfl, rfl⟩
    unfold minimizeG
    rw [m1, Option.bind_some]
    unfold fullSweepG
    rw [if_pos hD, hs, sweepLoop, hsw, Option.bind_some]
    simp [hx, propagate, sweepLoop]

/-- The hypotheses of `C141_lost_violated` are met by the chain of `C77_example`. -/
theorem C141_lost_example {svd : Tensor ℝ → SvdRes ℝ} (hg : GoodSvd svd) (eps dflt : ℝ) (hdflt : 0 < dflt) {eigs : Eigs ℝ} (he : GoodEigs eigs)
    (hsol : ∀ A n P, (eigs A n P).ok = true) (o : Opts) (hD : o.Dmax = 0) (hs : 0 < o.sweeps) :
    (∃ out, minimizeG svd eps dflt eigs (fun _ _ _ => some false) true bellH zeroState o = some out ∧ out.psi = []) ∧
    ∃ out, minimize svd eps dflt eigs bellH zeroState o = some out ∧ WF 1 out.psi [2, 2] 1 ∧ normSq [2, 2] out.psi = 1 :=
  C141_lost_violated hg eps dflt he hsol (fun _ _ _ => rfl) bellH_wf bellH_hermitian bellH_nonzero zeroState_wf (by simp) (Or.inl hdflt) o hD hs

/-- The hypotheses of `C141_two_site` and its conclusion, on the chain of `C77_example`: the same state with the option on and off. -/
theorem C141_two_site_example {svd : Tensor ℝ → SvdRes ℝ} (hg : GoodSvd svd) (eps dflt : ℝ) (hdflt : 0 < dflt) {eigs : Eigs ℝ} (he : GoodEigs eigs)
    (hsol : ∀ A n P, (eigs A n P).ok = true) (o : Opts) (hD : 0 < o.Dmax) (b : Bool) :
    ∃ out, minimizeG svd eps dflt eigs (fun _ _ _ => some b) true bellH zeroState o = some out ∧ out.converged = true ∧
      minimize svd eps dflt eigs bellH zeroState o = some out := by
  obtain ⟨out, h1, h2⟩ := C78_returns hg eps dflt he hsol bellH_wf bellH_hermitian bellH_nonzero zeroState_wf (by simp) (Or.inl hdflt) o hD
  exact ⟨out, ((C141_two_site svd eps dflt eigs _ bellH zeroState o hD).2 fun _ _ _ => ⟨b, rfl⟩).trans h1, h2, h1⟩

/-- The hypotheses of `C141_masked_violated` are met by one qubit with the identity as Hamiltonian. -/
theorem C141_masked_example {svd : Tensor ℝ → SvdRes ℝ} (hg : GoodSvd svd) (eps dflt : ℝ) (hdflt : 0 < dflt) (v : Tensor ℝ) (o : Opts)
    (hD : o.Dmax = 0) (hs : o.sweeps = 1) :
    let H : List (Tensor ℝ) := [⟨[1, 2, 2, 1], fun I => if I.getD 1 0 = I.getD 2 0 then 1 else 0⟩]
    let ψ : List (Tensor ℝ) := [⟨[1, 2, 1], fun I => if I.getD 1 0 = 0 then 1 else 0⟩]
    (∃ out, minimize svd eps dflt (fun _ _ _ => ⟨7, v, false, []⟩) H ψ o = some out ∧ out.psi = []) ∧
    ∃ out, minimizeG svd eps dflt (fun _ _ _ => ⟨7, v, false, []⟩) (fun _ _ _ => some true) true H ψ o = some out ∧
      out.psi = [reshape v [1, 2, 1]] ∧ out.E = 7 := by
  intro H ψ
  have hH : WFO 1 H [2] 1 := .cons rfl (by omega) (by omega) (by omega) (.nil 1)
  have hw : WF 1 ψ [2] 1 := .cons rfl (by omega) (by omega) (by omega) (.nil 1)
  have hdef : NonZero [2] H := ⟨[0], [0], by simp [IsCfg], by simp [IsCfg], by
    rw [opElt_of_WFO hH (by simp [H])]; simp [H, opPath, dim]⟩
  obtain ⟨h1, out, A, P, h2, h3, h4⟩ := C141_masked_violated hg eps dflt (eigs := fun _ _ _ => ⟨7, v, false, []⟩) (fun _ _ _ => rfl)
    (eigs2 := fun _ _ _ => some true) (fun _ _ _ => rfl) hH hdef hw (Or.inl hdflt) o hD hs
  exact ⟨h1, out, h2, h3, h4⟩

end MPS.Props
