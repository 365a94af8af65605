import Verif.DmrgManyLemmas3
import Verif.ManyEigsExists
import Verif.Props.DmrgProps

/-!
# C123: several eigenvalues from single-site DMRG (the members `neigenvalues` and `eigenvalues`)
-/

set_option linter.unusedSectionVars false
set_option linter.unusedSimpArgs false

namespace MPS.Props
open MPS Tensor Form Minim Dmrg
variable {K : Type} [RCLike K]

/-- **C123.**  `solver.neigenvalues = n; solver.minimize(&P)`.  The member `eigenvalues` has `max(1, n)` entries in ascending order, the first is
the number returned.  They are the energies of as many orthonormal states, without matrix elements of `H` between them, which differ only in the
tensor of one site; the first of them is the state returned up to the weight dropped in the last step.  Entry `j` is never below the `j`-th lowest
eigenvalue of `H`: it is not below any number which bounds the energies of all the states orthogonal to some `j` states. -/
theorem C123_eigenvalues {svd : Tensor K → SvdRes K} (hg : GoodSvd svd) (eps : ℝ) {dflt : ℝ} (hd0 : 0 < dflt) {eigs : ManyEigs K} (he : GoodManyEigs eigs)
    (neigenvalues : Int) (solve : Solve K) {ds : List Nat} {H : Ham K} (hH : HamOk ds H) (P0 : List (List (Tensor K))) {P : List (Tensor K)}
    (hw : WF 1 P ds 1) (o : Dmrg.Opts) (hs : 0 < o.sweeps) (E0 : ℝ) {out : Dmrg.Out K}
    (h : minimizeMany svd eps dflt eigs neigenvalues solve o H P0 P 0 E0 = some out) :
    let vals := out.last.vals
    let m := (max 1 neigenvalues).toNat
    vals.length = m ∧ vals.getD 0 0 = out.E ∧ (∀ p q, p ≤ q → q < m → vals.getD p 0 ≤ vals.getD q 0) ∧
    (∃ φ : Nat → List (Tensor K), (∀ p < m, WF 1 (φ p) ds 1) ∧ (∃ k < ds.length, ∀ p q, p < m → q < m → ∃ X, φ q = (φ p).set k X) ∧
      (∀ p q, p < m → q < m → MPS.inner ds (amp (φ p)) (amp (φ q)) = if p = q then 1 else 0) ∧
      (∀ p q, p < m → q < m → MPS.inner ds (amp (φ p)) (actOp ds (hamElt ds H) (amp (φ q))) = if p = q then ((vals.getD p 0 : ℝ) : K) else 0) ∧
      distSq ds (φ 0) out.P = out.last.lost) ∧
    ∀ j < m, ∀ (χ : Nat → List Nat → K) (e : ℝ), LowerBound ds H j χ e → e ≤ vals.getD j 0 := by
  intro vals m
  have h2 := hH.two
  have hgood := firstOf_good he neigenvalues
  unfold minimizeMany Dmrg.minimize at h
  rw [if_neg (by rw [hH.size, hH.opened]; simp; omega)] at h
  split_ifs at h with hl
  obtain ⟨s1, -⟩ := start_spec hg eps hd0 hH P0 hw
  set d0 := start svd eps dflt H P0 P with hd
  have sp := Dmrg.loop_core (iter := iteration svd eps dflt (firstOf eigs neigenvalues) solve o.svdTolerance H P0 0) (E0 := E0) (d0 := d0)
    (fun es d r hr hi => by
      obtain ⟨c1, -⟩ := single_run hg eps hd0 hgood solve o.svdTolerance hH P0 s1 hr
      obtain ⟨d', E, e1, -⟩ := single_iteration hg eps hd0 hgood solve o.svdTolerance hH P0 c1 hi
      exact ⟨d', E, e1⟩)
    o.sweeps 0 0 E0 d0 [] (by simp) rfl rfl Run.nil (fun j hj => by simp at hj) h
  have hne : out.energies ≠ [] := by
    intro hh
    obtain ⟨es, E, E', h1, -⟩ := sp.stop (by rw [hh]; exact hs)
    rw [hh] at h1
    simp at h1
  have hlast : out.energies.getLast hne = out.E := by
    rw [sp.energy, List.getLastD_eq_getLast?, List.getLast?_eq_some_getLast hne]; rfl
  have key : ∀ es dl, Run (iteration svd eps dflt (firstOf eigs neigenvalues) solve o.svdTolerance H P0 0) d0 es dl → (hn : es ≠ []) →
      ∃ d1 k1 dk, Cent ds H d1 k1 ∧ singleSite svd eps dflt (firstOf eigs neigenvalues) H P0 d1 k1 dk = some (dl, es.getLast hn) := by
    intro es dl hr hn
    cases hr with
    | nil => exact absurd rfl hn
    | @snoc es' d' d'' E hr hi =>
      obtain ⟨c1, -⟩ := single_run hg eps hd0 hgood solve o.svdTolerance hH P0 s1 hr
      obtain ⟨d1, k1, dk, a1, -, a2⟩ := last_iteration hg eps hd0 hgood solve o.svdTolerance hH P0 c1 hi
      exact ⟨d1, k1, dk, a1, by simpa using a2⟩
  obtain ⟨d1, k1, dk, a1, a2⟩ := key _ _ sp.ran hne
  rw [hlast] at a2
  obtain ⟨b1, b2, φ, b3, b4⟩ := step_many hg eps hd0 he neigenvalues hH P0 a1 a2
  refine ⟨b1, b2, fun p q hpq hq => b3.le hpq hq, ⟨φ, b3.wf, b3.same, b3.orth, b3.diag, by rw [sp.same]; exact b4⟩, fun j hj χ e hb => ?_⟩
  exact ritz_upper (f := fun p => amp (φ p)) (v := fun p => vals.getD p 0) b3.orth b3.diag (fun p q hpq hq => b3.le hpq hq) hj hb

/-- **C123**: asking for more eigenvalues is the same, for the state and the energy, as using a solver for the lowest eigenvalue, so that all of C97 holds. -/
theorem C123_state (svd : Tensor K → SvdRes K) (eps dflt : ℝ) {eigs : ManyEigs K} (he : GoodManyEigs eigs)
    (neigenvalues : Int) (solve : Solve K) (H : Ham K) (P0 : List (List (Tensor K))) (P : List (Tensor K)) (o : Dmrg.Opts) (E0 : ℝ) :
    ∃ eigs' : Eigs K, GoodEigs eigs' ∧
      minimizeMany svd eps dflt eigs neigenvalues solve o H P0 P 0 E0 = Dmrg.minimize svd eps dflt eigs' solve o H P0 P 0 E0 :=
  ⟨_, firstOf_good he neigenvalues, rfl⟩

/-- **C123**: with a solver that finds `m` eigenvalues whenever the space has at least `m` dimensions, single-site DMRG returns if no site has fewer
states than eigenvalues are wanted. -/
theorem C123_returns {svd : Tensor K → SvdRes K} (hg : GoodSvd svd) (eps : ℝ) {dflt : ℝ} (hd0 : 0 < dflt) {eigs : ManyEigs K} (he : GoodManyEigs eigs)
    (hsu : ∀ A n m P, m ≤ n → (eigs A n m P).ok = true) {neigenvalues : Int} (solve : Solve K) {ds : List Nat} {H : Ham K} (hH : HamOk ds H)
    (hm : ∀ d ∈ ds, max 1 neigenvalues ≤ d) (P0 : List (List (Tensor K))) {P : List (Tensor K)} (hw : WF 1 P ds 1) (o : Dmrg.Opts) (E0 : ℝ) :
    ∃ out, minimizeMany svd eps dflt eigs neigenvalues solve o H P0 P 0 E0 = some out := by
  have h2 := hH.two
  have hgood := firstOf_good he neigenvalues
  have hm' : ∀ d ∈ ds, neig neigenvalues ≤ d := fun d hd => by have := hm d hd; unfold neig; omega
  unfold minimizeMany Dmrg.minimize
  rw [if_neg (by rw [hH.size, hH.opened]; simp; omega), if_neg (by
    rw [List.any_eq_true]
    rintro ⟨k, hk, hh⟩
    rw [loc_nonempty hH (by rw [← hH.size]; simpa using hk)] at hh
    exact absurd hh (by simp))]
  obtain ⟨s1, -⟩ := start_spec hg eps hd0 hH P0 hw
  refine Dmrg.loop_returns (d0 := start svd eps dflt H P0 P) (fun es d hr => ?_) o.sweeps 0 0 E0 _ [] rfl Run.nil
  obtain ⟨c1, -⟩ := single_run hg eps hd0 hgood solve o.svdTolerance hH P0 s1 hr
  obtain ⟨r, hi⟩ := iteration_returns hg eps hd0 he hsu hm' solve o.svdTolerance hH P0 (fun j hj => loc_nonempty hH hj) c1
  obtain ⟨d', E, e1, -⟩ := single_iteration hg eps hd0 hgood solve o.svdTolerance hH P0 c1 hi
  exact ⟨d', E, by rw [hi, e1]⟩

/-- C123 is not vacuous: two eigenvalues of the two-site Ising chain -/
example : ∃ (svd : Tensor ℂ → SvdRes ℂ) (eigs : ManyEigs ℂ), GoodSvd svd ∧ GoodManyEigs eigs ∧ ∀ (solve : Solve ℂ) (eps dflt E0 : ℝ), 0 < dflt →
    ∃ out, minimizeMany svd eps dflt eigs 2 solve ⟨1, 1e-6, 1e-8, 0⟩ twoIsing [] twoZero 0 E0 = some out ∧
      ∃ e0 e1, out.last.vals = [e0, e1] ∧ e0 ≤ e1 ∧ e0 = out.E := by
  obtain ⟨svd, hg⟩ := exists_goodSvd (K := ℂ)
  obtain ⟨eigs, he, hok⟩ := exists_goodManyEigs (K := ℂ)
  refine ⟨svd, eigs, hg, he, fun solve eps dflt E0 hd => ?_⟩
  obtain ⟨out, h⟩ := C123_returns hg eps hd he hok (neigenvalues := 2) solve twoIsing_ok (by simp) [] twoZero_wf ⟨1, 1e-6, 1e-8, 0⟩ E0
  obtain ⟨c1, c2, c3, -⟩ := C123_eigenvalues hg eps hd he 2 solve twoIsing_ok [] twoZero_wf ⟨1, 1e-6, 1e-8, 0⟩ (by simp) E0 h
  refine ⟨out, h, ?_⟩
  have hl : out.last.vals.length = 2 := c1
  match hv : out.last.vals, hl with
  | [e0, e1], _ =>
    rw [hv] at c2 c3
    refine ⟨e0, e1, rfl, ?_, by simpa using c2⟩
    simpa using c3 0 1 (by decide) (by decide)

end MPS.Props
