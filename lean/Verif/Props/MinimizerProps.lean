import Verif.MinimizerLemmas6
import Verif.EigsExists
import Verif.SvdExists

/-!
# C54, C77, C78: `minimize(H, &psi, opt)`

The theorems hold for every function `svd` which returns singular value decompositions (`GoodSvd`) and every eigenvalue
solver which, whenever it reports success, has found the lowest eigenvector (`GoodEigs`); such functions exist:
`exists_goodSvd`, `exists_goodEigs`.
-/

set_option linter.unusedSectionVars false
set_option linter.unusedSimpArgs false

namespace MPS.Props
open MPS Tensor Form Minim
variable {K : Type} [RCLike K]

/-- **C54.**  Whatever the sweeps compute: at most `opt.sweeps` sweeps are run; if fewer are run, then either the solver has
failed, or the energies of the last two sweeps differ by less than the tolerance, or the energy has grown; and as long as
the sweeps go on, consecutive energies differ by at least the tolerance.  If the solver has failed, the state returned is
empty, otherwise the energy returned is the one of the last sweep. -/
theorem C54_loop_partial (svd : Tensor K → SvdRes K) (eps dflt : ℝ) (eigs : Eigs K) (H ψ : List (Tensor K)) (o : Opts) {out : Out K}
    (h : minimize svd eps dflt eigs H ψ o = some out) :
    out.energies.length ≤ o.sweeps ∧
    (out.converged = true → out.energies.length < o.sweeps → ∃ es E E', out.energies = es ++ [E, E'] ∧
      (|E' - E| < o.tolerance ∨ E' - E > 1 / 10 ^ 14 * |E'|)) ∧
    (∀ j, j + 2 < out.energies.length → o.tolerance ≤ |out.energies.getD (j + 1) 0 - out.energies.getD j 0|) ∧
    (out.converged = true → out.E = out.energies.getLastD (10 ^ 28)) ∧
    (out.converged = false → out.psi = []) := by
  obtain ⟨m, -, h2⟩ := Option.bind_eq_some_iff.1 h
  have s := loop_spec h2
  exact ⟨s.count, s.stop, s.go, s.energy, fun hh => (s.failed hh).1⟩

/-- the object after its construction -/
theorem new_spec {svd : Tensor K → SvdRes K} (hg : GoodSvd svd) (eps dflt : ℝ) {ds : List Nat} {O ψ : List (Tensor K)}
    (hO : WFO 1 O ds 1) (hw : WF 1 ψ ds 1) (hd : 0 < ds.length) (ht : TolOk dflt ds ψ) :
    ∃ m, Minz.new svd eps dflt O ψ = some m ∧ Cent ds O m 0 ∧ m.ortho = [] ∧ m.N = none ∧ m.step = 1 ∧ m.converged = true ∧
      m.psi = (canonicalForm svd eps dflt ψ (-1)).1 ∧
      ((canonicalForm svd eps dflt ψ (-1)).2 = 0 → ∀ s, IsCfg ds s → amp m.psi s = amp ψ s) := by
  classical
  have hlen := hw.length
  have hne : ψ ≠ [] := by rintro rfl; simp at hlen; omega
  obtain ⟨e1, e2, e3, e4⟩ := eitherForm_spec hg eps hw (ht.start hw hne) 0 (by omega)
  have ec : canonicalForm svd eps dflt ψ (-1) = eitherForm svd eps dflt ψ 0 false := by
    simp [canonicalForm, canonicalFormAt]
  rw [← ec] at e1 e2 e3 e4
  obtain ⟨f, f1, f2⟩ := QGood.new (start := 0) hO e1.wf e1.wf hd
  refine ⟨⟨(canonicalForm svd eps dflt ψ (-1)).1, f, none, [], 0, 1, true, (canonicalForm svd eps dflt ψ (-1)).2⟩, ?_, ⟨hd, e1.wf, ?_, fun j hj => by omega, fun j hj hj2 => e4 j hj (by omega)⟩, rfl, rfl, rfl, rfl, rfl, ?_⟩
  · unfold Minz.new
    have : QForm.new O (canonicalForm svd eps dflt ψ (-1)).1 (canonicalForm svd eps dflt ψ (-1)).1 0 = some f := by
      convert f1
    simp only
    rw [show QForm.new O (canonicalForm svd eps dflt ψ (-1)).1 (canonicalForm svd eps dflt ψ (-1)).1 0 = some f from by convert f1]
    rfl
  · rw [zip_dup] at f2
    simpa using f2
  · intro h0 s hs
    have hne' : (canonicalForm svd eps dflt ψ (-1)).1 ≠ [] := by intro hh; have := e2; rw [hh] at this; simp at this; omega
    rw [amp_of_WF e1.wf hne', amp_of_WF hw hne, Finset.sum_range_one, Finset.sum_range_one]
    exact e1.same h0 s hs 0 (by omega) 0

/-- **C77.**  The single-site algorithm (`opt.Dmax = 0`), if it succeeds and at least one sweep is allowed: the state returned
is a normalised matrix product state, the number returned is exactly its energy, the energies of the sweeps never increase,
the energy is not above that of the initial state, it is optimal with respect to the tensor of one end of the chain, and
fewer than `opt.sweeps` sweeps are run only if the last two energies differ by less than the tolerance. -/
theorem C77_single_site {svd : Tensor K → SvdRes K} (hg : GoodSvd svd) (eps dflt : ℝ) {eigs : Eigs K} (he : GoodEigs eigs)
    {ds : List Nat} {H ψ : List (Tensor K)} (hH : WFO 1 H ds 1) (hherm : Hermitian ds H) (hw : WF 1 ψ ds 1) (hd : 0 < ds.length)
    (ht : TolOk dflt ds ψ) (o : Opts) (hD : o.Dmax = 0) (hs : 0 < o.sweeps) {out : Out K}
    (h : minimize svd eps dflt eigs H ψ o = some out) (hok : out.converged = true) :
    WF 1 out.psi ds 1 ∧ normSq ds out.psi = 1 ∧ expect ds out.psi H out.psi = (out.E : K) ∧
    out.energies.Pairwise (fun x y => y ≤ x) ∧ out.energies.getLast? = some out.E ∧ out.energies.length ≤ o.sweeps ∧
    ((canonicalForm svd eps dflt ψ (-1)).2 = 0 → out.E * normSq ds ψ ≤ energyOf ds H ψ) ∧
    (∃ k, (k = 0 ∨ k + 1 = ds.length) ∧ ∀ Y : Tensor K, Y.dims = (site out.psi k).dims →
      out.E * normSq ds (out.psi.set k Y) ≤ energyOf ds H (out.psi.set k Y)) ∧
    (out.energies.length < o.sweeps → ∃ es E, out.energies = es ++ [E, out.E] ∧ |out.E - E| < o.tolerance) := by
  have hd0 : 0 ≤ dflt := by rcases ht with h | h; exact h.le; exact h.1.ge
  obtain ⟨m, m1, m2, m3, m4, m5, m6, m7, m8⟩ := new_spec hg eps dflt hH hw hd ht
  unfold minimize at h
  rw [m1, Option.bind_some] at h
  unfold fullSweep at h
  rw [if_pos hD] at h
  have sp := loop_spec h
  obtain ⟨m', r1, r2, r3⟩ := sp.ran hok
  obtain ⟨c1, c2, c3, c4⟩ := single_sweeps hg eps hd0 he hH hherm (by rw [m5]; simpa [endOf] using m2) m3 m6 r1
  have hne : out.energies ≠ [] := by
    intro hh
    have hlt : out.energies.length < o.sweeps := by rw [hh]; exact hs
    obtain ⟨es, E, E', h1, -⟩ := sp.stop hok hlt
    rw [hh] at h1
    simp at h1
  have hE := sp.energy hok
  have hlast : out.energies.getLast hne = out.E := by
    rw [hE, List.getLastD_eq_getLast?, List.getLast?_eq_some_getLast hne]; rfl
  obtain ⟨d1, d2, d3⟩ := c4 out.energies.dropLast out.E (by rw [← hlast]; exact (List.dropLast_append_getLast hne).symm)
  rw [← r2] at d2 d3
  refine ⟨by rw [r2]; exact c1.wf, d2.norm, d2.energy, c3, by rw [List.getLast?_eq_some_getLast hne, hlast], sp.count, ?_, ?_, ?_⟩
  · intro h0
    have e := d2.le
    rw [normSq_congr (m8 h0)] at e
    unfold energyOf at e ⊢
    rwa [expect_congr (m8 h0)] at e
  · refine ⟨endOf ds.length m'.step, ?_, d3⟩
    unfold endOf; split_ifs
    · exact Or.inl rfl
    · right; omega
  · intro hlt
    obtain ⟨es, E, E', h1, h2⟩ := sp.stop hok hlt
    have eE : E' = out.E := by rw [← hlast]; simp [h1]
    subst eE
    refine ⟨es, E, h1, ?_⟩
    rcases h2 with h2 | h2
    · exact h2
    · have : out.E ≤ E := d1 E (by rw [h1]; simp)
      have h3 : 0 ≤ 1 / (10 : ℝ) ^ 14 * |out.E| := by positivity
      linarith

/-- **C78.**  The two-site algorithm (`opt.Dmax > 0`), if it succeeds and at least one sweep is allowed: no bond of the state
returned is larger than `Dmax`; the number returned is exactly the energy of a normalised state, whose distance to the
state returned is the weight of the singular values dropped by the last splitting; if that weight is zero, the state returned
is normalised and has that energy.  The number is never below the lowest expectation value of the Hamiltonian, and no state
which differs from the one returned only in the two tensors at one end of the chain (whatever the bond between them) has a
lower energy. -/
theorem C78_two_site {svd : Tensor K → SvdRes K} (hg : GoodSvd svd) (eps dflt : ℝ) {eigs : Eigs K} (he : GoodEigs eigs)
    {ds : List Nat} {H ψ : List (Tensor K)} (hH : WFO 1 H ds 1) (hherm : Hermitian ds H) (hw : WF 1 ψ ds 1) (hd : 0 < ds.length)
    (ht : TolOk dflt ds ψ) (o : Opts) (hD : 0 < o.Dmax) (hs : 0 < o.sweeps) {out : Out K}
    (h : minimize svd eps dflt eigs H ψ o = some out) (hok : out.converged = true) :
    WF 1 out.psi ds 1 ∧ (∀ j, j + 1 < ds.length → (site out.psi j).dim 2 ≤ o.Dmax) ∧
    (∃ φ, WF 1 φ ds 1 ∧ normSq ds φ = 1 ∧ expect ds φ H φ = (out.E : K) ∧ distSq ds φ out.psi = out.lost) ∧
    (out.lost = 0 → normSq ds out.psi = 1 ∧ expect ds out.psi H out.psi = (out.E : K)) ∧
    (∀ e : ℝ, (∀ φ, WF 1 φ ds 1 → e * normSq ds φ ≤ energyOf ds H φ) → e ≤ out.E) ∧
    (∃ p, (p = 0 ∨ p + 2 = ds.length) ∧ ∀ φ, WF 1 φ ds 1 → (∀ j, j ≠ p → j ≠ p + 1 → site φ j = site out.psi j) →
      out.E * normSq ds φ ≤ energyOf ds H φ) ∧
    out.energies.getLast? = some out.E ∧ out.energies.length ≤ o.sweeps := by
  have hd0 : 0 ≤ dflt := by rcases ht with h | h; exact h.le; exact h.1.ge
  obtain ⟨m, m1, m2, m3, m4, m5, m6, m7, m8⟩ := new_spec hg eps dflt hH hw hd ht
  unfold minimize at h
  rw [m1, Option.bind_some] at h
  unfold fullSweep at h
  rw [if_neg (by omega)] at h
  have sp := loop_spec h
  obtain ⟨m', r1, r2, r3⟩ := sp.ran hok
  obtain ⟨⟨c1, -, -⟩, c4⟩ := two_sweeps hg eps hd0 he hH hherm o (by rw [m5]; simpa [endOf] using m2) m3 m4 m6 r1
  have hne : out.energies ≠ [] := by
    intro hh
    have hlt : out.energies.length < o.sweeps := by rw [hh]; exact hs
    obtain ⟨es, E, E', h1, -⟩ := sp.stop hok hlt
    rw [hh] at h1
    simp at h1
  have hE := sp.energy hok
  have hlast : out.energies.getLast hne = out.E := by
    rw [hE, List.getLastD_eq_getLast?, List.getLast?_eq_some_getLast hne]; rfl
  obtain ⟨d1, ψ0, p, dp, d2, d3⟩ := c4 out.energies.dropLast out.E (by rw [← hlast]; exact (List.dropLast_append_getLast hne).symm)
  rw [← r2] at d1 d3
  rw [← r3] at d3
  refine ⟨by rw [r2]; exact c1.wf, fun j hj => d1 j hj hD, d3.before, ?_, ?_, ⟨p, dp, fun φ hφ hs => d3.best φ hφ fun j h1 h2 => by rw [hs j h1 h2, d3.others j h1 h2]⟩, by rw [List.getLast?_eq_some_getLast hne, hlast], sp.count⟩
  · intro h0
    rw [h0] at d3
    have := d3.exact d2
    exact ⟨this.norm, this.energy⟩
  · intro e hle
    obtain ⟨φ, f1, f2, f3, -⟩ := d3.before
    have := hle φ f1
    rwa [f2, energyOf, f3, RCLike.ofReal_re, mul_one] at this

/-- **C77.**  For a Hamiltonian which does not vanish, and a solver which always succeeds, the single-site
algorithm returns. -/
theorem C77_returns {svd : Tensor K → SvdRes K} (hg : GoodSvd svd) (eps dflt : ℝ) {eigs : Eigs K} (he : GoodEigs eigs)
    (hsol : ∀ A n P, (eigs A n P).ok = true)
    {ds : List Nat} {H ψ : List (Tensor K)} (hH : WFO 1 H ds 1) (hherm : Hermitian ds H) (hdef : NonZero ds H) (hw : WF 1 ψ ds 1)
    (hd : 0 < ds.length) (ht : TolOk dflt ds ψ) (o : Opts) (hD : o.Dmax = 0) :
    ∃ out, minimize svd eps dflt eigs H ψ o = some out ∧ out.converged = true := by
  have hd0 : 0 ≤ dflt := by rcases ht with h | h; exact h.le; exact h.1.ge
  obtain ⟨m, m1, m2, m3, m4, m5, m6, m7, m8⟩ := new_spec hg eps dflt hH hw hd ht
  unfold minimize
  rw [m1, Option.bind_some]
  unfold fullSweep
  rw [if_pos hD]
  refine loop_runs (fun m => Cent ds H m (endOf ds.length m.step) ∧ m.ortho = [] ∧ m.converged = true) ?_ o _ _ _ _ _ _
    ⟨by rw [m5]; simpa [endOf] using m2, m3, m6⟩
  rintro m' ⟨i1, i2, i3⟩
  obtain ⟨m'', E, r1, r2⟩ := single_sweep_runs hg eps hd0 he hsol hH hherm hdef i1 i2 i3
  obtain ⟨s1, s2, -⟩ := single_sweep hg eps hd0 he hH hherm i1 i2 i3 r1 r2
  exact ⟨m'', E, r1, r2, s1, s2, r2⟩

/-- **C78.**  Likewise the two-site algorithm on two sites or more. -/
theorem C78_returns {svd : Tensor K → SvdRes K} (hg : GoodSvd svd) (eps dflt : ℝ) {eigs : Eigs K} (he : GoodEigs eigs)
    (hsol : ∀ A n P, (eigs A n P).ok = true)
    {ds : List Nat} {H ψ : List (Tensor K)} (hH : WFO 1 H ds 1) (hherm : Hermitian ds H) (hdef : NonZero ds H) (hw : WF 1 ψ ds 1)
    (hd : 2 ≤ ds.length) (ht : TolOk dflt ds ψ) (o : Opts) (hD : 0 < o.Dmax) :
    ∃ out, minimize svd eps dflt eigs H ψ o = some out ∧ out.converged = true := by
  have hd0 : 0 ≤ dflt := by rcases ht with h | h; exact h.le; exact h.1.ge
  obtain ⟨m, m1, m2, m3, m4, m5, m6, m7, m8⟩ := new_spec hg eps dflt hH hw (by omega) ht
  unfold minimize
  rw [m1, Option.bind_some]
  unfold fullSweep
  rw [if_neg (by omega)]
  refine loop_runs (fun m => Cent ds H m (endOf ds.length m.step) ∧ m.ortho = [] ∧ m.N = none ∧ m.converged = true) ?_ o _ _ _ _ _ _
    ⟨by rw [m5]; simpa [endOf] using m2, m3, m4, m6⟩
  rintro m' ⟨i1, i2, i3, i4⟩
  obtain ⟨m'', E, r1, r2⟩ := two_sweep_runs hg eps hd0 he hsol hH hherm hdef o hd i1 i2 i3 i4
  obtain ⟨s1, s2, s3, -⟩ := two_sweep hg eps hd0 he hH hherm o i1 i2 i3 i4 r1 r2
  exact ⟨m'', E, r1, r2, s1, s2, s3, r2⟩

/-- **C54** is violated for `opt.sweeps = 0`: the number returned is `1e28`, which is not the energy of the state returned
unless that happens to be `1e28`. -/
theorem C54_zero_sweeps_violated {svd : Tensor K → SvdRes K} (hg : GoodSvd svd) (eps dflt : ℝ) {eigs : Eigs K}
    {ds : List Nat} {H ψ : List (Tensor K)} (hH : WFO 1 H ds 1) (hw : WF 1 ψ ds 1) (hd : 0 < ds.length)
    (ht : TolOk dflt ds ψ) (o : Opts) (hs : o.sweeps = 0) :
    ∃ out, minimize svd eps dflt eigs H ψ o = some out ∧ out.E = 10 ^ 28 ∧ out.psi = (canonicalForm svd eps dflt ψ (-1)).1 := by
  obtain ⟨m, m1, m2, m3, m4, m5, m6, m7, m8⟩ := new_spec hg eps dflt hH hw hd ht
  refine ⟨⟨10 ^ 28, m.psi, [], m.lost, true⟩, ?_, rfl, m7⟩
  unfold minimize
  rw [m1, Option.bind_some]
  unfold fullSweep
  rw [hs]
  rfl

end MPS.Props
