import Verif.MinimizerLemmas2

set_option linter.unusedSectionVars false
set_option linter.unusedSimpArgs false

namespace MPS.Minim
open MPS Tensor Form
variable {K : Type} [RCLike K]

theorem projectors_nil {m : Minz K} (h : m.ortho = []) (sense : Int) : projectors m sense = some [] := by
  simp [projectors, h]

/-- what a successful step achieves: `φ` is the state before, `ψ` the state after the step, `E` the energy -/
structure Improved (ds : List Nat) (O φ ψ : List (Tensor K)) (E : ℝ) : Prop where
  norm : normSq ds ψ = 1
  energy : expect ds ψ O ψ = (E : K)
  le : E * normSq ds φ ≤ energyOf ds O φ

theorem normSq_nonneg (ds : List Nat) (φ : List (Tensor K)) : 0 ≤ normSq ds φ :=
  sumCfg_nonneg _ _ fun s _ => by positivity

theorem Improved.trans {ds : List Nat} {O φ ψ χ : List (Tensor K)} {E E' : ℝ} (h : Improved ds O φ ψ E) (h' : Improved ds O ψ χ E') :
    Improved ds O φ χ E' := by
  have h1 := h'.le
  rw [h.norm, energyOf, h.energy, RCLike.ofReal_re, mul_one] at h1
  exact ⟨h'.norm, h'.energy, le_trans (mul_le_mul_of_nonneg_right h1 (normSq_nonneg ds φ)) h.le⟩

theorem Improved.congr {ds : List Nat} {O φ ψ χ : List (Tensor K)} {E : ℝ} (h : Improved ds O φ ψ E)
    (hc : ∀ s, IsCfg ds s → amp χ s = amp ψ s) : Improved ds O φ χ E :=
  ⟨by rw [normSq_congr hc]; exact h.norm, by rw [expect_congr hc]; exact h.energy, h.le⟩

theorem Improved.decreases {ds : List Nat} {O φ ψ χ : List (Tensor K)} {E E' : ℝ} (h : Improved ds O φ ψ E) (h' : Improved ds O ψ χ E') :
    E' ≤ E := by
  have h1 := h'.le
  rwa [h.norm, energyOf, h.energy, RCLike.ofReal_re, mul_one] at h1

/-- no tensor at site `k` gives a smaller energy -/
def Optimal (ds : List Nat) (O ψ : List (Tensor K)) (k : Nat) (E : ℝ) : Prop :=
  ∀ Y : Tensor K, Y.dims = (site ψ k).dims → E * normSq ds (ψ.set k Y) ≤ energyOf ds O (ψ.set k Y)

theorem single_step {svd : Tensor K → SvdRes K} (hg : GoodSvd svd) (eps : ℝ) {dflt : ℝ} (hd0 : 0 ≤ dflt) {eigs : Eigs K}
    (he : GoodEigs eigs) {ds : List Nat} {O : List (Tensor K)} (hO : WFO 1 O ds 1) (hherm : Hermitian ds O) {m : Minz K} {k : Nat}
    (hc : Cent ds O m k) (ho : m.ortho = []) (hsite : m.site = k) {m' : Minz K} {E : ℝ}
    (hrun : singleSiteStep svd eps dflt eigs m = some (m', E)) (hconv : m'.converged = true) :
    Cent ds O m' (nextCentre ds.length m.step k) ∧ m'.ortho = [] ∧ m'.step = m.step ∧ Improved ds O m.psi m'.psi E ∧
    (nextCentre ds.length m.step k = k → Optimal ds O m'.psi k E) := by
  obtain ⟨hk, hw, hq, hlo, hhi⟩ := hc
  have hlen := hw.length
  unfold singleSiteStep at hrun
  rw [projectors_nil ho, Option.bind_some, hsite] at hrun
  simp only at hrun
  by_cases hne : (m.H.applyOneSite (site m.psi k)).isEmpty = true
  · rw [if_pos hne] at hrun; exact absurd hrun (by simp)
  rw [if_neg hne] at hrun
  set r := eigs (applyQform1 (site m.psi k).dims m.H []) (site m.psi k).size (reshape (site m.psi k) [(site m.psi k).size]) with hr
  by_cases hok : r.ok = true
  swap
  · rw [if_neg hok] at hrun
    simp only [Option.some.injEq, Prod.mk.injEq] at hrun
    rw [← hrun.1] at hconv
    exact absurd hconv (by simp)
  rw [if_pos hok] at hrun
  simp only [Option.some.injEq, Prod.mk.injEq] at hrun
  obtain ⟨rfl, rfl⟩ := hrun
  obtain ⟨w1, w2, w3, w4⟩ := solve_single he hw hO hherm hk hlo hhi hq (by simpa using hne) _ hok
  simp only [← hr] at w1 w2 w3 w4
  set X := reshape r.P (site m.psi k).dims with hX
  set φ := m.psi.set k X with hφ
  have hsX : site φ k = X := by rw [hφ, site_set _ _ _ _ (by omega), if_pos rfl]
  have hlo' : ∀ j < k, LeftIso (site φ j) := by
    intro j hj; rw [hφ, site_set _ _ _ _ (by omega), if_neg (by omega)]; exact hlo j hj
  have hhi' : ∀ j, k < j → j < ds.length → RightIso (site φ j) := by
    intro j hj hj2; rw [hφ, site_set _ _ _ _ (by omega), if_neg (by omega)]; exact hhi j hj hj2
  obtain ⟨s1, s2, s3, s4, s5, s6⟩ := store_single hg eps hd0 w1 (by rw [w2]; exact one_ne_zero) hk m.step hlo' hhi'
  have hcan : setCanonical svd eps dflt φ k (site φ k) m.step false = setCanonical svd eps dflt m.psi k X m.step false :=
    setCanonical_set svd eps dflt m.psi k (by omega) X m.step false
  rw [hcan] at s1 s2 s3 s4 s5 s6
  set c := setCanonical svd eps dflt m.psi k X m.step false with hc
  have hstart : RCLike.re r.E * normSq ds m.psi ≤ energyOf ds O m.psi := by
    have := w4 (site m.psi k) rfl
    rwa [Props.set_site_self _ _ (by omega)] at this
  have himp : Improved ds O m.psi c.1 (RCLike.re r.E) := (Improved.mk w2 w3 hstart).congr s2
  have hnc : nextCentre ds.length m.step k < ds.length := by
    unfold nextCentre; split_ifs <;> omega
  refine ⟨⟨hnc, s1, ?_, s3, s4⟩, by simp [propagate, ho], rfl, himp, ?_⟩
  · have := move_cache hO (χ := c.1) hk hlen s1.length m.step hq (fun j h1 h2 => by
      rw [s5 j h1 h2, hφ, site_set _ _ _ _ (by omega), if_neg h1])
    simpa [propagate, hsite] using this
  · intro hn Y hY
    change Y.dims = (site c.1 k).dims at hY
    change RCLike.re r.E * normSq ds (c.1.set k Y) ≤ energyOf ds O (c.1.set k Y)
    rw [s6 hn] at hY ⊢
    rw [hsX] at hY
    have := w4 Y (by rw [hY, hX]; rfl)
    rw [hφ, List.set_set]
    exact this

/-- the sites visited by a sweep to the right -/
theorem single_right {svd : Tensor K → SvdRes K} (hg : GoodSvd svd) (eps : ℝ) {dflt : ℝ} (hd0 : 0 ≤ dflt) {eigs : Eigs K}
    (he : GoodEigs eigs) {ds : List Nat} {O : List (Tensor K)} (hO : WFO 1 O ds 1) (hherm : Hermitian ds O) (fuel : Nat) {k : Nat}
    (hfuel : k + fuel + 1 = ds.length) {m : Minz K} (hc : Cent ds O m k) (ho : m.ortho = []) (hs : m.step > 0) (hm : m.converged = true) {E0 : ℝ}
    {m' : Minz K} {E : ℝ} (hrun : singleRight svd eps dflt eigs (fuel + 1) k m E0 = some (m', E)) (hconv : m'.converged = true) :
    Cent ds O m' (ds.length - 1) ∧ m'.ortho = [] ∧ Improved ds O m.psi m'.psi E ∧ Optimal ds O m'.psi (ds.length - 1) E := by
  induction fuel generalizing k m E0 with
  | zero =>
    rw [singleRight, if_pos hm] at hrun
    obtain ⟨⟨m1, E1⟩, h1, h2⟩ := Option.bind_eq_some_iff.1 hrun
    simp only [singleRight, Option.some.injEq, Prod.mk.injEq] at h2
    obtain ⟨rfl, rfl⟩ := h2
    obtain ⟨a1, a2, a3, a4, a5⟩ := single_step hg eps hd0 he hO hherm (m := { m with site := k }) ⟨hc.lt, hc.wf, hc.q, hc.lo, hc.hi⟩ ho rfl h1 hconv
    have e : nextCentre ds.length m.step k = ds.length - 1 := by
      unfold nextCentre; rw [if_pos hs, if_pos (by omega)]; omega
    have ek : k = ds.length - 1 := by omega
    simp only [e] at a1 a5
    exact ⟨a1, a2, a4, by have := a5 ek.symm; rwa [ek] at this⟩
  | succ fuel ih =>
    rw [singleRight, if_pos hm] at hrun
    obtain ⟨⟨m1, E1⟩, h1, h2⟩ := Option.bind_eq_some_iff.1 hrun
    simp only at h2
    have hm1 : m1.converged = true := by
      by_contra hh
      rw [singleRight, if_neg hh] at h2
      simp only [Option.some.injEq, Prod.mk.injEq] at h2
      rw [← h2.1] at hconv; exact hh hconv
    obtain ⟨a1, a2, a3, a4, -⟩ := single_step hg eps hd0 he hO hherm (m := { m with site := k }) ⟨hc.lt, hc.wf, hc.q, hc.lo, hc.hi⟩ ho rfl h1 hm1
    have e : nextCentre ds.length m.step k = k + 1 := by
      unfold nextCentre; rw [if_pos hs, if_neg (by omega)]
    simp only [e] at a1
    obtain ⟨b1, b2, b3, b4⟩ := ih (by omega) a1 a2 (by rw [a3]; exact hs) hm1 h2
    exact ⟨b1, b2, a4.trans b3, b4⟩

/-- the sites visited by a sweep to the left -/
theorem single_left {svd : Tensor K → SvdRes K} (hg : GoodSvd svd) (eps : ℝ) {dflt : ℝ} (hd0 : 0 ≤ dflt) {eigs : Eigs K}
    (he : GoodEigs eigs) {ds : List Nat} {O : List (Tensor K)} (hO : WFO 1 O ds 1) (hherm : Hermitian ds O) {k : Nat}
    {m : Minz K} (hc : Cent ds O m k) (ho : m.ortho = []) (hs : ¬ m.step > 0) (hm : m.converged = true) {E0 : ℝ}
    {m' : Minz K} {E : ℝ} (hrun : singleLeft svd eps dflt eigs (k + 1) m E0 = some (m', E)) (hconv : m'.converged = true) :
    Cent ds O m' 0 ∧ m'.ortho = [] ∧ Improved ds O m.psi m'.psi E ∧ Optimal ds O m'.psi 0 E := by
  induction k generalizing m E0 with
  | zero =>
    rw [singleLeft, if_pos hm] at hrun
    obtain ⟨⟨m1, E1⟩, h1, h2⟩ := Option.bind_eq_some_iff.1 hrun
    simp only [singleLeft, Option.some.injEq, Prod.mk.injEq] at h2
    obtain ⟨rfl, rfl⟩ := h2
    obtain ⟨a1, a2, a3, a4, a5⟩ := single_step hg eps hd0 he hO hherm (m := { m with site := 0 }) ⟨hc.lt, hc.wf, hc.q, hc.lo, hc.hi⟩ ho rfl h1 hconv
    have e : nextCentre ds.length m.step 0 = 0 := by simp [nextCentre, hs]
    simp only [e] at a1 a5
    exact ⟨a1, a2, a4, a5 trivial⟩
  | succ k ih =>
    rw [singleLeft, if_pos hm] at hrun
    obtain ⟨⟨m1, E1⟩, h1, h2⟩ := Option.bind_eq_some_iff.1 hrun
    simp only at h2
    have hm1 : m1.converged = true := by
      by_contra hh
      rw [singleLeft, if_neg hh] at h2
      simp only [Option.some.injEq, Prod.mk.injEq] at h2
      rw [← h2.1] at hconv; exact hh hconv
    obtain ⟨a1, a2, a3, a4, -⟩ := single_step hg eps hd0 he hO hherm (m := { m with site := k + 1 }) ⟨hc.lt, hc.wf, hc.q, hc.lo, hc.hi⟩ ho rfl h1 hm1
    have e : nextCentre ds.length m.step (k + 1) = k := by
      unfold nextCentre; rw [if_neg hs]; omega
    simp only [e] at a1
    obtain ⟨b1, b2, b3, b4⟩ := ih a1 a2 (by rw [a3]; exact hs) hm1 h2
    exact ⟨b1, b2, a4.trans b3, b4⟩

/-- where the centre is between sweeps -/
def endOf (N : Nat) (step : Int) : Nat := if step > 0 then 0 else N - 1

theorem single_sweep {svd : Tensor K → SvdRes K} (hg : GoodSvd svd) (eps : ℝ) {dflt : ℝ} (hd0 : 0 ≤ dflt) {eigs : Eigs K}
    (he : GoodEigs eigs) {ds : List Nat} {O : List (Tensor K)} (hO : WFO 1 O ds 1) (hherm : Hermitian ds O) 
    {m : Minz K} (hc : Cent ds O m (endOf ds.length m.step)) (ho : m.ortho = []) (hm : m.converged = true)
    {m' : Minz K} {E : ℝ} (hrun : singleSweep svd eps dflt eigs m = some (m', E)) (hconv : m'.converged = true) :
    Cent ds O m' (endOf ds.length m'.step) ∧ m'.ortho = [] ∧ Improved ds O m.psi m'.psi E ∧
      Optimal ds O m'.psi (endOf ds.length m'.step) E := by
  have hlen := hc.wf.length
  have hpos := hc.lt
  unfold singleSweep at hrun
  by_cases hs : m.step > 0
  · simp only [if_pos hs] at hrun
    obtain ⟨⟨m1, E1⟩, h1, h2⟩ := Option.map_eq_some_iff.1 hrun
    simp only [Prod.mk.injEq] at h2
    obtain ⟨rfl, rfl⟩ := h2
    simp only [endOf, if_pos hs] at hc
    obtain ⟨n, hn⟩ : ∃ n, ds.length = n + 1 := ⟨ds.length - 1, by omega⟩
    rw [hlen, hn] at h1
    obtain ⟨a1, a2, a3, a4⟩ := single_right hg eps hd0 he hO hherm n (by omega) hc ho hs hm h1 hconv
    simp only [endOf, if_neg (show ¬ (-1 : Int) > 0 by decide)]
    exact ⟨⟨a1.lt, a1.wf, a1.q, a1.lo, a1.hi⟩, a2, a3, a4⟩
  · simp only [if_neg hs] at hrun
    obtain ⟨⟨m1, E1⟩, h1, h2⟩ := Option.map_eq_some_iff.1 hrun
    simp only [Prod.mk.injEq] at h2
    obtain ⟨rfl, rfl⟩ := h2
    simp only [endOf, if_neg hs] at hc
    obtain ⟨n, hn⟩ : ∃ n, ds.length = n + 1 := ⟨ds.length - 1, by omega⟩
    rw [hlen, hn] at h1
    rw [hn] at hc
    obtain ⟨a1, a2, a3, a4⟩ := single_left hg eps hd0 he hO hherm hc ho hs hm h1 hconv
    simp only [endOf, if_pos (show (1 : Int) > 0 by decide)]
    exact ⟨⟨a1.lt, a1.wf, a1.q, a1.lo, a1.hi⟩, a2, a3, a4⟩

/-- a sequence of successful sweeps -/
inductive Sweeps (sweep : Minz K → Option (Minz K × ℝ)) (m : Minz K) : List ℝ → Minz K → Prop
  | nil : Sweeps sweep m [] m
  | snoc {es m' m'' E} : Sweeps sweep m es m' → sweep m' = some (m'', E) → m''.converged = true → Sweeps sweep m (es ++ [E]) m''

theorem Sweeps.converged {sweep : Minz K → Option (Minz K × ℝ)} {m m' : Minz K} {es : List ℝ} (h : Sweeps sweep m es m')
    (hm : m.converged = true) : m'.converged = true := by
  cases h with
  | nil => exact hm
  | snoc _ _ h => exact h

theorem Sweeps.of_nil {sweep : Minz K → Option (Minz K × ℝ)} {m m' : Minz K} {es : List ℝ} (h : Sweeps sweep m es m')
    (he : es = []) : m' = m := by
  cases h with
  | nil => rfl
  | snoc _ _ _ => simp at he

/-- what the loop of `full_sweep` guarantees, whatever a sweep does -/
structure LoopSpec (sweep : Minz K → Option (Minz K × ℝ)) (o : Opts) (m : Minz K) (out : Out K) : Prop where
  count : out.energies.length ≤ o.sweeps
  ran : out.converged = true → ∃ m', Sweeps sweep m out.energies m' ∧ out.psi = m'.psi ∧ out.lost = m'.lost
  energy : out.converged = true → out.E = out.energies.getLastD (10 ^ 28)
  failed : out.converged = false → out.psi = [] ∧ out.energies ≠ [] ∧ out.E = out.energies.dropLast.getLastD (10 ^ 28)
  stop : out.converged = true → out.energies.length < o.sweeps → ∃ es E E', out.energies = es ++ [E, E'] ∧
    (|E' - E| < o.tolerance ∨ E' - E > 1 / 10 ^ 14 * |E'|)
  go : ∀ j, j + 2 < out.energies.length → o.tolerance ≤ |out.energies.getD (j + 1) 0 - out.energies.getD j 0|

theorem getD_snoc_lt {es : List ℝ} {E : ℝ} {j : Nat} (h : j < es.length) : (es ++ [E]).getD j 0 = es.getD j 0 := by
  simp [List.getElem?_append, h]

theorem loop_core {sweep : Minz K → Option (Minz K × ℝ)} {o : Opts} {m0 : Minz K} (fuel i : Nat) (failures : Int) (E : ℝ) (m : Minz K)
    (es : List ℝ) {out : Out K} (hfuel : i + fuel = o.sweeps) (hi : es.length = i) (hE : E = es.getLastD (10 ^ 28))
    (htr : Sweeps sweep m0 es m) (hgo : ∀ j, j + 1 < es.length → o.tolerance ≤ |es.getD (j + 1) 0 - es.getD j 0|)
    (hrun : sweepLoop sweep o fuel i failures E m es = some out) : LoopSpec sweep o m0 out := by
  induction fuel generalizing i failures E m es with
  | zero =>
    simp only [sweepLoop, Option.some.injEq] at hrun
    subst hrun
    exact ⟨by simp only; omega, fun _ => ⟨m, htr, rfl, rfl⟩, fun _ => hE, fun h => absurd h (by simp), fun _ h => by simp only at h; omega,
      fun j hj => hgo j (by simp only at hj; omega)⟩
  | succ fuel ih =>
    rw [sweepLoop] at hrun
    obtain ⟨⟨m1, E1⟩, h1, h2⟩ := Option.bind_eq_some_iff.1 hrun
    simp only at h2
    have hgo1 : ∀ j, j + 2 < (es ++ [E1]).length → o.tolerance ≤ |(es ++ [E1]).getD (j + 1) 0 - (es ++ [E1]).getD j 0| := by
      intro j hj
      simp only [List.length_append, List.length_singleton] at hj
      rw [getD_snoc_lt (by omega), getD_snoc_lt (by omega)]
      exact hgo j (by omega)
    have hcnt : (es ++ [E1]).length ≤ o.sweeps := by simp; omega
    by_cases hc : m1.converged = false
    · rw [if_pos hc] at h2
      simp only [Option.some.injEq] at h2
      subst h2
      exact ⟨hcnt, fun h => absurd h (by simp), fun h => absurd h (by simp), fun _ => ⟨rfl, by simp, by simpa using hE⟩, fun h => absurd h (by simp), hgo1⟩
    rw [if_neg hc] at h2
    have htr1 : Sweeps sweep m0 (es ++ [E1]) m1 := htr.snoc h1 (by simpa using hc)
    have hsplit : i ≠ 0 → ∃ es', es = es' ++ [E] := by
      intro h0
      have hne : es ≠ [] := by rintro rfl; simp at hi; omega
      refine ⟨es.dropLast, ?_⟩
      rw [hE, List.getLastD_eq_getLast?, List.getLast?_eq_some_getLast hne, Option.getD_some]
      exact (List.dropLast_append_getLast hne).symm
    have hnext : ¬ (i ≠ 0 ∧ |E1 - E| < o.tolerance) → ∀ j, j + 1 < (es ++ [E1]).length →
        o.tolerance ≤ |(es ++ [E1]).getD (j + 1) 0 - (es ++ [E1]).getD j 0| := by
      intro hn j hj
      by_cases hj2 : j + 2 < (es ++ [E1]).length
      · exact hgo1 j hj2
      · simp only [List.length_append, List.length_singleton] at hj hj2
        obtain ⟨es', he'⟩ := hsplit (by omega)
        have hl : es.length = es'.length + 1 := by rw [he']; simp
        have ej : j = es'.length := by omega
        have : (es ++ [E1]).getD (j + 1) 0 = E1 ∧ (es ++ [E1]).getD j 0 = E := by
          rw [he', ej]; constructor <;> simp
        rw [this.1, this.2]
        push Not at hn
        exact hn (by omega)
    have hE1 : E1 = (es ++ [E1]).getLastD (10 ^ 28) := by simp
    have hstop : i ≠ 0 → (|E1 - E| < o.tolerance ∨ E1 - E > 1 / 10 ^ 14 * |E1|) → ∃ es' E2 E2', es ++ [E1] = es' ++ [E2, E2'] ∧
        (|E2' - E2| < o.tolerance ∨ E2' - E2 > 1 / 10 ^ 14 * |E2'|) := by
      intro h0 h
      obtain ⟨es', he'⟩ := hsplit h0
      exact ⟨es', E, E1, by rw [he']; simp, h⟩
    by_cases ht : i ≠ 0 ∧ |E1 - E| < o.tolerance
    · rw [if_pos ht] at h2
      simp only [Option.some.injEq] at h2
      subst h2
      exact ⟨hcnt, fun _ => ⟨m1, htr1, rfl, rfl⟩, fun _ => hE1, fun h => absurd h (by simp), fun _ _ => hstop ht.1 (Or.inl ht.2), hgo1⟩
    rw [if_neg ht] at h2
    have hrec : ∀ f, sweepLoop sweep o fuel (i + 1) f E1 m1 (es ++ [E1]) = some out → LoopSpec sweep o m0 out := fun f h =>
      ih (i + 1) f E1 m1 (es ++ [E1]) (by omega) (by simp [hi]) hE1 htr1 (hnext ht) h
    by_cases hgr : i ≠ 0 ∧ E1 - E > 1 / 10 ^ 14 * |E1|
    · rw [if_pos hgr] at h2
      by_cases hf : failures ≥ o.allowGrowth
      · rw [if_pos hf] at h2
        simp only [Option.some.injEq] at h2
        subst h2
        exact ⟨hcnt, fun _ => ⟨m1, htr1, rfl, rfl⟩, fun _ => hE1, fun h => absurd h (by simp), fun _ _ => hstop hgr.1 (Or.inr hgr.2), hgo1⟩
      · rw [if_neg hf] at h2; exact hrec _ h2
    · rw [if_neg hgr] at h2; exact hrec _ h2

theorem loop_spec {sweep : Minz K → Option (Minz K × ℝ)} {o : Opts} {m : Minz K} {out : Out K}
    (hrun : sweepLoop sweep o o.sweeps 0 0 (10 ^ 28) m [] = some out) : LoopSpec sweep o m out :=
  loop_core o.sweeps 0 0 (10 ^ 28) m [] (by omega) rfl rfl .nil (fun j hj => by simp at hj) hrun

/-- the sweeps of the single-site algorithm -/
theorem single_sweeps {svd : Tensor K → SvdRes K} (hg : GoodSvd svd) (eps : ℝ) {dflt : ℝ} (hd0 : 0 ≤ dflt) {eigs : Eigs K}
    (he : GoodEigs eigs) {ds : List Nat} {O : List (Tensor K)} (hO : WFO 1 O ds 1) (hherm : Hermitian ds O)
    {m : Minz K} (hc : Cent ds O m (endOf ds.length m.step)) (ho : m.ortho = []) (hm : m.converged = true) {es : List ℝ} {m' : Minz K}
    (h : Sweeps (singleSweep svd eps dflt eigs) m es m') :
    Cent ds O m' (endOf ds.length m'.step) ∧ m'.ortho = [] ∧ es.Pairwise (fun x y => y ≤ x) ∧
    ∀ es' E, es = es' ++ [E] → (∀ x ∈ es, E ≤ x) ∧ Improved ds O m.psi m'.psi E ∧ Optimal ds O m'.psi (endOf ds.length m'.step) E := by
  induction h with
  | nil => exact ⟨hc, ho, .nil, fun es' E h => by simp at h⟩
  | @snoc es m1 m2 E h1 h2 h3 ih =>
    obtain ⟨i1, i2, i3, i4⟩ := ih
    obtain ⟨a1, a2, a3, a4⟩ := single_sweep hg eps hd0 he hO hherm i1 i2 (h1.converged hm) h2 h3
    have hle : ∀ x ∈ es, E ≤ x := by
      intro x hx
      have hne : es ≠ [] := by rintro rfl; simp at hx
      obtain ⟨j1, j2, j3⟩ := i4 es.dropLast (es.getLast hne) (List.dropLast_append_getLast hne).symm
      exact le_trans (j2.decreases a3) (j1 x hx)
    refine ⟨a1, a2, ?_, ?_⟩
    · rw [List.pairwise_append]
      exact ⟨i3, by simp, fun x hx y hy => by simp at hy; rw [hy]; exact hle x hx⟩
    · intro es' E' hh
      obtain ⟨rfl, hE⟩ := List.append_inj' hh rfl
      simp only [List.cons.injEq, and_true] at hE
      subst hE
      refine ⟨?_, ?_, a4⟩
      · intro x hx
        rcases List.mem_append.1 hx with hx | hx
        · exact hle x hx
        · simp at hx; rw [hx]
      · rcases List.eq_nil_or_concat es with h0 | ⟨es2, E2, h0⟩
        · subst h0
          rw [h1.of_nil rfl] at a3
          exact a3
        · obtain ⟨-, j2, -⟩ := i4 es2 E2 (by simpa using h0)
          exact j2.trans a3

end MPS.Minim
