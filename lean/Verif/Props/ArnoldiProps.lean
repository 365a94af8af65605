import Verif.ArnoldiLemmas8
import Verif.SvdExists
import Verif.Props.MinimizerProps

/-!
# C103, C104, C105: time evolution with the Arnoldi method
-/

set_option linter.unusedSectionVars false
set_option linter.unusedSimpArgs false

namespace MPS.Props
open MPS Tensor Form Minim Obc Arnoldi
variable {ds : List Nat}

/-- **C103.**  `ArnoldiSolver(H, dt, nvectors).one_step(&psi, Dmax)` returns for any open-boundary state `psi`, any Hermitian operator `H` and any (complex) time
step, `1 ≤ nvectors < 30`; the new state is a normalised approximation, with bonds at most `Dmax`, of a superposition of a basis that begins with `psi`.  For chains of one site it
is required that the single-site algorithm be chosen. -/
theorem C103_one_step {svd : Tensor ℂ → SvdRes ℂ} (hg : GoodSvd svd) (eps : ℝ) {dflt : ℝ} (hd0 : 0 < dflt) (single : Bool) (tolerance : ℝ)
    {inner final : Nat} (hin : 0 < inner) (hfin : 0 < final) {lin : Tensor ℂ → Tensor ℂ → Tensor ℂ} (hl : GoodSolveM lin) {expm : Tensor ℂ → Tensor ℂ}
    (hexp : ExactExpm expm) {eig : Tensor ℂ → Tensor ℂ × Tensor ℂ} (heig : GoodEig eig) (extra : List ℝ → List ℂ → ℝ) {H psi : List (Tensor ℂ)}
    (hHW : WFO 1 H ds 1) (hH : Minim.Hermitian ds H) (hpos : 0 < ds.length) (hpsi : WF 1 psi ds 1) (dt : ℂ) {nvectors : Int} (hn : 0 < nvectors)
    (hn30 : nvectors < 30) (Dmax : Nat) (halg : (single = true ∧ Dmax = 0) ∨ 2 ≤ ds.length) :
    ∃ out, oneStep svd eps dflt single tolerance inner final lin expm eig extra H dt nvectors psi Dmax = some out ∧
      Stepped ds H psi nvectors.toNat Dmax final tolerance out := by
  obtain ⟨b, hb, hK, -⟩ := basis_spec hg eps hd0 single tolerance hin hHW hH hpos hpsi Dmax halg (nv := nvectors.toNat) (by omega)
  unfold oneStep
  rw [if_neg (by omega), hb, Option.bind_some]
  simp only []
  generalize hcc : coefficients lin expm eig dt b.Heff b.N = cc
  generalize hw' : (List.range (cc.dim 0)).map (fun i => cc.get [i]) = w
  have hne : b.states ≠ [] := List.length_pos_iff.1 hK.size.1
  have hw : ∀ Q ∈ b.states, WF 1 Q ds 1 := by
    intro Q hQ
    obtain ⟨j, hj, rfl⟩ := List.getElem_of_mem hQ
    have := hK.wf j hj
    rwa [List.getD_eq_getElem _ _ hj] at this
  have hcd : (coefficients lin expm eig dt b.Heff b.N).dims = [b.states.length] := by
    by_cases hdt : dt = 0
    · have := (heig (lin b.N b.Heff) b.states.length (hl b.N b.Heff b.states.length hK.dims.1 hK.dims.2).1).2.1
      simp [coefficients, hdt, groundState, dim, this, nrm]
    · exact (coefficients_evolve hK hl hexp eig hdt).1
  have hlen : w.length = b.states.length := by
    rw [← hw', ← hcc]
    simp [dim, hcd, nrm]
  obtain ⟨o, e, ho⟩ := C80_any_form hg eps hd0 single tolerance (w := w)
    hne hw hpsi hpos (-1) hfin true Dmax (tol := defaultTol) (by unfold defaultTol; norm_num) halg
  rw [e]
  refine ⟨_, rfl, ho.wf.1, ho.bonds, ?_, hK, hlen, rfl, ho, ?_⟩
  · rintro ⟨s, hs, h⟩
    refine (ho.unit rfl).2 fun h0 => h ?_
    show amp o.P s = 0
    rw [(ho.unit rfl).1 s hs, h0]
    simp
  · intro herr hv s hs
    have hd := ho.best.dist
    have hv' : normSqOf ds (superpose w b.states) ≠ 0 := hv
    have hr := ho.err hv'
    have h1 : 0 ≤ distTo ds (superpose w b.states) o.P0 := sumCfg_nonneg _ _ fun s _ => by positivity
    have herr' : o.err = 0 := herr
    have h2 : 0 ≤ normSqOf ds (superpose w b.states) := normSqOf_nonneg _ _
    rw [herr', relDist, eq_comm, Real.sqrt_eq_zero (by positivity), div_eq_zero_iff] at hr
    rw [hr.resolve_right hv'] at hd
    have hnorm : o.norm = normSqOf ds (superpose w b.states) := by
      rw [ho.norm]; linarith
    show amp o.P s = ((1 / Real.sqrt (normSqOf ds (superpose w b.states)) : ℝ) : ℂ) * superpose w b.states s
    rw [(ho.unit rfl).1 s hs, exact_of_err ho (by rw [hnorm]; exact hv') herr' s hs, hnorm]
    rfl

/-- **C103.**  A number of vectors that is not positive, or 30 and more, is rejected. -/
theorem C103_rejects (svd : Tensor ℂ → SvdRes ℂ) (eps dflt : ℝ) (single : Bool) (tolerance : ℝ) (inner final : Nat) (lin : Tensor ℂ → Tensor ℂ → Tensor ℂ)
    (expm : Tensor ℂ → Tensor ℂ) (eig : Tensor ℂ → Tensor ℂ × Tensor ℂ) (extra : List ℝ → List ℂ → ℝ) (H : List (Tensor ℂ)) (dt : ℂ) {nvectors : Int}
    (hn : nvectors ≤ 0 ∨ 30 ≤ nvectors) (psi : List (Tensor ℂ)) (Dmax : Nat) :
    oneStep svd eps dflt single tolerance inner final lin expm eig extra H dt nvectors psi Dmax = none := by
  unfold oneStep
  rw [if_pos (by omega)]

/-- the parts of the result -/
theorem oneStep_parts {svd : Tensor ℂ → SvdRes ℂ} {eps dflt : ℝ} {single : Bool} {tolerance : ℝ} {inner final : Nat} {lin : Tensor ℂ → Tensor ℂ → Tensor ℂ}
    {expm : Tensor ℂ → Tensor ℂ} {eig : Tensor ℂ → Tensor ℂ × Tensor ℂ} {extra : List ℝ → List ℂ → ℝ} {H : List (Tensor ℂ)} {dt : ℂ} {nvectors : Int}
    {psi : List (Tensor ℂ)} {Dmax : Nat} {out : Arnoldi.Out}
    (ho : oneStep svd eps dflt single tolerance inner final lin expm eig extra H dt nvectors psi Dmax = some out) :
    basis svd eps dflt single tolerance inner H nvectors.toNat psi Dmax = some out.basis ∧
      out.coef = (List.range ((coefficients lin expm eig dt out.basis.Heff out.basis.N).dim 0)).map fun i =>
        (coefficients lin expm eig dt out.basis.Heff out.basis.N).get [i] := by
  unfold oneStep at ho
  split_ifs at ho
  obtain ⟨b, hb, h⟩ := Option.bind_eq_some_iff.1 ho
  obtain ⟨o, -, h⟩ := Option.map_eq_some_iff.1 h
  rw [← h]
  exact ⟨hb, rfl⟩

/-- with the truncation switched off nothing is dropped -/
theorem lossless_basis {svd : Tensor ℂ → SvdRes ℂ} (hg : GoodSvd svd) (eps : ℝ) {dflt : ℝ} (hd : 1 ≤ dflt) {single : Bool} {tolerance : ℝ}
    {inner : Nat} (hin : 0 < inner) {H psi : List (Tensor ℂ)} (hHW : WFO 1 H ds 1) (hH : Minim.Hermitian ds H) (hpos : 0 < ds.length)
    (hpsi : WF 1 psi ds 1) {Dmax : Nat} (halg : (single = true ∧ Dmax = 0) ∨ 2 ≤ ds.length) {nv : Nat} (hnv : 0 < nv) {b : Basis}
    (hb : basis svd eps dflt single tolerance inner H nv psi Dmax = some b) : b.lost = 0 := by
  obtain ⟨b', hb', -, h⟩ := basis_spec hg eps (by linarith) single tolerance hin hHW hH hpos hpsi Dmax halg hnv
  rw [hb] at hb'
  rw [Option.some.inj hb']
  exact h hd

/-- **C104.**  For real time steps, an initial state of norm one, and if the canonical forms have dropped no singular values, the superposition that the program computes
has norm one and the energy of the initial state — whatever the size of the basis, and even though its vectors are approximate and not orthogonal. -/
theorem C104_conserved {svd : Tensor ℂ → SvdRes ℂ} {eps dflt : ℝ} {single : Bool} {tolerance : ℝ}
    {inner final : Nat} {lin : Tensor ℂ → Tensor ℂ → Tensor ℂ} (hl : GoodSolveM lin) {expm : Tensor ℂ → Tensor ℂ}
    (hexp : ExactExpm expm) {eig : Tensor ℂ → Tensor ℂ × Tensor ℂ} {extra : List ℝ → List ℂ → ℝ} {H psi : List (Tensor ℂ)}
    (hH : Minim.Hermitian ds H) {t : ℝ} (ht : t ≠ 0) {nvectors : Int} {Dmax : Nat} {out : Arnoldi.Out}
    (ho : oneStep svd eps dflt single tolerance inner final lin expm eig extra H t nvectors psi Dmax = some out)
    (hs : Stepped ds H psi nvectors.toNat Dmax final tolerance out) (hf : Faithful ds psi out.basis) :
    normSqOf ds out.target = 1 ∧ energyAt ds H out.target = energyAt ds H (amp psi) := by
  obtain ⟨-, h2⟩ := oneStep_parts ho
  have e : out.target = comb out.basis.family ((NormedSpace.exp ((-Complex.I * (t : ℂ)) • out.basis.mat lin)).mulVec (unit0 _)) := by
    funext s
    unfold Arnoldi.Out.target
    rw [h2, superpose_evolve hs.basis hl hexp eig (by exact_mod_cast ht)]
  rw [e]
  exact conserved hs.basis hf hH hl t

/-- **C105.**  If all the vectors `H^k psi` are superpositions of the basis, then the superposition that the program computes is `exp(-i H dt) psi`, exactly, for any complex
time step. -/
theorem C105_exact {svd : Tensor ℂ → SvdRes ℂ} {eps dflt : ℝ} {single : Bool} {tolerance : ℝ}
    {inner final : Nat} {lin : Tensor ℂ → Tensor ℂ → Tensor ℂ} (hl : GoodSolveM lin) {expm : Tensor ℂ → Tensor ℂ}
    (hexp : ExactExpm expm) {eig : Tensor ℂ → Tensor ℂ × Tensor ℂ} {extra : List ℝ → List ℂ → ℝ} {H psi : List (Tensor ℂ)}
    {dt : ℂ} (hdt : dt ≠ 0) {nvectors : Int} {Dmax : Nat} {out : Arnoldi.Out}
    (ho : oneStep svd eps dflt single tolerance inner final lin expm eig extra H dt nvectors psi Dmax = some out)
    (hs : Stepped ds H psi nvectors.toNat Dmax final tolerance out) (hf : Faithful ds psi out.basis)
    (hk : ∀ k, out.basis.InSpan ds out.basis.states.length ((act ds H)^[k] (amp psi))) : Evolved ds H (-Complex.I * dt) (amp psi) out.target := by
  obtain ⟨-, h2⟩ := oneStep_parts ho
  have e : out.target = comb out.basis.family ((NormedSpace.exp ((-Complex.I * dt) • out.basis.mat lin)).mulVec (unit0 _)) := by
    funext s
    unfold Arnoldi.Out.target
    rw [h2, superpose_evolve hs.basis hl hexp eig hdt]
  rw [e]
  exact comb_evolved (hs.basis.solve hf hl) (fun s hs' => by rw [comb_unit0 _ hs.basis.size.1, hs.basis.first hf s hs']) (fun k => (hk k).family) _

/-- **C105.**  In particular when the vectors of the basis are exact, and there are as many of them as the Krylov space has dimensions: `H^m psi` is a superposition of the
`m` vectors `psi`, `H psi`, ... -/
theorem C105_krylov {svd : Tensor ℂ → SvdRes ℂ} {eps dflt : ℝ} {single : Bool} {tolerance : ℝ}
    {inner final : Nat} {lin : Tensor ℂ → Tensor ℂ → Tensor ℂ} (hl : GoodSolveM lin) {expm : Tensor ℂ → Tensor ℂ}
    (hexp : ExactExpm expm) {eig : Tensor ℂ → Tensor ℂ × Tensor ℂ} {extra : List ℝ → List ℂ → ℝ} {H psi : List (Tensor ℂ)}
    {dt : ℂ} (hdt : dt ≠ 0) {nvectors : Int} {Dmax : Nat} {out : Arnoldi.Out}
    (ho : oneStep svd eps dflt single tolerance inner final lin expm eig extra H dt nvectors psi Dmax = some out)
    (hs : Stepped ds H psi nvectors.toNat Dmax final tolerance out) (hf : Faithful ds psi out.basis) (hx : out.basis.exact)
    (hk : ∃ c : Nat → ℂ, ∀ s, IsCfg ds s → ((act ds H)^[out.basis.states.length] (amp psi)) s =
      ∑ i ∈ Finset.range out.basis.states.length, c i * ((act ds H)^[i] (amp psi)) s) : Evolved ds H (-Complex.I * dt) (amp psi) out.target := by
  refine C105_exact hl hexp hdt ho hs hf ?_
  set m := out.basis.states.length with hm
  obtain ⟨c, hc⟩ := hk
  have small : ∀ i < m, out.basis.InSpan ds m ((act ds H)^[i] (amp psi)) := fun i hi => Basis.InSpan.mono (by omega) (hs.basis.span hf hx i hi)
  have hall : ∀ k, ∃ d : Nat → ℂ, ∀ s, IsCfg ds s → ((act ds H)^[k] (amp psi)) s = ∑ i ∈ Finset.range m, d i * ((act ds H)^[i] (amp psi)) s := by
    intro k
    induction k with
    | zero =>
      refine ⟨fun i => if i = 0 then 1 else 0, fun s _ => ?_⟩
      have := hs.basis.size.1
      simp [← hm, this.ne'] 
      omega
    | succ k ih =>
      obtain ⟨d, hd⟩ := ih
      have hstep : ∀ s, IsCfg ds s → ((act ds H)^[k + 1] (amp psi)) s = ∑ i ∈ Finset.range m, d i * ((act ds H)^[i + 1] (amp psi)) s := by
        intro s _
        rw [Function.iterate_succ_apply', act_congr hd s]
        simp only [Function.iterate_succ_apply']
        unfold Arnoldi.act actOp
        simp only [Finset.mul_sum, ← sumCfg_mul_left]
        rw [← sumCfg_sum]
        exact sumCfg_congr fun t _ => Finset.sum_congr rfl fun j _ => by ring
      obtain ⟨n, hn⟩ : ∃ n, m = n + 1 := ⟨m - 1, by have := hs.basis.size.1; omega⟩
      refine ⟨fun i => (if i = 0 then 0 else d (i - 1)) + d n * c i, fun s hs' => ?_⟩
      rw [hstep s hs', hn, Finset.sum_range_succ]
      have h1 := hc s hs'
      rw [hn] at h1
      rw [h1]
      simp only [add_mul, Finset.sum_add_distrib]
      congr 1
      · rw [Finset.sum_range_succ']
        simp
      · rw [Finset.mul_sum]
        exact Finset.sum_congr rfl fun i _ => by ring
  intro k
  obtain ⟨d, hd⟩ := hall k
  exact (Basis.InSpan.sum m fun i hi => (small i hi).smul (d i)).congr hd

/-- **C105.**  Eigenvectors only get a phase factor. -/
theorem C105_eigenvector {svd : Tensor ℂ → SvdRes ℂ} {eps dflt : ℝ} {single : Bool} {tolerance : ℝ}
    {inner final : Nat} {lin : Tensor ℂ → Tensor ℂ → Tensor ℂ} (hl : GoodSolveM lin) {expm : Tensor ℂ → Tensor ℂ}
    (hexp : ExactExpm expm) {eig : Tensor ℂ → Tensor ℂ × Tensor ℂ} {extra : List ℝ → List ℂ → ℝ} {H psi : List (Tensor ℂ)}
    {dt : ℂ} (hdt : dt ≠ 0) {nvectors : Int} {Dmax : Nat} {out : Arnoldi.Out}
    (ho : oneStep svd eps dflt single tolerance inner final lin expm eig extra H dt nvectors psi Dmax = some out)
    (hs : Stepped ds H psi nvectors.toNat Dmax final tolerance out) (hf : Faithful ds psi out.basis)
    {E : ℂ} (hE : ∀ s, IsCfg ds s → act ds H (amp psi) s = E * amp psi s) : ∀ s, IsCfg ds s → out.target s = Complex.exp (-Complex.I * dt * E) * amp psi s := by
  have hpow : ∀ k s, IsCfg ds s → ((act ds H)^[k] (amp psi)) s = E ^ k * amp psi s := by
    intro k
    induction k with
    | zero => intro s _; simp
    | succ k ih =>
      intro s hs'
      rw [Function.iterate_succ_apply', act_congr ih s]
      have : act ds H (fun t => E ^ k * amp psi t) s = E ^ k * act ds H (amp psi) s := by
        unfold Arnoldi.act actOp
        rw [← sumCfg_mul_left]
        exact sumCfg_congr fun t _ => by ring
      rw [this, hE s hs']; ring
  have h0 : out.basis.InSpan ds out.basis.states.length (amp psi) :=
    (Basis.InSpan.vec hs.basis.size.1).congr fun s hs' => (hs.basis.first hf s hs').symm
  have hev := C105_exact hl hexp hdt ho hs hf fun k => (h0.smul (E ^ k)).congr fun s hs' => hpow k s hs'
  intro s hs'
  have h1 := hev s hs'
  simp only [hpow _ s hs'] at h1
  have h2 : HasSum (fun k : Nat => (-Complex.I * dt) ^ k / (k.factorial : ℂ) * (E ^ k * amp psi s)) (Complex.exp (-Complex.I * dt * E) * amp psi s) := by
    have h3 := (NormedSpace.expSeries_div_hasSum_exp (𝔸 := ℂ) (-Complex.I * dt * E)).mul_right (amp psi s)
    rw [← Complex.exp_eq_exp_ℂ] at h3
    refine h3.congr_fun fun k => ?_
    rw [mul_pow]; ring
  exact h1.unique h2

/-- **C105.**  The order of the method: if the vectors of the basis are exact and there are `m` of them, the superposition that the program computes is `exp(-i H dt) psi` up
to an error of order `dt^m`. -/
theorem C105_order {svd : Tensor ℂ → SvdRes ℂ} (hg : GoodSvd svd) (eps : ℝ) {dflt : ℝ} (hd0 : 0 < dflt) (single : Bool) (tolerance : ℝ)
    {inner final : Nat} (hin : 0 < inner) {lin : Tensor ℂ → Tensor ℂ → Tensor ℂ} (hl : GoodSolveM lin) {expm : Tensor ℂ → Tensor ℂ}
    (hexp : ExactExpm expm) (eig : Tensor ℂ → Tensor ℂ × Tensor ℂ) (extra : List ℝ → List ℂ → ℝ) {H psi : List (Tensor ℂ)}
    (hHW : WFO 1 H ds 1) (hH : Minim.Hermitian ds H) (hpos : 0 < ds.length) (hpsi : WF 1 psi ds 1) {nvectors : Int} (hn : 0 < nvectors)
    (Dmax : Nat) (halg : (single = true ∧ Dmax = 0) ∨ 2 ≤ ds.length) :
    ∃ C : ℝ, ∀ (dt : ℂ) (out : Arnoldi.Out), dt ≠ 0 → ‖dt‖ ≤ 1 →
      oneStep svd eps dflt single tolerance inner final lin expm eig extra H dt nvectors psi Dmax = some out → Faithful ds psi out.basis → out.basis.exact →
      ∃ φ, Evolved ds H (-Complex.I * dt) (amp psi) φ ∧ ∀ s, IsCfg ds s → ‖out.target s - φ s‖ ≤ C * ‖dt‖ ^ out.basis.states.length := by
  obtain ⟨b, hb, hK, -⟩ := basis_spec hg eps hd0 single tolerance hin hHW hH hpos hpsi Dmax halg (nv := nvectors.toNat) (by omega)
  by_cases hfx : Faithful ds psi b ∧ b.exact
  · obtain ⟨hf, hx⟩ := hfx
    obtain ⟨C, hC0, hC⟩ := comb_order (hK.solve hf hl) (ψ := amp psi) (e := unit0 _) (fun s hs' => by rw [comb_unit0 _ hK.size.1, hK.first hf s hs']) b.states.length
      fun k hk => (Basis.InSpan.mono (by omega) (hK.span hf hx k hk)).family
    refine ⟨C, fun dt out hdt hdt1 ho _ _ => ?_⟩
    obtain ⟨h1, h2⟩ := oneStep_parts ho
    rw [hb] at h1
    have hbo : b = out.basis := Option.some.inj h1
    obtain ⟨φ, hφ⟩ := exists_evolved ds H (-Complex.I * dt) (amp psi)
    refine ⟨φ, hφ, fun s hs' => ?_⟩
    have := hC (-Complex.I * dt) φ (by simpa using hdt1) hφ s hs'
    unfold Arnoldi.Out.target
    rw [h2, ← hbo, superpose_evolve hK hl hexp eig hdt]
    simpa using this
  · refine ⟨0, fun dt out _ _ ho hf hx => absurd ?_ hfx⟩
    obtain ⟨h1, -⟩ := oneStep_parts ho
    rw [hb] at h1
    rw [Option.some.inj h1]
    exact ⟨hf, hx⟩

/-- **C105.**  The basis: if its vectors are exact, they are orthonormal and span the Krylov space. -/
theorem C105_orthonormal {svd : Tensor ℂ → SvdRes ℂ} {eps dflt : ℝ} {single : Bool} {tolerance : ℝ}
    {inner final : Nat} {lin : Tensor ℂ → Tensor ℂ → Tensor ℂ} {expm : Tensor ℂ → Tensor ℂ} {eig : Tensor ℂ → Tensor ℂ × Tensor ℂ} {extra : List ℝ → List ℂ → ℝ}
    {H psi : List (Tensor ℂ)} (hH : Minim.Hermitian ds H) {dt : ℂ} {nvectors : Int} {Dmax : Nat} {out : Arnoldi.Out}
    (ho : oneStep svd eps dflt single tolerance inner final lin expm eig extra H dt nvectors psi Dmax = some out)
    (hs : Stepped ds H psi nvectors.toNat Dmax final tolerance out) (hf : Faithful ds psi out.basis) (hx : out.basis.exact) :
    (∀ i < out.basis.states.length, ∀ j < out.basis.states.length,
      MPS.inner ds (out.basis.vec i) (out.basis.vec j) = if i = j then 1 else 0) ∧
    ∀ k < out.basis.states.length, out.basis.InSpan ds (k + 1) ((act ds H)^[k] (amp psi)) := by
  refine ⟨fun i hi j hj => ?_, hs.basis.span hf hx⟩
  rcases Nat.lt_trichotomy i j with h | rfl | h
  · rw [if_neg (by omega)]
    exact hs.basis.ortho hH hf hx j hj i h
  · rw [if_pos rfl]
    exact inner_unit (hs.basis.unit hf i hi)
  · rw [if_neg (by omega), ← inner_star', hs.basis.ortho hH hf hx i hi j h, star_zero]

end MPS.Props
