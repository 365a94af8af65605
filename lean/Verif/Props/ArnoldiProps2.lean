import Verif.Props.ArnoldiProps
import Verif.ArnoldiExists

/-!
# C106, C107: the Arnoldi method for ground states, and for initial states that are not normalised
-/

set_option linter.unusedSectionVars false
set_option linter.unusedSimpArgs false

namespace MPS.Props
open MPS Tensor Form Minim Obc Arnoldi
variable {ds : List Nat}

/-- **C106.**  A vanishing time step: the superposition that the program computes has the lowest energy of all the superpositions of the vectors of the basis. -/
theorem C106_ground {svd : Tensor ℂ → SvdRes ℂ} {eps dflt : ℝ} {single : Bool} {tolerance : ℝ}
    {inner final : Nat} {lin : Tensor ℂ → Tensor ℂ → Tensor ℂ} (hl : GoodSolveM lin) {expm : Tensor ℂ → Tensor ℂ}
    {eig : Tensor ℂ → Tensor ℂ × Tensor ℂ} (heig : GoodEig eig) {extra : List ℝ → List ℂ → ℝ} {H psi : List (Tensor ℂ)}
    (hH : Minim.Hermitian ds H) {nvectors : Int} {Dmax : Nat} {out : Arnoldi.Out}
    (ho : oneStep svd eps dflt single tolerance inner final lin expm eig extra H 0 nvectors psi Dmax = some out)
    (hs : Stepped ds H psi nvectors.toNat Dmax final tolerance out) (hf : Faithful ds psi out.basis) (hi : out.basis.Independent ds) :
    (∃ s, IsCfg ds s ∧ out.target s ≠ 0) ∧ out.basis.InSpan ds out.basis.states.length out.target ∧
    ∀ x, out.basis.InSpan ds out.basis.states.length x → energyAt ds H out.target * normSqOf ds x ≤ energyAt ds H x * normSqOf ds out.target := by
  obtain ⟨-, h2⟩ := oneStep_parts ho
  obtain ⟨g1, g2, g3⟩ := lowest hs.basis hf hi hH hl heig
  have ec : coefficients lin expm eig 0 out.basis.Heff out.basis.N = groundState lin eig out.basis.Heff out.basis.N := by simp [coefficients]
  have e : out.target = comb out.basis.family fun i => (groundState lin eig out.basis.Heff out.basis.N).get [i.1] := by
    funext s
    unfold Arnoldi.Out.target
    rw [h2, ec, superpose_comb _ _ g1]
  rw [e]
  refine ⟨g2, ⟨fun j => (groundState lin eig out.basis.Heff out.basis.N).get [j], fun s _ => ?_⟩, fun x hx => ?_⟩
  · rw [Finset.sum_range]; rfl
  · obtain ⟨y, hy⟩ := hx.family
    have e1 : normSqOf ds x = normSqOf ds (comb out.basis.family y) := sumCfg_congr fun s hs => by rw [hy s hs]
    have e2 : energyAt ds H x = energyAt ds H (comb out.basis.family y) := by
      unfold energyAt
      rw [inner_congr hy fun s _ => act_congr hy s]
    rw [e1, e2]
    exact g3 y

/-- **C106.**  In particular, if the vectors of the basis are exact. -/
theorem C106_exact {svd : Tensor ℂ → SvdRes ℂ} {eps dflt : ℝ} {single : Bool} {tolerance : ℝ}
    {inner final : Nat} {lin : Tensor ℂ → Tensor ℂ → Tensor ℂ} (hl : GoodSolveM lin) {expm : Tensor ℂ → Tensor ℂ}
    {eig : Tensor ℂ → Tensor ℂ × Tensor ℂ} (heig : GoodEig eig) {extra : List ℝ → List ℂ → ℝ} {H psi : List (Tensor ℂ)}
    (hH : Minim.Hermitian ds H) {nvectors : Int} {Dmax : Nat} {out : Arnoldi.Out}
    (ho : oneStep svd eps dflt single tolerance inner final lin expm eig extra H 0 nvectors psi Dmax = some out)
    (hs : Stepped ds H psi nvectors.toNat Dmax final tolerance out) (hf : Faithful ds psi out.basis) (hx : out.basis.exact) :
    (∀ i < out.basis.states.length, energyAt ds H out.target * normSqOf ds ((act ds H)^[i] (amp psi)) ≤
        energyAt ds H ((act ds H)^[i] (amp psi)) * normSqOf ds out.target) ∧
      0 < normSqOf ds out.target ∧ energyAt ds H out.target ≤ energyAt ds H (amp psi) * normSqOf ds out.target := by
  obtain ⟨o1, o2⟩ := C105_orthonormal hH ho hs hf hx
  have hi : out.basis.Independent ds := by
    intro y hy j hj
    have h0 : MPS.inner ds (out.basis.vec j) (fun s => ∑ i ∈ Finset.range out.basis.states.length, y i * out.basis.vec i s) = 0 := by
      rw [inner_congr (fun _ _ => rfl) hy]
      simp [MPS.inner, sumCfg_zero]
    have h1 : MPS.inner ds (out.basis.vec j) (fun s => ∑ i ∈ Finset.range out.basis.states.length, y i * out.basis.vec i s) =
        ∑ i ∈ Finset.range out.basis.states.length, y i * MPS.inner ds (out.basis.vec j) (out.basis.vec i) := by
      unfold MPS.inner
      simp only [Finset.mul_sum, ← sumCfg_mul_left]
      rw [← sumCfg_sum]
      exact sumCfg_congr fun s _ => Finset.sum_congr rfl fun i _ => by ring
    rw [h1, Finset.sum_eq_single j (fun i hi hne => by rw [o1 j hj i (Finset.mem_range.1 hi), if_neg (Ne.symm hne), mul_zero])
      (fun h => absurd (Finset.mem_range.2 hj) h), o1 j hj j hj, if_pos rfl, mul_one] at h0
    exact h0
  obtain ⟨g1, -, g3⟩ := C106_ground hl heig hH ho hs hf hi
  have g4 : ∀ i < out.basis.states.length, energyAt ds H out.target * normSqOf ds ((act ds H)^[i] (amp psi)) ≤
        energyAt ds H ((act ds H)^[i] (amp psi)) * normSqOf ds out.target := fun i hi => g3 _ (Basis.InSpan.mono (by omega) (o2 i hi))
  refine ⟨g4, ?_, ?_⟩
  · obtain ⟨s, hs', h⟩ := g1
    have h0 := normSqOf_nonneg ds out.target
    refine lt_of_le_of_ne h0 fun h1 => h ?_
    have := sumCfg_eq_zero_nonneg ds _ (fun s => by positivity) h1.symm s hs'
    simpa using this
  · have h1 := g4 0 hs.basis.size.1
    have h2 : normSqOf ds (amp psi) = 1 := hf.2
    simpa [h2] using h1

/-! ### initial states that are not normalised -/

/-- **C107.**  A single vector, and an initial state with `H psi = E psi` of any norm: the phase factor of the superposition that the program computes depends on the norm, it is
`exp(-i E |psi|² dt)` in place of `exp(-i E dt)`. -/
theorem C107_phase {svd : Tensor ℂ → SvdRes ℂ} (hg : GoodSvd svd) (eps : ℝ) {dflt : ℝ} (hd : 1 ≤ dflt) (single : Bool) (tolerance : ℝ)
    {inner final : Nat} (hin : 0 < inner) {lin : Tensor ℂ → Tensor ℂ → Tensor ℂ} (hl : GoodSolveM lin) {expm : Tensor ℂ → Tensor ℂ}
    (hexp : ExactExpm expm) (eig : Tensor ℂ → Tensor ℂ × Tensor ℂ) (extra : List ℝ → List ℂ → ℝ) {H psi : List (Tensor ℂ)}
    (hHW : WFO 1 H ds 1) (hH : Minim.Hermitian ds H) (hpos : 0 < ds.length) (hpsi : WF 1 psi ds 1) (hn : normSq ds psi ≠ 0) {E : ℝ}
    (hE : ∀ s, IsCfg ds s → act ds H (amp psi) s = (E : ℂ) * amp psi s) {dt : ℂ} (hdt : dt ≠ 0)
    (Dmax : Nat) (halg : (single = true ∧ Dmax = 0) ∨ 2 ≤ ds.length) {out : Arnoldi.Out}
    (ho : oneStep svd eps dflt single tolerance inner final lin expm eig extra H dt 1 psi Dmax = some out) :
    ∀ s, IsCfg ds s → out.target s = Complex.exp (-Complex.I * dt * (E * normSq ds psi : ℝ)) * (((1 / Real.sqrt (normSq ds psi) : ℝ) : ℂ) * amp psi s) := by
  obtain ⟨h1, h2⟩ := oneStep_parts ho
  obtain ⟨b, hb, hK, -⟩ := basis_spec hg eps (by linarith) single tolerance hin hHW hH hpos hpsi Dmax halg (nv := 1) (by omega)
  obtain ⟨χ, l1, a1, a2, a3, a4, a5⟩ := apply_pack hg eps (show 0 < dflt by linarith) hHW hpsi hpos
  obtain ⟨n1, n2, n3, n4⟩ := normal_pack hg eps (show 0 < dflt by linarith) hpsi hpos
  have hb' := hb
  unfold Arnoldi.basis at hb'
  rw [a1, Option.bind_some] at hb'
  simp only [] at hb'
  rw [scprod_pack hpsi a2 hpos, Option.bind_some] at hb'
  simp only [Nat.sub_self, grow, Option.some.injEq] at hb'
  have hob : out.basis = b := by
    have h1' : Arnoldi.basis svd eps dflt single tolerance inner H 1 psi Dmax = some out.basis := h1
    rw [hb] at h1'
    exact (Option.some.inj h1').symm
  rw [hob] at h2
  have hst : b.states = [(normalForm svd eps dflt psi (-1)).1] := by rw [← hb']
  have hlen : b.states.length = 1 := by rw [hst]; rfl
  have hN : b.N.get [0, 0] = 1 := by rw [← hb']; simp [setAt]
  have hHe : b.Heff.get [0, 0] = ((E * normSq ds psi : ℝ) : ℂ) := by
    rw [← hb']
    simp only [setAt, if_true]
    rw [inner_congr (fun _ _ => rfl) (fun s hs => (a5 (a4 hd) s hs).trans (hE s hs))]
    have : MPS.inner ds (amp psi) (fun s => (E : ℂ) * amp psi s) = (E : ℂ) * MPS.inner ds (amp psi) (amp psi) := by
      unfold MPS.inner
      rw [← sumCfg_mul_left]
      exact sumCfg_congr fun s _ => by ring
    rw [this, inner_self_ofReal]
    show ((((E : ℂ) * ((normSq ds psi : ℝ) : ℂ)).re : ℝ) : ℂ) = _
    rw [← Complex.ofReal_mul, Complex.ofReal_re]
  have hX : (b.mat lin).mulVec (unit0 _) = ((E * normSq ds psi : ℝ) : ℂ) • unit0 _ := by
    obtain ⟨-, h⟩ := hl b.N b.Heff b.states.length hK.dims.1 hK.dims.2
    have h := h ⟨fun _ _ => b.Heff.get [0, 0], fun i hi j hj => by
      rw [hlen] at hi hj ⊢
      obtain rfl : i = 0 := by omega
      obtain rfl : j = 0 := by omega
      simp [hN]⟩ 0 (by omega) 0 (by omega)
    rw [hlen, Finset.sum_range_one, hN, one_mul, hHe] at h
    funext i
    have hi : i.1 = 0 := by omega
    rw [Matrix.mulVec, dotProduct, Finset.sum_eq_single (⟨0, by omega⟩ : Fin b.states.length)]
    · simp [Basis.mat, toMat, unit0, hi, h]
    · intro j _ hj
      exact absurd (Fin.ext (by have := j.2; omega)) hj
    · simp
  intro s hs
  unfold Arnoldi.Out.target
  rw [h2, hob, superpose_evolve hK hl hexp eig hdt, exp_eigen _ _ _ _ hX]
  have hc : comb b.family (Complex.exp (-Complex.I * dt * ((E * normSq ds psi : ℝ) : ℂ)) • unit0 _) s =
      Complex.exp (-Complex.I * dt * ((E * normSq ds psi : ℝ) : ℂ)) * comb b.family (unit0 _) s := by
    unfold comb
    rw [Finset.mul_sum]
    exact Finset.sum_congr rfl fun i _ => by rw [Pi.smul_apply, smul_eq_mul]; ring
  rw [hc, comb_unit0 _ (by omega)]
  congr 1
  have hv : b.vec 0 s = amp (normalForm svd eps dflt psi (-1)).1 s := by
    unfold Basis.vec
    rw [hst]; rfl
  rw [hv, (n4 (n3 hd) hn).2 s hs]

/-! ### examples -/

/-- the operator `-1 - Σ_{i,k} |i i⟩⟨k k|` -/
def pairOp : List (Tensor ℂ) :=
  [⟨[1, 2, 2, 4], fun I => if I.getD 3 0 = 2 * I.getD 1 0 + I.getD 2 0 then 1 else 0⟩,
   ⟨[4, 2, 2, 1], fun I => (if I.getD 0 0 / 2 = I.getD 0 0 % 2 ∧ I.getD 1 0 = I.getD 2 0 then -1 else 0) +
      (if I.getD 0 0 / 2 = I.getD 1 0 ∧ I.getD 0 0 % 2 = I.getD 2 0 then -1 else 0)⟩]

theorem pairOp_wf : WFO 1 pairOp [2, 2] 1 :=
  .cons rfl (by omega) (by omega) (by omega) (.cons rfl (by omega) (by omega) (by omega) (.nil 1))

theorem pairOp_elt {i k j l : Nat} (hi : i < 2) (hk : k < 2) (hj : j < 2) (hl : l < 2) : opElt pairOp [i, k] [j, l] =
    (if i = j ∧ k = l then -1 else 0) + (if i = k ∧ j = l then -1 else 0) := by
  rw [opElt_of_WFO pairOp_wf (by simp [pairOp])]
  interval_cases i <;> interval_cases k <;> interval_cases j <;> interval_cases l <;>
    simp [pairOp, opPath, dim, Finset.sum_range_succ]

theorem pairOp_hermitian : Minim.Hermitian [2, 2] pairOp := by
  intro s t hs ht
  obtain ⟨i, k, hi, hk, rfl⟩ := cfg22 hs
  obtain ⟨j, l, hj, hl, rfl⟩ := cfg22 ht
  rw [pairOp_elt hi hk hj hl, pairOp_elt hj hl hi hk]
  interval_cases i <;> interval_cases k <;> interval_cases j <;> interval_cases l <;> simp

/-- `c |0 b⟩` -/
def spins (c : ℂ) (b : Nat) : List (Tensor ℂ) :=
  [⟨[1, 2, 1], fun I => if I.getD 1 0 = 0 then c else 0⟩, ⟨[1, 2, 1], fun I => if I.getD 1 0 = b then 1 else 0⟩]

theorem spins_wf (c : ℂ) (b : Nat) : WF 1 (spins c b) [2, 2] 1 :=
  .cons rfl (by omega) (by omega) (by omega) (.cons rfl (by omega) (by omega) (by omega) (.nil 1))

theorem spins_amp (c : ℂ) (b i j : Nat) : amp (spins c b) [i, j] = if i = 0 ∧ j = b then c else 0 := by
  simp only [amp, spins, path, dim, Finset.sum_range_one]
  by_cases h1 : i = 0 <;> by_cases h2 : j = b <;> simp [h1, h2]

theorem spins_norm (c : ℂ) {b : Nat} (hb : b < 2) : normSq [2, 2] (spins c b) = ‖c‖ ^ 2 := by
  interval_cases b <;> simp [normSq, sumCfg_cons, Finset.sum_range_succ, spins_amp]

theorem spins_eigen (c : ℂ) : ∀ s, IsCfg [2, 2] s → act [2, 2] pairOp (amp (spins c 1)) s = ((-1 : ℝ) : ℂ) * amp (spins c 1) s := by
  intro s hs
  obtain ⟨i, k, hi, hk, rfl⟩ := cfg22 hs
  simp only [act, actOp, sumCfg_cons, sumCfg_nil, Finset.sum_range_succ, Finset.sum_range_zero, spins_amp]
  interval_cases i <;> interval_cases k <;> simp [pairOp_elt]

/-- C103, C104 are not vacuous: five vectors, an initial state `|00⟩` that is not an eigenvector, two-site algorithm with bonds at most 2 -/
example : ∃ svd lin eig, GoodSvd svd ∧ GoodSolveM lin ∧ GoodEig eig ∧ ∀ (eps dflt : ℝ), 1 ≤ dflt → ∀ (extra : List ℝ → List ℂ → ℝ),
    ∃ out, oneStep svd eps dflt false 1e-14 2 4 lin Trotter.matrixExp eig extra pairOp ((1 / 10 : ℝ) : ℂ) 5 (spins 1 0) 2 = some out ∧
      WF 1 out.psi [2, 2] 1 ∧ normSqOf [2, 2] out.target = 1 ∧ energyAt [2, 2] pairOp out.target = -2 := by
  obtain ⟨svd, hg⟩ := exists_goodSvd (K := ℂ)
  obtain ⟨lin, hl⟩ := exists_goodSolveM
  obtain ⟨eig, he⟩ := exists_goodEig
  refine ⟨svd, lin, eig, hg, hl, he, fun eps dflt hd extra => ?_⟩
  obtain ⟨out, ho, hs⟩ := C103_one_step hg eps (show 0 < dflt by linarith) false 1e-14 (inner := 2) (final := 4) (by omega) (by omega) hl exactExpm_matrixExp he
    extra pairOp_wf pairOp_hermitian (by simp) (spins_wf 1 0) ((1 / 10 : ℝ) : ℂ) (nvectors := 5) (by omega) (by omega) 2 (Or.inr (by simp))
  have hf : Faithful [2, 2] (spins 1 0) out.basis := ⟨lossless_basis hg eps hd (by omega) pairOp_wf pairOp_hermitian (by simp) (spins_wf 1 0)
    (Or.inr (by simp)) (by omega) (oneStep_parts ho).1, by rw [spins_norm _ (by omega)]; simp⟩
  obtain ⟨c1, c2⟩ := C104_conserved hl exactExpm_matrixExp pairOp_hermitian (by norm_num) ho hs hf
  refine ⟨out, ho, hs.wf, c1, c2.trans ?_⟩
  simp [energyAt, MPS.inner, act, actOp, sumCfg_cons, Finset.sum_range_succ, spins_amp, pairOp_elt]
  norm_num

/-- C105 is not vacuous: the state `|01⟩` is an eigenvector -/
example : ∃ svd lin eig, GoodSvd svd ∧ GoodSolveM lin ∧ GoodEig eig ∧ ∀ (eps dflt : ℝ), 1 ≤ dflt → ∀ (extra : List ℝ → List ℂ → ℝ),
    ∃ out, oneStep svd eps dflt false 1e-14 2 4 lin Trotter.matrixExp eig extra pairOp 2 5 (spins 1 1) 2 = some out ∧
      ∀ s, IsCfg [2, 2] s → out.target s = Complex.exp (2 * Complex.I) * amp (spins 1 1) s := by
  obtain ⟨svd, hg⟩ := exists_goodSvd (K := ℂ)
  obtain ⟨lin, hl⟩ := exists_goodSolveM
  obtain ⟨eig, he⟩ := exists_goodEig
  refine ⟨svd, lin, eig, hg, hl, he, fun eps dflt hd extra => ?_⟩
  obtain ⟨out, ho, hs⟩ := C103_one_step hg eps (show 0 < dflt by linarith) false 1e-14 (inner := 2) (final := 4) (by omega) (by omega) hl exactExpm_matrixExp he
    extra pairOp_wf pairOp_hermitian (by simp) (spins_wf 1 1) 2 (nvectors := 5) (by omega) (by omega) 2 (Or.inr (by simp))
  have hf : Faithful [2, 2] (spins 1 1) out.basis := ⟨lossless_basis hg eps hd (by omega) pairOp_wf pairOp_hermitian (by simp) (spins_wf 1 1)
    (Or.inr (by simp)) (by omega) (oneStep_parts ho).1, by rw [spins_norm _ (by omega)]; simp⟩
  refine ⟨out, ho, fun s hs' => ?_⟩
  rw [C105_eigenvector hl exactExpm_matrixExp (by norm_num) ho hs hf (spins_eigen 1) s hs']
  congr 2
  push_cast; ring

/-- a basis of one vector is exact -/
theorem exact_one {svd : Tensor ℂ → SvdRes ℂ} {eps dflt : ℝ} {single : Bool} {tolerance : ℝ} {inner : Nat} {H psi : List (Tensor ℂ)} {Dmax : Nat} {b : Basis}
    (hb : Arnoldi.basis svd eps dflt single tolerance inner H 1 psi Dmax = some b) : b.exact := by
  unfold Arnoldi.basis at hb
  obtain ⟨h, -, hb⟩ := Option.bind_eq_some_iff.1 hb
  obtain ⟨e, -, hb⟩ := Option.bind_eq_some_iff.1 hb
  simp only [Nat.sub_self, grow, Option.some.injEq] at hb
  rw [← hb]
  trivial

/-- C106 is not vacuous -/
example : ∃ svd lin eig, GoodSvd svd ∧ GoodSolveM lin ∧ GoodEig eig ∧ ∀ (eps dflt : ℝ), 1 ≤ dflt → ∀ (extra : List ℝ → List ℂ → ℝ),
    ∃ out, oneStep svd eps dflt false 1e-14 2 4 lin Trotter.matrixExp eig extra pairOp 0 1 (spins 1 0) 2 = some out ∧ out.basis.exact ∧
      0 < normSqOf [2, 2] out.target := by
  obtain ⟨svd, hg⟩ := exists_goodSvd (K := ℂ)
  obtain ⟨lin, hl⟩ := exists_goodSolveM
  obtain ⟨eig, he⟩ := exists_goodEig
  refine ⟨svd, lin, eig, hg, hl, he, fun eps dflt hd extra => ?_⟩
  obtain ⟨out, ho, hs⟩ := C103_one_step hg eps (show 0 < dflt by linarith) false 1e-14 (inner := 2) (final := 4) (by omega) (by omega) hl exactExpm_matrixExp he
    extra pairOp_wf pairOp_hermitian (by simp) (spins_wf 1 0) 0 (nvectors := 1) (by omega) (by omega) 2 (Or.inr (by simp))
  have hf : Faithful [2, 2] (spins 1 0) out.basis := ⟨lossless_basis hg eps hd (by omega) pairOp_wf pairOp_hermitian (by simp) (spins_wf 1 0)
    (Or.inr (by simp)) (by omega) (oneStep_parts ho).1, by rw [spins_norm _ (by omega)]; simp⟩
  have hx : out.basis.exact := exact_one (oneStep_parts ho).1
  exact ⟨out, ho, hx, (C106_exact hl he pairOp_hermitian ho hs hf hx).2.1⟩

/-- **C107, violated.**  The claim for initial states of any norm, that up to its norm the new state is `exp(-i H dt) psi` when `psi` is an eigenvector, fails: for the state `2 |01⟩` of
energy -1 per unit of norm and the time step `π/6` the phase of the result is wrong by a factor `i`, however the final compression behaves. -/
theorem C107_violated : ∃ (svd : Tensor ℂ → SvdRes ℂ) (lin : Tensor ℂ → Tensor ℂ → Tensor ℂ) (expm : Tensor ℂ → Tensor ℂ) (eig : Tensor ℂ → Tensor ℂ × Tensor ℂ),
    GoodSvd svd ∧ GoodSolveM lin ∧ ExactExpm expm ∧ GoodEig eig ∧ ∀ (eps dflt : ℝ), 1 ≤ dflt → ∀ (extra : List ℝ → List ℂ → ℝ),
    (∀ s, IsCfg [2, 2] s → act [2, 2] pairOp (amp (spins 2 1)) s = -1 * amp (spins 2 1) s) ∧
    ∃ out, oneStep svd eps dflt true 1e-14 2 4 lin expm eig extra pairOp ((Real.pi / 6 : ℝ) : ℂ) 1 (spins 2 1) 0 = some out ∧
      ∀ r : ℝ, 0 < r → ¬ ∀ s, IsCfg [2, 2] s → amp out.psi s = r * (Complex.exp (-Complex.I * ((Real.pi / 6 : ℝ) : ℂ) * (-1)) * amp (spins 2 1) s) := by
  obtain ⟨svd, hg⟩ := exists_goodSvd (K := ℂ)
  obtain ⟨lin, hl⟩ := exists_goodSolveM
  obtain ⟨eig, he⟩ := exists_goodEig
  refine ⟨svd, lin, Trotter.matrixExp, eig, hg, hl, exactExpm_matrixExp, he, fun eps dflt hd extra => ⟨fun s hs => by simpa using spins_eigen 2 s hs, ?_⟩⟩
  obtain ⟨out, ho, hs⟩ := C103_one_step hg eps (show 0 < dflt by linarith) true 1e-14 (inner := 2) (final := 4) (by omega) (by omega) hl exactExpm_matrixExp he
    extra pairOp_wf pairOp_hermitian (by simp) (spins_wf 2 1) ((Real.pi / 6 : ℝ) : ℂ) (nvectors := 1) (by omega) (by omega) 0 (Or.inl ⟨rfl, rfl⟩)
  refine ⟨out, ho, fun r hr hc => ?_⟩
  have hpi : ((Real.pi / 6 : ℝ) : ℂ) ≠ 0 := by exact_mod_cast (by positivity : (Real.pi / 6 : ℝ) ≠ 0)
  have ht := C107_phase hg eps hd true 1e-14 (inner := 2) (by omega) hl exactExpm_matrixExp eig extra pairOp_wf pairOp_hermitian (by simp) (spins_wf 2 1)
    (by rw [spins_norm _ (by omega)]; norm_num) (spins_eigen 2) hpi 0 (Or.inl ⟨rfl, rfl⟩) ho
  have hn2 : normSq [2, 2] (spins 2 1) = 4 := by rw [spins_norm _ (by omega)]; norm_num
  rw [hn2] at ht
  have hsq : Real.sqrt 4 = 2 := by
    rw [show (4 : ℝ) = 2 ^ 2 by norm_num]; exact Real.sqrt_sq (by norm_num)
  rw [hsq] at ht
  -- the overlap of the result with the superposition is real
  have hov := hs.approx.best.overlap
  have hun := hs.approx.unit rfl
  have t1 : ∀ s, IsCfg [2, 2] s → superpose out.coef out.basis.states s =
      Complex.exp (-Complex.I * ((Real.pi / 6 : ℝ) : ℂ) * ((-1 * 4 : ℝ) : ℂ)) * (((1 / 2 : ℝ) : ℂ) * amp (spins 2 1) s) := ht
  have t2 : ∀ s, IsCfg [2, 2] s → ((1 / Real.sqrt out.last.norm : ℝ) : ℂ) * amp out.last.P0 s =
      r * (Complex.exp (-Complex.I * ((Real.pi / 6 : ℝ) : ℂ) * (-1)) * amp (spins 2 1) s) := by
    intro s hs'
    rw [← hc s hs', hs.psi]
    exact (hun.1 s hs').symm
  set q : ℂ := Complex.exp (-Complex.I * ((Real.pi / 6 : ℝ) : ℂ) * (-1)) with hq
  have q1 : Complex.exp (-Complex.I * ((Real.pi / 6 : ℝ) : ℂ) * ((-1 * 4 : ℝ) : ℂ)) = q * Complex.I := by
    rw [show (-Complex.I * ((Real.pi / 6 : ℝ) : ℂ) * ((-1 * 4 : ℝ) : ℂ)) =
      -Complex.I * ((Real.pi / 6 : ℝ) : ℂ) * (-1) + (Real.pi : ℂ) / 2 * Complex.I by push_cast; ring, Complex.exp_add, Complex.exp_pi_div_two_mul_I]
  have q2 : star q * q = 1 := by
    rw [hq, show (-Complex.I * ((Real.pi / 6 : ℝ) : ℂ) * (-1)) = ((Real.pi / 6 : ℝ) : ℂ) * Complex.I by ring]
    have := Complex.normSq_eq_norm_sq (Complex.exp (((Real.pi / 6 : ℝ) : ℂ) * Complex.I))
    rw [Complex.norm_exp_ofReal_mul_I] at this
    have h2 := Complex.normSq_eq_conj_mul_self (z := Complex.exp (((Real.pi / 6 : ℝ) : ℂ) * Complex.I))
    rw [this] at h2
    simpa using h2.symm
  have h3 : ((1 / Real.sqrt out.last.norm : ℝ) : ℂ) * MPS.inner [2, 2] (superpose out.coef out.basis.states) (amp out.last.P0) = -Complex.I * (4 * (1 / 2) * r) := by
    have : ((1 / Real.sqrt out.last.norm : ℝ) : ℂ) * MPS.inner [2, 2] (superpose out.coef out.basis.states) (amp out.last.P0) =
        MPS.inner [2, 2] (superpose out.coef out.basis.states) (fun s => ((1 / Real.sqrt out.last.norm : ℝ) : ℂ) * amp out.last.P0 s) := by
      unfold MPS.inner
      rw [← sumCfg_mul_left]
      exact sumCfg_congr fun s _ => by ring
    rw [this, inner_congr t1 t2, q1]
    simp only [MPS.inner, sumCfg_cons, sumCfg_nil, Finset.sum_range_succ, Finset.sum_range_zero, spins_amp]
    simp
    have q3 : (starRingEnd ℂ) q * q = 1 := q2
    linear_combination (2 * Complex.I * r) * q3
  rw [hov] at h3
  have h4 := congrArg Complex.im h3
  simp at h4
  exact hr.ne' (by simpa using h4)

end MPS.Props
