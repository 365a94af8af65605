import Verif.TrotterTrunc5
import Verif.Props.TrotterTruncProps

/-!
# C126: `Unitary::apply` with truncation is a projection and nearly optimal

`ReadyFor` (`TrotterTruncSpec`): the state is in canonical form with respect to the end where the sweep begins.  `layerElt` (`TrotterSpec`):
the exact tensor product of the gates of the layer.  `SchmidtRank` (`SchmidtSpec`).  `SortedSvd`: the singular values are nonnegative
and come in decreasing order.
-/

set_option linter.unusedSectionVars false
set_option linter.unusedSimpArgs false

namespace MPS.Props
open MPS Tensor Trotter Order Minim

/-- **C126.**  A layer of gates of any Hamiltonian, Hermitian or not, with a real, imaginary or complex time step, applied with any maximal
dimension and tolerance to a state `x` ready for the sweep: the new state `y` is the orthogonal projection of the exact result `T` on the
line of `y`, `⟨y|T⟩ = ⟨y|y⟩`; so the squared distance to the exact result is exactly the squared norm lost, and the truncations of the
whole layer never increase the norm. -/
theorem C126_projection {svd : Tensor ℂ → SvdRes ℂ} (hg : GoodSvd svd) (eps : ℝ) {dflt : ℝ} (hd0 : 0 < dflt)
    {expm : Tensor ℂ → Tensor ℂ} (he : ∀ A n, A.dims = [n, n] → (expm A).dims = [n, n])
    {H : Ham ℂ} {ds : List Nat} (hH : HamFits H ds) (k : Nat) (hk : k ≤ 1) (dt : ℂ) {W : Unitary}
    (hW : mkUnitary expm H k dt = some W) (x : Evo) (sense : Int) (hx : ReadyFor ds x.P sense) (tol : ℝ) (htol : tol < 0 ∨ 0 < tol)
    {Dmax : Nat} (hD : Dmax ≠ 0) :
    let y := (apply svd eps dflt W x sense tol Dmax false).1
    let T := actOp ds (layerElt ds k (site W.U)) (amp x.P)
    MPS.inner ds (amp y.P) T = MPS.inner ds (amp y.P) (amp y.P) ∧
      wdist ds T (amp y.P) ^ 2 = wnorm ds T ^ 2 - wnorm ds (amp y.P) ^ 2 ∧ wnorm ds (amp y.P) ≤ wnorm ds T := by
  intro y T
  obtain ⟨hx, hpos⟩ := ready_iff.1 hx
  obtain ⟨W', e, hf, -⟩ := mkUnitary_fits he hH k hk dt
  rw [hW] at e
  cases e
  have ht : 0 < effTol dflt tol := by
    unfold effTol; rcases htol with h | h
    · rw [if_pos h]; exact hd0
    · rw [if_neg (by linarith)]; exact h
  set s := (if sense = 0 then 1 else sense) with hs
  have hs0 : s ≠ 0 := by rw [hs]; split <;> omega
  have hst : startAt ds.length sense = startAt ds.length s := by
    unfold startAt; rw [hs]
    by_cases h0 : sense = 0
    · simp [h0]
    · rw [if_neg h0]
  have hy : y = sweep svd eps dflt W x s tol Dmax := by
    show (apply svd eps dflt W x sense tol Dmax false).1 = _
    rw [apply_eq]; simp [hs]
  obtain ⟨-, h2⟩ := sweep_sees hg eps hd0 hf x hpos s hs0 (by rw [← hst]; exact hx) tol ht hD
  rw [← hy] at h2
  have h3 := proj_dist' h2
  have pos : ∀ F : List Nat → ℂ, 0 ≤ sumCfg ds fun s => ‖F s‖ ^ 2 := fun F => sumCfg_nonneg _ _ fun _ _ => by positivity
  refine ⟨h2, ?_, ?_⟩
  · unfold wdist wnorm
    rw [Real.sq_sqrt (pos _), Real.sq_sqrt (pos _), Real.sq_sqrt (pos _)]
    exact h3
  · refine Real.sqrt_le_sqrt ?_
    have : 0 ≤ sumCfg ds fun s => ‖T s - amp y.P s‖ ^ 2 := sumCfg_nonneg _ _ fun _ _ => by positivity
    exact sub_nonneg.1 (this.trans_eq h3)

/-- **C126.**  The same with a Hermitian Hamiltonian and a real time step: the squared distance to the exact result `T` is at most
`L/2` times that of any wave function `φ` whose Schmidt rank at the bonds where the gates act is `Dmax` at most (or than the tolerance), plus
what `set_canonical` drops, which is limited by the machine precision. -/
theorem C126_nearly_optimal {svd : Tensor ℂ → SvdRes ℂ} (hg : GoodSvd svd) (hsort : SortedSvd svd) (eps : ℝ) {dflt : ℝ} (hd0 : 0 < dflt)
    {expm : Tensor ℂ → Tensor ℂ} (he : GoodExpm expm)
    {H : Ham ℂ} {ds : List Nat} (hH : HamFits H ds) (hh : HamHermitian H ds) (k : Nat) (hk : k ≤ 1) (dt : ℝ) {W : Unitary}
    (hW : mkUnitary expm H k dt = some W) (x : Evo) (sense : Int) (hx : ReadyFor ds x.P sense) (tol : ℝ) (htol : tol < 0 ∨ 0 < tol)
    {Dmax : Nat} (hD : Dmax ≠ 0) (φ : List Nat → ℂ) (hφ : ∀ p, PairAt ds.length k p → SchmidtRank ds (p + 1) Dmax φ) :
    let y := (apply svd eps dflt W x sense tol Dmax false).1
    let T := actOp ds (layerElt ds k (site W.U)) (amp x.P)
    wdist ds T (amp y.P) ^ 2 ≤
      ds.length / 2 * max (wdist ds T φ ^ 2) (max (if tol < 0 then dflt else tol) eps * normSq ds x.P) + ds.length * (max dflt eps * normSq ds x.P) := by
  intro y T
  obtain ⟨-, h2, -⟩ := C126_projection hg eps hd0 he.dims hH k hk (dt : ℂ) hW x sense hx tol htol hD
  obtain ⟨hx, hpos⟩ := ready_iff.1 hx
  obtain ⟨W', e, hf, -⟩ := mkUnitary_fits he.dims hH k hk (dt : ℂ)
  rw [hW] at e
  cases e
  have ht : 0 < effTol dflt tol := by
    unfold effTol; rcases htol with h | h
    · rw [if_pos h]; exact hd0
    · rw [if_neg (by linarith)]; exact h
  obtain ⟨W', w1, w2⟩ := C58_gates hH expm (dt : ℂ) k hk
  rw [hW] at w1
  cases w1
  have hu : GatesUnitary ds k W.gate := by
    constructor
    · intro p hp
      rw [show W.gate p = _ from w2 p (Or.inl hp)]
      exact he.unitary _ _ (by exact (layerGen_dims hH k).1 p hp) (anti_of_herm ((layerGen_hermitian hH hh k).1 p hp) (by simp))
    · intro p hp
      rw [show W.gate p = _ from w2 p (Or.inr hp)]
      exact he.unitary _ _ (by exact (layerGen_dims hH k).2 p hp) (anti_of_herm ((layerGen_hermitian hH hh k).2 p hp) (by simp))
  set s := (if sense = 0 then 1 else sense) with hs
  have hs0 : s ≠ 0 := by rw [hs]; split <;> omega
  have hst : startAt ds.length sense = startAt ds.length s := by
    unfold startAt; rw [hs]
    by_cases h0 : sense = 0
    · simp [h0]
    · rw [if_neg h0]
  have hy : y = sweep svd eps dflt W x s tol Dmax := by
    show (apply svd eps dflt W x sense tol Dmax false).1 = _
    rw [apply_eq]; simp [hs]
  obtain ⟨S, hS, hn⟩ := sweep_near hg eps hd0 hf hu x hpos s hs0 (by rw [← hst]; exact hx) tol ht hD
  have ho := sweep_opt hg hsort eps hd0 hf hu x hpos s hs0 (by rw [← hst]; exact hx) tol ht hD φ hφ
  dsimp only at ho
  rw [← hy] at hn ho
  have pos : ∀ F : List Nat → ℂ, 0 ≤ sumCfg ds fun s => ‖F s‖ ^ 2 := fun F => sumCfg_nonneg _ _ fun _ _ => by positivity
  have hT : wnorm ds T ^ 2 = normSq ds x.P := by
    have h := layerSteps_norm he hH hh dt [(k, 1)] (by simp) (amp x.P)
    have e : layerSteps expm H ds dt [(k, 1)] (amp x.P) = T := by
      funext t
      show layerStep expm H ds dt (amp x.P) (k, 1) t = _
      unfold layerStep
      simp only [mul_one]
      exact actOp_congr (fun s t => layerElt_congr (fun p hp => (w2 p hp).symm) s t) (fun _ _ => rfl) t
    rw [e] at h
    exact (Real.sq_sqrt (pos _)).trans (sumSq_of_inner h)
  have hyn : wnorm ds (amp y.P) ^ 2 = normSq ds y.P := Real.sq_sqrt (pos _)
  have hd : wdist ds T φ ^ 2 = sumCfg ds fun s => ‖actOp ds (layerElt ds k W.gate) (amp x.P) s - φ s‖ ^ 2 := Real.sq_sqrt (pos _)
  have h2' : wdist ds T (amp y.P) ^ 2 = wnorm ds T ^ 2 - wnorm ds (amp y.P) ^ 2 := h2
  have h3 := hn.norm
  have h4 := hn.small
  rw [h2', hT, hyn, hd]
  unfold Evo.tot at h3
  have : (if tol < 0 then dflt else tol) = effTol dflt tol := rfl
  rw [this]
  linarith

/-- **C126.**  A matrix product state whose bond before the site `c` has dimension `D` at most has Schmidt rank `D` at most there -/
theorem C126_bond_schmidt {K : Type} [RCLike K] {ds : List Nat} {Q : List (Tensor K)} (hw : WF 1 Q ds 1) {c D : Nat} (hc : c < ds.length)
    (hb : (site Q c).dim 0 ≤ D) : SchmidtRank ds c D (amp Q) := by
  have hl := hw.length
  have hne : Q ≠ [] := by intro h; rw [h] at hl; simp at hl; omega
  obtain ⟨a, b, w1, w2, w3, p1, p2, p3⟩ := WF.around hw hc
  have hQ : Q = Q.take c ++ Q.drop c := (List.take_append_drop c Q).symm
  have ha : a ≤ D := by simpa [Tensor.dim, w2] using hb
  refine ⟨fun k l => if k < a then path (Q.take c) l 0 k else 0, fun k r => path (Q.drop c) r k 0, fun s hs => ?_⟩
  have hsl : s.length = ds.length := hs.length
  rw [amp_of_WF hw hne, Finset.sum_range_one]
  conv_lhs => rw [hQ, ← List.take_append_drop c s]
  rw [path_append w1 (by rw [List.length_take, List.length_take]; omega) Nat.one_pos]
  simp only [ite_mul, zero_mul]
  rw [← Finset.sum_filter]
  refine Finset.sum_congr ?_ fun _ _ => rfl
  ext k
  simp only [Finset.mem_range, Finset.mem_filter]
  omega

/-- **C126.**  Compared with any matrix product state whose bonds have dimension `Dmax` at most -/
theorem C126_best_mps {svd : Tensor ℂ → SvdRes ℂ} (hg : GoodSvd svd) (hsort : SortedSvd svd) (eps : ℝ) {dflt : ℝ} (hd0 : 0 < dflt)
    {expm : Tensor ℂ → Tensor ℂ} (he : GoodExpm expm)
    {H : Ham ℂ} {ds : List Nat} (hH : HamFits H ds) (hh : HamHermitian H ds) (k : Nat) (hk : k ≤ 1) (dt : ℝ) {W : Unitary}
    (hW : mkUnitary expm H k dt = some W) (x : Evo) (sense : Int) (hx : ReadyFor ds x.P sense) (tol : ℝ) (htol : tol < 0 ∨ 0 < tol)
    {Dmax : Nat} (hD : Dmax ≠ 0) (Q : List (Tensor ℂ)) (hQ : WF 1 Q ds 1) (hb : ∀ j, 0 < j → j < ds.length → (site Q j).dim 0 ≤ Dmax) :
    let y := (apply svd eps dflt W x sense tol Dmax false).1
    let T := actOp ds (layerElt ds k (site W.U)) (amp x.P)
    wdist ds T (amp y.P) ^ 2 ≤
      ds.length / 2 * max (wdist ds T (amp Q) ^ 2) (max (if tol < 0 then dflt else tol) eps * normSq ds x.P) + ds.length * (max dflt eps * normSq ds x.P) :=
  C126_nearly_optimal hg hsort eps hd0 he hH hh k hk dt hW x sense hx tol htol hD (amp Q) fun p hp =>
    C126_bond_schmidt hQ hp.2 (hb (p + 1) (by omega) hp.2)

/-- the hypotheses are met by an entangled state, for which `Dmax = 1` is a true restriction: the Bell state `|00⟩ + |11⟩` is ready for a
sweep to the right, and product states have Schmidt rank one, but not the Bell state -/
example : ∃ P : List (Tensor ℂ), ReadyFor [2, 2] P 1 ∧ normSq [2, 2] P = 2 ∧ (site P 1).dim 0 = 2 ∧ SchmidtRank [2, 2] 1 2 (amp P) ∧
    SchmidtRank [2, 2] 1 1 (fun s => if s = [0, 0] then (1 : ℂ) else 0) ∧ ¬ SchmidtRank [2, 2] 1 1 (amp P) := by
  let A : Tensor ℂ := ⟨[1, 2, 2], fun I => if I.getD 1 0 = I.getD 2 0 then 1 else 0⟩
  let B : Tensor ℂ := ⟨[2, 2, 1], fun I => if I.getD 0 0 = I.getD 1 0 then 1 else 0⟩
  have hw : WF 1 [A, B] [2, 2] 1 := WF.cons rfl Nat.one_pos (by decide) (by decide) (WF.cons rfl (by decide) (by decide) Nat.one_pos (WF.nil 1))
  have amps : ∀ i j, i < 2 → j < 2 → amp [A, B] [i, j] = if i = j then 1 else 0 := by
    intro i j hi hj
    rw [amp_of_WF hw (by simp), Finset.sum_range_one]
    have h1 : i = 0 ∨ i = 1 := by omega
    have h2 : j = 0 ∨ j = 1 := by omega
    rcases h1 with rfl | rfl <;> rcases h2 with rfl | rfl <;> simp [path_cons, path_nil, A, B, Tensor.dim, Finset.sum_range_succ]
  have cfg : ∀ i j, i < 2 → j < 2 → IsCfg [2, 2] [i, j] := fun i j hi hj => .cons hi (.cons hj .nil)
  refine ⟨[A, B], ⟨hw, by simp, fun _ j h0 hj => ?_, fun h => absurd h (by decide)⟩, ?_, rfl, C126_bond_schmidt hw (by simp) le_rfl, ?_, ?_⟩
  · have : j = 1 := by simp at hj; omega
    subst this
    intro x x' hx hx'
    have h1 : x = 0 ∨ x = 1 := by simp [site, B, Tensor.dim] at hx; omega
    have h2 : x' = 0 ∨ x' = 1 := by simp [site, B, Tensor.dim] at hx'; omega
    rcases h1 with rfl | rfl <;> rcases h2 with rfl | rfl <;> simp [site, B, Tensor.dim, Finset.sum_range_succ]
  · unfold normSq
    simp only [sumCfg_cons, sumCfg, Finset.sum_range_succ, Finset.sum_range_zero]
    rw [amps 0 0, amps 0 1, amps 1 0, amps 1 1] <;> norm_num
  · refine ⟨fun _ l => if l = [0] then 1 else 0, fun _ r => if r = [0] then 1 else 0, fun s hs => ?_⟩
    cases hs with
    | @cons i _ s _ hi hs =>
    cases hs with
    | @cons j _ s _ hj hs =>
    cases hs
    simp [← ite_and, and_comm]
  · rintro ⟨X, Y, h⟩
    simp only [Finset.sum_range_one] at h
    have h00 := h [0, 0] (cfg 0 0 (by omega) (by omega))
    have h01 := h [0, 1] (cfg 0 1 (by omega) (by omega))
    have h10 := h [1, 0] (cfg 1 0 (by omega) (by omega))
    have h11 := h [1, 1] (cfg 1 1 (by omega) (by omega))
    rw [amps 0 0 (by omega) (by omega)] at h00
    rw [amps 0 1 (by omega) (by omega)] at h01
    rw [amps 1 0 (by omega) (by omega)] at h10
    rw [amps 1 1 (by omega) (by omega)] at h11
    simp at h00 h01 h10 h11
    rcases h01 with h | h
    · rw [h] at h00; simp at h00
    · rw [h] at h11; simp at h11

end MPS.Props
