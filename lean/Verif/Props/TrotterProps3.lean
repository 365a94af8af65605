import Verif.Props.TrotterProps2
import Verif.TrotterLemmas4

/-!
# C60: time step coefficients; C61: application of a two-site gate
-/

set_option linter.unusedSectionVars false
set_option linter.unusedSimpArgs false

namespace MPS.Props
open MPS Tensor Trotter

/-! ### C60 -/

/-- parity and duration of the layers applied by `one_step`, in order -/
noncomputable def layersOf (S : Solver) (strategy : Strategy) (normalize : Bool) (Dmax : Nat) : List (Int × ℂ) :=
  (S.calls strategy normalize Dmax).map fun c => S.layers.getD c.which (0, 0)

/-- **C60**: whatever the strategy, the solvers apply the layers `steps2`, `steps3`, `stepsFR`. -/
theorem C60_layers (eps : ℝ) (strategy : Strategy) (normalize : Bool) (Dmax : Nat) :
    layersOf (trotter2 eps) strategy normalize Dmax = steps2.map (fun l => ((l.1 : Int), l.2)) ∧
    layersOf (trotter3 eps) strategy normalize Dmax = steps3.map (fun l => ((l.1 : Int), l.2)) ∧
    layersOf forestRuth strategy normalize Dmax = stepsFR.map (fun l => ((l.1 : Int), l.2)) := by
  cases strategy <;> simp [layersOf, trotter2, trotter3, forestRuth, steps2, steps3, stepsFR, frParam]

/-- total of the factors `-|Im dt| - i Re dt` of the layers of parity `k` in the exponentials -/
noncomputable def total (ls : List (Nat × ℂ)) (k : Nat) (dt : ℂ) : ℂ :=
  ((ls.filter fun l => l.1 = k).map fun l => (⟨-|(dt * l.2).im|, -(dt * l.2).re⟩ : ℂ)).sum

/-- **C60**: in the first and second order solvers the exponents of the layers of each parity add up to
`-|Im dt| - i Re dt`, for every complex time step. -/
theorem C60_trotter23 (k : Nat) (hk : k ≤ 1) (dt : ℂ) :
    total steps2 k dt = ⟨-|dt.im|, -dt.re⟩ ∧ total steps3 k dt = ⟨-|dt.im|, -dt.re⟩ := by
  have h : k = 0 ∨ k = 1 := by omega
  have h2 : (2⁻¹ : ℂ).re = 1 / 2 := by norm_num
  have h3 : (2⁻¹ : ℂ).im = 0 := by norm_num
  rcases h with rfl | rfl
  · constructor
    · simp [total, steps2]
    · simp only [total, steps3]
      apply Complex.ext
      · simp [Complex.mul_im, h2, h3, abs_mul]; ring
      · simp [Complex.mul_re, h2, h3]; ring
  · constructor
    · simp [total, steps2]
    · simp [total, steps3]

/-- **C60**: which is `-i dt` for a real time step or a time step with negative imaginary part -/
theorem C60_rotation (dt : ℂ) (h : dt.im ≤ 0) : (⟨-|dt.im|, -dt.re⟩ : ℂ) = -Complex.I * dt := by
  apply Complex.ext <;> simp [abs_of_nonpos h]

/-- **C60**: the Forest-Ruth solver, for real time steps -/
theorem C60_forest_ruth (k : Nat) (hk : k ≤ 1) (dt : ℝ) :
    total stepsFR k dt = ⟨0, -dt⟩ ∧ total stepsFR k dt = -Complex.I * dt := by
  have key : ∀ r : ℝ, (⟨-|((dt : ℂ) * (r : ℂ)).im|, -((dt : ℂ) * (r : ℂ)).re⟩ : ℂ) = ⟨0, -dt * r⟩ := by
    intro r; apply Complex.ext <;> simp
  have hs : stepsFR = [(0, ((0.67560359597983 : ℝ) : ℂ)), (1, ((1.35120719195966 : ℝ) : ℂ)), (0, ((-0.17560359597983 : ℝ) : ℂ)),
      (1, ((-1.70241438391932 : ℝ) : ℂ)), (0, ((-0.17560359597983 : ℝ) : ℂ)), (1, ((1.35120719195966 : ℝ) : ℂ)), (0, ((0.67560359597983 : ℝ) : ℂ))] := by
    simp only [stepsFR]; norm_num
  have h0 : total stepsFR k dt = ⟨0, -dt⟩ := by
    have h : k = 0 ∨ k = 1 := by omega
    rcases h with rfl | rfl
    · simp only [total, hs]
      simp only [List.filter, decide_true, decide_false, Nat.one_ne_zero, Nat.zero_ne_one, List.map_cons, List.map_nil, key, List.sum_cons, List.sum_nil]
      apply Complex.ext
      · simp
      · simp only [Complex.add_im, Complex.zero_im]; ring
    · simp only [total, hs]
      simp only [List.filter, decide_true, decide_false, Nat.one_ne_zero, Nat.zero_ne_one, List.map_cons, List.map_nil, key, List.sum_cons, List.sum_nil]
      apply Complex.ext
      · simp
      · simp only [Complex.add_im, Complex.zero_im]; ring
  refine ⟨h0, ?_⟩
  rw [h0]; apply Complex.ext <;> simp

/-- **C60**: the second order and the Forest-Ruth sequences are palindromic -/
theorem C60_palindromes : steps3.reverse = steps3 ∧ stepsFR.reverse = stepsFR := by
  constructor <;> rfl

/-- **C60**: the coefficients of the Forest-Ruth method: with `θ` the duration of the first odd layer, the durations are
`θ/2, θ, (1-θ)/2, 1-2θ, (1-θ)/2, θ, θ/2`, and the condition `2 θ³ + (1-2θ)³ = 0`, by which the third-order error cancels, is
met to the precision of the literals. -/
theorem C60_forest_ruth_order : ∃ θ : ℝ,
    stepsFR = [(0, (θ : ℂ) / 2), (1, (θ : ℂ)), (0, (1 - (θ : ℂ)) / 2), (1, 1 - 2 * (θ : ℂ)), (0, (1 - (θ : ℂ)) / 2), (1, (θ : ℂ)),
      (0, (θ : ℂ) / 2)] ∧
    |2 * θ ^ 3 + (1 - 2 * θ) ^ 3| < 1e-13 := by
  refine ⟨1.35120719195966, ?_, ?_⟩
  · simp only [stepsFR]; push_cast; norm_num
  · rw [abs_lt]; constructor <;> norm_num

/-- **C60**, not met: with complex time steps the exponents of the Forest-Ruth solver do not add up to the time step, since
the sign of the negative coefficients is lost in the absolute value of the imaginary part.  In imaginary time the even
layers act for 1.70 times, and the odd layers for 4.40 times the time step. -/
theorem C60_forest_ruth_violated (τ : ℝ) (hτ : 0 < τ) :
    total stepsFR 0 (-Complex.I * τ) = ⟨-1.70241438391932 * τ, 0⟩ ∧ total stepsFR 1 (-Complex.I * τ) = ⟨-4.40482876783864 * τ, 0⟩ ∧
    total stepsFR 0 (-Complex.I * τ) ≠ ⟨-|(-Complex.I * τ).im|, -(-Complex.I * τ).re⟩ := by
  have key : ∀ r : ℝ, (⟨-|((-Complex.I * (τ : ℂ)) * (r : ℂ)).im|, -((-Complex.I * (τ : ℂ)) * (r : ℂ)).re⟩ : ℂ) = ⟨-(τ * |r|), 0⟩ := by
    intro r; apply Complex.ext <;> simp [abs_mul, abs_of_pos hτ]
  have hs : stepsFR = [(0, ((0.67560359597983 : ℝ) : ℂ)), (1, ((1.35120719195966 : ℝ) : ℂ)), (0, ((-0.17560359597983 : ℝ) : ℂ)),
      (1, ((-1.70241438391932 : ℝ) : ℂ)), (0, ((-0.17560359597983 : ℝ) : ℂ)), (1, ((1.35120719195966 : ℝ) : ℂ)), (0, ((0.67560359597983 : ℝ) : ℂ))] := by
    simp only [stepsFR]; norm_num
  have h0 : total stepsFR 0 (-Complex.I * τ) = ⟨-1.70241438391932 * τ, 0⟩ := by
    simp only [total, hs]
    simp only [List.filter, decide_true, decide_false, Nat.one_ne_zero, Nat.zero_ne_one, List.map_cons, List.map_nil, key, List.sum_cons, List.sum_nil]
    apply Complex.ext
    · simp only [Complex.add_re, Complex.zero_re]; norm_num [abs_of_neg]; ring
    · simp
  refine ⟨h0, ?_, ?_⟩
  · simp only [total, hs]
    simp only [List.filter, decide_true, decide_false, Nat.one_ne_zero, Nat.zero_ne_one, List.map_cons, List.map_nil, key, List.sum_cons, List.sum_nil]
    apply Complex.ext
    · simp only [Complex.add_re, Complex.zero_re]; norm_num [abs_of_neg]; ring
    · simp
  · rw [h0]
    intro hh
    have := congrArg Complex.re hh
    simp [abs_of_pos hτ] at this
    nlinarith

/-! ### C61 -/

/-- **C61**: `apply_onto_two_sites` on sites `k`, `k+1`.  Before its last step the function has a state `Q` which

* differs from the original only in the tensors `k` and `k+1`, whose product is the gate times the original product up to
  a distance, the square of which is added to the error;
* respects the maximal bond dimension, and leaves behind an isometry.

Without maximal dimension this is the result, otherwise the result is obtained by `set_canonical`, which does not
change the wave function unless it drops singular values (recorded in `hidden`). -/
theorem C61_two_sites {svd : Tensor ℂ → SvdRes ℂ} (hg : GoodSvd svd) (eps : ℝ) {dflt : ℝ} (hd0 : 0 < dflt)
    (x : Evo) {ds : List Nat} (h : IsMPS ds x.P) (k : Nat) (hk : k + 1 < ds.length)
    (U : Tensor ℂ) (hU : U.dims = [ds.getD k 0 * ds.getD (k + 1) 0, ds.getD k 0 * ds.getD (k + 1) 0]) (dk : Int) (tol : ℝ)
    (htol : tol < 0 ∨ 0 < tol) (maxA2 : Nat) :
    let y := applyTwo svd eps dflt x U k dk tol maxA2
    ∃ Q : List (Tensor ℂ), ∃ err : ℝ, IsMPS ds Q ∧ (∀ j, j ≠ k → j ≠ k + 1 → site Q j = site x.P j) ∧
      (0 < maxA2 → (site Q k).dim 2 ≤ maxA2) ∧ (if dk > 0 then LeftIso (site Q k) else RightIso (site Q (k + 1))) ∧
      ∑ a ∈ Finset.range ((site x.P k).dim 0), ∑ i ∈ Finset.range (ds.getD k 0), ∑ j ∈ Finset.range (ds.getD (k + 1) 0),
        ∑ b ∈ Finset.range ((site x.P (k + 1)).dim 2),
          ‖(∑ i' ∈ Finset.range (ds.getD k 0), ∑ j' ∈ Finset.range (ds.getD (k + 1) 0),
              U.get [i + ds.getD k 0 * j, i' + ds.getD k 0 * j'] * pairProduct x.P k a i' j' b)
            - pairProduct Q k a i j b‖ ^ 2 = err ∧
      y.err = x.err + err ∧ (maxA2 = 0 → y.P = Q ∧ y.hidden = x.hidden) ∧ x.hidden ≤ y.hidden ∧
      (y.hidden = x.hidden → ∀ s, IsCfg ds s → amp y.P s = amp Q s) := by
  intro y
  obtain ⟨hne, D, h⟩ := h
  have ht : 0 < effTol dflt tol := by
    unfold effTol; rcases htol with h | h
    · rw [if_pos h]; exact hd0
    · rw [if_neg (by linarith)]; exact h
  have hlen := h.length
  obtain ⟨pre, X, Y, post, hP, hl⟩ := split_at2 x.P k (by omega)
  have hX : site x.P k = X := by simp [site, hP, ← hl]
  have hY : site x.P (k + 1) = Y := by simp [site, hP, ← hl]
  have hP0 := hP
  rw [hP] at h
  obtain ⟨ds1, ds', c, rfl, w1, w2⟩ := h.split
  cases w2 with
  | @cons c d e b A As ds'' hXd hc hd he w3 =>
  cases w3 with
  | @cons e d2 f b A As ds3 hYd _ hd2 hf w4 =>
  have hg1 : (ds1 ++ d :: d2 :: ds3).getD k 0 = d := by rw [← hl, w1.length]; simp
  have hg2 : (ds1 ++ d :: d2 :: ds3).getD (k + 1) 0 = d2 := by rw [← hl, w1.length]; simp
  rw [hg1, hg2] at hU
  simp only [hg1, hg2, hX, hY, dim0_of hXd, dim2_of hYd]
  obtain ⟨B1, B2, g, err, hB1, hB2, hg0, hgm, hiso, herr, -, -, happ⟩ := applyTwo_core hg eps hd0 x hP w1 hXd hYd ⟨hc, hd, he, hd2, hf⟩ w4 U hU dk tol
    ht maxA2
  rw [hl] at happ
  have herr0 : 0 ≤ err := by rw [← herr]; positivity
  have hQ : WF D (pre ++ B1 :: B2 :: post) (ds1 ++ d :: d2 :: ds3) D :=
    w1.append (WF.cons hB1 hc hd hg0 (WF.cons hB2 hg0 hd2 hf w4))
  have hQX : site (pre ++ B1 :: B2 :: post) k = B1 := by simp [site, ← hl]
  have hQY : site (pre ++ B1 :: B2 :: post) (k + 1) = B2 := by simp [site, ← hl]
  refine ⟨pre ++ B1 :: B2 :: post, err, ⟨by simp, D, hQ⟩, ?_, ?_, ?_, ?_, ?_⟩
  · intro j h1 h2
    rw [hP0]
    unfold site
    by_cases hj : j < pre.length
    · simp [List.getElem?_append_left hj]
    · obtain ⟨q, rfl⟩ : ∃ q, j = pre.length + (q + 2) := ⟨j - pre.length - 2, by omega⟩
      simp [List.getElem?_append_right]
  · rw [hQX, dim2_of hB1]; exact hgm
  · rw [hQX, hQY]; exact hiso
  · simp only [pairProduct, hX, hY, hQX, hQY, dim2_of hXd, dim2_of hB1]; exact herr
  · by_cases hm : maxA2 ≠ 0
    · simp only [if_pos hm] at happ
      obtain ⟨s1, s2, s3⟩ := setCanonical_any hg eps hd0 hQ (if dk > 0 then k + 1 else k)
        (by simp only [List.length_append, List.length_cons, hl]; split <;> omega) dk
      have hy : y = _ := happ
      rw [hy]
      refine ⟨rfl, fun h0 => absurd h0 hm, by linarith, fun e1 s hs => ?_⟩
      have e1' := s3 (by simp only at e1; linarith)
      rw [amp_of_WF s1 ?_, amp_of_WF hQ (by simp)]
      · exact Finset.sum_congr rfl fun u hu => e1' s hs u (Finset.mem_range.1 hu) u
      · intro hh
        have := s1.length
        rw [hh] at this
        simp at this
    · simp only [if_neg hm] at happ
      have hy : y = _ := happ
      rw [hy]
      exact ⟨rfl, fun _ => ⟨rfl, rfl⟩, le_refl _, fun _ _ _ => rfl⟩

/-- **C61**: on an open chain in canonical form around the pair (all tensors to its left are left isometries, all tensors
to its right are right isometries) the error reported is the square of the distance between the state obtained and the
state with the gate applied exactly, provided that the final `set_canonical` drops nothing. -/
theorem C61_centre {svd : Tensor ℂ → SvdRes ℂ} (hg : GoodSvd svd) (eps : ℝ) {dflt : ℝ} (hd0 : 0 < dflt)
    (x : Evo) {ds : List Nat} (h : WF 1 x.P ds 1) (k : Nat) (hk : k + 1 < ds.length)
    (hl : ∀ j, j < k → LeftIso (site x.P j)) (hr : ∀ j, k + 1 < j → j < ds.length → RightIso (site x.P j))
    (U : Tensor ℂ) (hU : U.dims = [ds.getD k 0 * ds.getD (k + 1) 0, ds.getD k 0 * ds.getD (k + 1) 0]) (dk : Int) (tol : ℝ)
    (htol : tol < 0 ∨ 0 < tol) (maxA2 : Nat) :
    let y := applyTwo svd eps dflt x U k dk tol maxA2
    (maxA2 = 0 → y.hidden = x.hidden) ∧
    (y.hidden = x.hidden →
      sumCfg ds (fun s => ‖actPair (ds.getD k 0) (ds.getD (k + 1) 0) U k (amp x.P) s - amp y.P s‖ ^ 2) = y.err - x.err) := by
  intro y
  have ht : 0 < effTol dflt tol := by
    unfold effTol; rcases htol with h | h
    · rw [if_pos h]; exact hd0
    · rw [if_neg (by linarith)]; exact h
  have hlen := h.length
  obtain ⟨pre, X, Y, post, hP, hl0⟩ := split_at2 x.P k (by omega)
  have hpre : ∀ A ∈ pre, LeftIso A := by
    refine mem_of_site (pre := []) (l := pre) rfl 0 rfl (X :: Y :: post) ?_
    intro j _ hj
    have := hl j (by omega)
    rw [hP] at this
    simpa using this
  have hpost : ∀ A ∈ post, RightIso A := by
    refine mem_of_site (pre := pre ++ [X, Y]) (l := post) rfl (k + 2) (by simp [hl0]) [] ?_
    intro j hj hj2
    have := hr j (by omega) (by rw [← hlen, hP]; simp [hl0]; omega)
    rw [hP] at this
    simpa using this
  rw [hP] at h
  obtain ⟨ds1, ds', c, rfl, w1, w2⟩ := h.split
  cases w2 with
  | @cons c d e b A As ds'' hXd hc hd he w3 =>
  cases w3 with
  | @cons e d2 f b A As ds3 hYd _ hd2 hf w4 =>
  have hg1 : (ds1 ++ d :: d2 :: ds3).getD k 0 = d := by rw [← hl0, w1.length]; simp
  have hg2 : (ds1 ++ d :: d2 :: ds3).getD (k + 1) 0 = d2 := by rw [← hl0, w1.length]; simp
  rw [hg1, hg2] at hU
  rw [hg1, hg2]
  obtain ⟨B1, B2, g, err, hB1, hB2, hg0, -, -, herr, -, -, happ⟩ := applyTwo_core hg eps hd0 x hP w1 hXd hYd ⟨hc, hd, he, hd2, hf⟩ w4 U hU dk tol
    ht maxA2
  rw [hl0] at happ
  have hQ : WF 1 (pre ++ B1 :: B2 :: post) (ds1 ++ d :: d2 :: ds3) 1 :=
    w1.append (WF.cons hB1 hc hd hg0 (WF.cons hB2 hg0 hd2 hf w4))
  have hdist := pair_distance U w1 hXd hYd hB1 hB2 ⟨hc, hd, he, hd2, hf, hg0⟩ w4 hpre hpost
  rw [herr, ← hP, hl0] at hdist
  by_cases hm : maxA2 ≠ 0
  · simp only [if_pos hm] at happ
    obtain ⟨s1, s2, s3⟩ := setCanonical_any hg eps hd0 hQ (if dk > 0 then k + 1 else k)
      (by simp only [List.length_append, List.length_cons, hl0]; split <;> omega) dk
    have hy : y = _ := happ
    rw [hy]
    refine ⟨fun h0 => absurd h0 hm, fun e1 => ?_⟩
    simp only at e1 ⊢
    rw [add_sub_cancel_left, ← hdist]
    refine sumCfg_congr fun s hs => ?_
    have e1' := s3 (by linarith)
    rw [amp_of_WF s1 ?_, amp_of_WF hQ (by simp)]
    · rw [Finset.sum_congr rfl fun u hu => e1' s hs u (Finset.mem_range.1 hu) u]
    · intro hh
      have := s1.length
      rw [hh] at this
      simp at this
  · simp only [if_neg hm] at happ
    have hy : y = _ := happ
    rw [hy]
    refine ⟨fun _ => rfl, fun _ => ?_⟩
    simp only
    rw [add_sub_cancel_left, ← hdist]

/-- **C61**: a unitary gate applied without loss preserves the norm -/
theorem C61_norm {svd : Tensor ℂ → SvdRes ℂ} (hg : GoodSvd svd) (eps : ℝ) {dflt : ℝ} (hd0 : 0 < dflt)
    (x : Evo) {ds : List Nat} (h : IsMPS ds x.P) (k : Nat) (hk : k + 1 < ds.length)
    (U : Tensor ℂ) (hU : U.dims = [ds.getD k 0 * ds.getD (k + 1) 0, ds.getD k 0 * ds.getD (k + 1) 0])
    (hu : IsUnitary (ds.getD k 0 * ds.getD (k + 1) 0) U) (dk : Int) (tol : ℝ) (htol : tol < 0 ∨ 0 < tol) (maxA2 : Nat) :
    let y := applyTwo svd eps dflt x U k dk tol maxA2
    y.err = x.err → y.hidden = x.hidden →
      (∀ s, IsCfg ds s → amp y.P s = actPair (ds.getD k 0) (ds.getD (k + 1) 0) U k (amp x.P) s) ∧ norm2 y.P = norm2 x.P := by
  intro y e1 e2
  have ht : 0 < effTol dflt tol := by
    unfold effTol; rcases htol with h | h
    · rw [if_pos h]; exact hd0
    · rw [if_neg (by linarith)]; exact h
  obtain ⟨hne, D, hw⟩ := h
  obtain ⟨a1, -, -, a4⟩ := applyTwo_spec hg eps hd0 x hw k hk U hU dk tol ht maxA2
  have hyne : y.P ≠ [] := by
    intro hh
    have := a1.length
    change y.P.length = _ at this
    rw [hh] at this
    simp at this; omega
  have hamp : ∀ s, IsCfg ds s → amp y.P s = actPair (ds.getD k 0) (ds.getD (k + 1) 0) U k (amp x.P) s := by
    intro s hs
    rw [amp_of_WF a1 hyne, Finset.sum_congr rfl fun u hu => a4 e1 e2 s hs u (Finset.mem_range.1 hu) u]
    unfold actPair
    beta_reduce
    rw [Finset.sum_comm]
    refine Finset.sum_congr rfl fun i _ => ?_
    rw [Finset.sum_comm]
    refine Finset.sum_congr rfl fun j _ => ?_
    rw [amp_of_WF hw hne, Finset.mul_sum]
  refine ⟨hamp, ?_⟩
  unfold norm2
  rw [normClosed_spec ⟨hyne, D, a1⟩, normClosed_spec ⟨hne, D, hw⟩, ← inner_actPair hk hu (amp x.P)]
  congr 3
  unfold MPS.inner
  exact sumCfg_congr fun s hs => by rw [hamp s hs]

/-- the hypotheses are met: a pair of sites in a chain of three, and a swap of two levels as gate -/
example : ∃ (P : List (Tensor ℂ)) (U : Tensor ℂ), IsMPS [2, 2, 2] P ∧ U.dims = [2 * 2, 2 * 2] ∧ IsUnitary (2 * 2) U ∧
    WF 1 P [2, 2, 2] 1 ∧ LeftIso (site P 0) := by
  let A : Tensor ℂ := ⟨[1, 2, 1], fun i => if i.getD 1 0 = 0 then 1 else 0⟩
  let U : Tensor ℂ := ⟨[4, 4], fun i => if i.getD 0 0 = 3 - i.getD 1 0 then 1 else 0⟩
  have hw : WF 1 [A, A, A] [2, 2, 2] 1 := by
    repeat (first | exact WF.nil _ | refine WF.cons rfl (by omega) (by omega) (by omega) ?_)
  refine ⟨[A, A, A], U, ⟨by simp, 1, hw⟩, rfl, ?_, hw, ?_⟩
  · intro x x' hx hx'
    have q : x = 0 ∨ x = 1 ∨ x = 2 ∨ x = 3 := by omega
    have q' : x' = 0 ∨ x' = 1 ∨ x' = 2 ∨ x' = 3 := by omega
    rcases q with rfl | rfl | rfl | rfl <;> rcases q' with rfl | rfl | rfl | rfl <;>
      simp [U, Finset.sum_range_succ]
  · intro b b' hb hb'
    have hA : (site [A, A, A] 0) = A := rfl
    rw [hA] at hb hb' ⊢
    have h2 : A.dim 2 = 1 := rfl
    have h1 : A.dim 1 = 2 := rfl
    have h0 : A.dim 0 = 1 := rfl
    rw [h2] at hb hb'
    have : b = b' := by omega
    subst this
    rw [h0, h1]
    simp [A, Finset.sum_range_succ]

end MPS.Props
