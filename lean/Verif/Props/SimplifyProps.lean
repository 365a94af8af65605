import Verif.SimplifyLemmas5
import Verif.Props.ObcProps

/-!
# C57, C93, C94: `simplify(&P, Q, &sense, periodicbc, sweeps, normalize)`
-/

set_option linter.unusedSectionVars false
set_option linter.unusedSimpArgs false

namespace MPS.Props
open MPS Tensor Form Minim Obc Simp
variable {K : Type} [RCLike K]

theorem norm2_sq {ds : List Nat} {q : List (Tensor K)} (hq : WF 1 q ds 1) (h1 : 0 < ds.length) : norm2 q ^ 2 = normSqOf ds (amp q) := by
  have hl := hq.length
  have hne : q ≠ [] := by rintro rfl; simp at hl; omega
  rw [norm2_spec ⟨hne, 1, hq⟩, Real.sq_sqrt (sumCfg_nonneg _ _ fun s _ => by positivity)]
  rfl

/-- the function, apart from the loop -/
theorem simplify_unfold {svd : Tensor K → SvdRes K} {ds : List Nat} {P Q : List (Tensor K)} (hP : WF 1 P ds 1) (hQ : WF 1 Q ds 1)
    (h1 : 1 < ds.length) (tolerance : ℝ) {sense : Int} (hs : sense = 1 ∨ sense = -1) {sweeps : Nat} (hsw : 0 < sweeps) (normalize : Bool) :
    simplify svd tolerance P Q sense false sweeps normalize =
      simplifyLoop svd tolerance (normSqOf ds (amp Q)) normalize Q (sweeps - 1) sense 1 P
        (if sense > 0 then cacheRight P Q P.length Tensor.empty (List.replicate P.length Tensor.empty)
          else cacheLeft P Q P.length 0 Tensor.empty (List.replicate P.length Tensor.empty)) [] := by
  have hl := hQ.length
  unfold simplify
  simp only
  rw [if_neg (by omega), if_neg (by omega), if_neg (by rcases hs with rfl | rfl <;> decide), if_neg (by decide), norm2_sq hQ (by omega)]

theorem inner_ne_norm {ds : List Nat} {x q : List Nat → K} (h : MPS.inner ds x q ≠ 0) : normSqOf ds q ≠ 0 := by
  intro h0
  apply h
  have h2 := sumCfg_eq_zero_nonneg ds (fun s => ‖q s‖ ^ 2) (fun _ => sq_nonneg _) h0
  unfold MPS.inner
  rw [sumCfg_congr (G := fun _ => 0) fun s hs => ?_, sumCfg_zero]
  have := h2 s hs
  rw [norm_eq_zero.1 (pow_eq_zero_iff two_ne_zero |>.1 this), mul_zero]

/-- **C93.**  Whatever `simplify` returns is as promised: see `Fitted` in `SimplifySpec`.  Nothing is lost, bonds do not grow, and the
number returned is one minus the fidelity of `Q` and the state found, `|⟨Q|P⟩| / (‖Q‖ ‖P‖) = ‖P‖ / ‖Q‖`. -/
theorem C93_simplify {svd : Tensor K → SvdRes K} (hg : GoodSvd svd) {ds : List Nat} {P Q : List (Tensor K)} (hP : WF 1 P ds 1)
    (hQ : WF 1 Q ds 1) (h1 : 1 < ds.length) (tolerance : ℝ) {sense : Int} (hs : sense = 1 ∨ sense = -1) {sweeps : Nat} (hsw : 0 < sweeps)
    (normalize : Bool) {out : Res K} (ho : simplify svd tolerance P Q sense false sweeps normalize = some out) :
    Fitted ds (amp Q) P sense sweeps normalize (StopRule tolerance) (infid (normSqOf ds (amp Q))) (fun j d => d ≤ (site P j).dim 2) 1 0
      out.errs out ∧ out.lost = 0 ∧ normSq ds out.P0 ≠ 0 ∧ normSqOf ds (amp Q) ≠ 0 ∧
    out.err = 1 - ‖MPS.inner ds (amp Q) (amp out.P0)‖ / (Real.sqrt (normSqOf ds (amp Q)) * Real.sqrt (normSq ds out.P0)) ∧
    out.err = 1 - Real.sqrt (normSq ds out.P0) / Real.sqrt (normSqOf ds (amp Q)) ∧ 0 ≤ out.err ∧ out.err < 1 := by
  rw [simplify_unfold hP hQ h1 tolerance hs hsw normalize] at ho
  obtain ⟨l1, l2, l3, es, l4, l5⟩ := (loop_fitted hg hQ h1 tolerance normalize (D := fun j => (site P j).dim 2) (sweeps - 1) hs 1 hP
    (fun _ _ => le_rfl) (start_ready hP hQ hs) []).1 out ho
  rw [List.nil_append] at l4
  rw [← l4, show sweeps - 1 + 1 = sweeps by omega] at l5
  have hN := normSqOf_nonneg ds (amp Q)
  have hn := normSq_nonneg ds out.P0
  have hp : 0 < Real.sqrt (normSq ds out.P0) := Real.sqrt_pos.2 (lt_of_le_of_ne hn (Ne.symm l3))
  have hq : 0 < Real.sqrt (normSqOf ds (amp Q)) := Real.sqrt_pos.2 (lt_of_le_of_ne hN (Ne.symm l2))
  have e2 : out.err = 1 - Real.sqrt (normSq ds out.P0) / Real.sqrt (normSqOf ds (amp Q)) := by
    rw [l5.err, infid, l5.best.dist, sub_sub_cancel, Real.sqrt_div' _ hN]
  have hdist := distTo_nonneg ds (amp Q) out.P0
  rw [l5.best.dist] at hdist
  refine ⟨l5, l1, l3, l2, ?_, e2, ?_, ?_⟩
  · rw [e2, l5.best.overlap, RCLike.norm_ofReal, abs_of_nonneg hn]
    congr 1
    rw [div_eq_div_iff hq.ne' (mul_pos hq hp).ne']
    nth_rewrite 3 [← Real.mul_self_sqrt hn]
    ring
  · rw [e2, sub_nonneg, div_le_one hq]
    exact Real.sqrt_le_sqrt (by linarith)
  · rw [e2]
    have := div_pos hp hq
    linarith

/-- **C93**: it returns if the initial guess is not orthogonal to the target (otherwise it may divide zero by zero) -/
theorem C93_returns {svd : Tensor K → SvdRes K} (hg : GoodSvd svd) {ds : List Nat} {P Q : List (Tensor K)} (hP : WF 1 P ds 1)
    (hQ : WF 1 Q ds 1) (h1 : 1 < ds.length) (tolerance : ℝ) {sense : Int} (hs : sense = 1 ∨ sense = -1) {sweeps : Nat} (hsw : 0 < sweeps)
    (normalize : Bool) (hz : MPS.inner ds (amp P) (amp Q) ≠ 0) :
    ∃ out, simplify svd tolerance P Q sense false sweeps normalize = some out := by
  rw [simplify_unfold hP hQ h1 tolerance hs hsw normalize]
  exact (loop_fitted hg hQ h1 tolerance normalize (D := fun j => (site P j).dim 2) (sweeps - 1) hs 1 hP
    (fun _ _ => le_rfl) (start_ready hP hQ hs) []).2 hz (inner_ne_norm hz)

/-- **C93**: with `sweeps = 0` nothing is changed, and the squared distance is returned -/
theorem C93_no_sweeps (svd : Tensor K → SvdRes K) {ds : List Nat} {P Q : List (Tensor K)} (hP : WF 1 P ds 1)
    (hQ : WF 1 Q ds 1) (h1 : 0 < ds.length) (tolerance : ℝ) (sense : Int) (periodicbc normalize : Bool) :
    ∃ out, simplify svd tolerance P Q sense periodicbc 0 normalize = some out ∧ out.P = P ∧ out.sense = sense ∧
      out.err = sumCfg ds fun s => ‖amp Q s - amp P s‖ ^ 2 := by
  have hl := hQ.length
  have hl' := hP.length
  have hne : Q ≠ [] := by rintro rfl; simp at hl; omega
  have hne' : P ≠ [] := by rintro rfl; simp at hl'; omega
  unfold simplify
  simp only [if_true]
  rw [scprod_spec ⟨hne, 1, hQ⟩ ⟨hne', 1, hP⟩, Option.map_some, norm2_sq hQ h1, norm2_sq hP h1]
  refine ⟨_, rfl, rfl, rfl, ?_⟩
  simp only
  rw [dist_expand]
  rfl

/-- **C93**: chains of one site, `sense = 0` and periodic boundary conditions are rejected -/
theorem C93_rejects (svd : Tensor K → SvdRes K) (P Q : List (Tensor K)) (tolerance : ℝ) (sense : Int) (periodicbc normalize : Bool) {sweeps : Nat}
    (hsw : 0 < sweeps) (h : Q.length = 1 ∨ sense = 0 ∨ periodicbc = true) : simplify svd tolerance P Q sense periodicbc sweeps normalize = none := by
  unfold simplify
  simp only
  rw [if_neg (by omega)]
  split_ifs with h1 h2 h3 <;> first | rfl | (exfalso; rcases h with h | h | h <;> contradiction)

/-- **C57**, what holds: the number returned is zero exactly when the result is proportional to `Q`; at most `sweeps` sweeps are made; with
`normalize` (or if the sweeps run out) `sense` describes the canonical form of the result in the convention of the function: it is `-1` after
a sweep to the right, which leaves left isometries, and `1` after a sweep to the left.  Missing: the value of `sense` without `normalize`. -/
theorem C57_simplify_partial {svd : Tensor K → SvdRes K} (hg : GoodSvd svd) {ds : List Nat} {P Q : List (Tensor K)} (hP : WF 1 P ds 1)
    (hQ : WF 1 Q ds 1) (h1 : 1 < ds.length) (tolerance : ℝ) {sense : Int} (hs : sense = 1 ∨ sense = -1) {sweeps : Nat} (hsw : 0 < sweeps)
    (normalize : Bool) {out : Res K} (ho : simplify svd tolerance P Q sense false sweeps normalize = some out) :
    (out.err = 0 ↔ ∃ c : K, c ≠ 0 ∧ ∀ s, IsCfg ds s → amp out.P s = c * amp Q s) ∧ out.errs.length ≤ sweeps ∧
    (normalize = true → (out.sense = 1 ∨ out.sense = -1) ∧ Described ds.length out.P (-out.sense)) := by
  obtain ⟨f, -, n0, nq, -, e2, -, -⟩ := C93_simplify hg hP hQ h1 tolerance hs hsw normalize ho
  have hN := normSqOf_nonneg ds (amp Q)
  have hn := normSq_nonneg ds out.P0
  have hq : 0 < Real.sqrt (normSqOf ds (amp Q)) := Real.sqrt_pos.2 (lt_of_le_of_ne hN (Ne.symm nq))
  have hscale : ∃ r : K, r ≠ 0 ∧ ∀ s, IsCfg ds s → amp out.P s = r * amp out.P0 s := by
    by_cases hst : StopRule tolerance ((1 :: out.errs).getD (out.errs.length - 1) 0) out.err
    · cases hno : normalize with
      | false => exact ⟨1, one_ne_zero, fun s _ => by rw [f.keep (Or.inl hno), one_mul]⟩
      | true =>
        refine ⟨_, ?_, (f.unit hno hst).1⟩
        have : Real.sqrt (normSq ds out.P0) ≠ 0 := (Real.sqrt_pos.2 (lt_of_le_of_ne hn (Ne.symm n0))).ne'
        exact_mod_cast one_div_ne_zero this
    · exact ⟨1, one_ne_zero, fun s _ => by rw [f.keep (Or.inr hst), one_mul]⟩
  obtain ⟨r, r0, r1⟩ := hscale
  have hzero : out.err = 0 ↔ distTo ds (amp Q) out.P0 = 0 := by
    rw [e2, sub_eq_zero, eq_comm, div_eq_one_iff_eq hq.ne', Real.sqrt_inj hn hN, f.best.dist, sub_eq_zero, eq_comm]
  refine ⟨⟨fun h0 => ⟨r, r0, fun s hs => ?_⟩, fun ⟨c, c0, hc⟩ => ?_⟩, f.count.2.1, fun hno => ?_⟩
  · rw [r1 s hs, distTo_zero.1 (hzero.1 h0) s hs]
  · have h2 : ∀ s, IsCfg ds s → amp out.P0 s = c / r * amp Q s := by
      intro s hs
      have := r1 s hs
      rw [hc s hs] at this
      field_simp
      rw [this]; ring
    have o1 : MPS.inner ds (amp Q) (amp out.P0) = c / r * (normSqOf ds (amp Q) : K) := by
      unfold MPS.inner normSqOf
      rw [sumCfg_ofReal, ← sumCfg_mul_left]
      refine sumCfg_congr fun s hs => ?_
      rw [h2 s hs, mul_left_comm, ofReal_normSq]
    have o2 : normSq ds out.P0 = ‖c / r‖ ^ 2 * normSqOf ds (amp Q) := by
      unfold normSq normSqOf
      rw [← sumCfg_mul_left]
      refine sumCfg_congr fun s hs => ?_
      rw [h2 s hs, norm_mul, mul_pow]
    rw [f.best.overlap, o2] at o1
    have nq' : (normSqOf ds (amp Q) : K) ≠ 0 := by exact_mod_cast nq
    have o3 : c / r = ((‖c / r‖ ^ 2 : ℝ) : K) := by
      push_cast at o1 ⊢
      exact (mul_right_cancel₀ nq' o1).symm
    have o4 : ‖c / r‖ = ‖c / r‖ ^ 2 := by
      conv_lhs => rw [o3, RCLike.norm_ofReal, abs_of_nonneg (by positivity)]
    have o5 : ‖c / r‖ = 1 := by
      have : ‖c / r‖ ≠ 0 := by simpa using ⟨c0, r0⟩
      have h3 : ‖c / r‖ * 1 = ‖c / r‖ * ‖c / r‖ := by rw [mul_one, ← pow_two]; exact o4
      exact (mul_left_cancel₀ this h3).symm
    rw [o5] at o3
    rw [hzero, distTo_zero]
    intro s hs
    rw [h2 s hs, o3]; simp
  · have e := f.sense (Or.inl hno)
    rw [e, neg_neg]
    refine ⟨?_, f.desc.1⟩
    unfold lastDir
    rcases hs with rfl | rfl <;> split_ifs <;> simp

/-- **C57**, what fails: whenever the loop ends because of the stopping rule, the value of `sense` depends on `normalize`: with `normalize`
it is the opposite of the direction of the last sweep, without it is that direction.  Here for an initial guess which is the target, in the
canonical form required: one sweep is made, to the right, and `sense` is `-1` or `1`. -/
theorem C57_sense_violated {svd : Tensor K → SvdRes K} (hg : GoodSvd svd) {ds : List Nat} {P : List (Tensor K)} (hP : WF 1 P ds 1)
    (h1 : 1 < ds.length) {tolerance : ℝ} (ht : 0 < tolerance) (hd : Described ds.length P (-1)) (h0 : ∃ s, IsCfg ds s ∧ amp P s ≠ 0)
    {sweeps : Nat} (hsw : 0 < sweeps) :
    ∃ a b, simplify svd tolerance P P 1 false sweeps true = some a ∧ simplify svd tolerance P P 1 false sweeps false = some b ∧
      a.errs.length = 1 ∧ b.errs.length = 1 ∧ a.sense = -1 ∧ b.sense = 1 := by
  have hn : normSqOf ds (amp P) ≠ 0 := by
    intro h
    obtain ⟨s, hs, h1⟩ := h0
    have := sumCfg_eq_zero_nonneg ds (fun s => ‖amp P s‖ ^ 2) (fun _ => sq_nonneg _) h s hs
    exact h1 (norm_eq_zero.1 (pow_eq_zero_iff (two_ne_zero) |>.1 this))
  have hz : MPS.inner ds (amp P) (amp P) ≠ 0 := by
    have : MPS.inner ds (amp P) (amp P) = (normSqOf ds (amp P) : K) := by
      unfold MPS.inner normSqOf
      rw [sumCfg_ofReal]
      exact sumCfg_congr fun s hs => by rw [← ofReal_normSq]
    rw [this]; exact_mod_cast hn
  have key : ∀ normalize, ∃ a, simplify svd tolerance P P 1 false sweeps normalize = some a ∧ a.errs.length = 1 ∧
      StopRule tolerance ((1 :: a.errs).getD (a.errs.length - 1) 0) a.err ∧
      Fitted ds (amp P) P 1 sweeps normalize (StopRule tolerance) (infid (normSqOf ds (amp P))) (fun j d => d ≤ (site P j).dim 2) 1 0 a.errs a := by
    intro normalize
    obtain ⟨a, ha⟩ := C93_returns hg hP hP h1 tolerance (Or.inl rfl) hsw normalize hz
    obtain ⟨f, fl, -, -, -, -, fe, -⟩ := C93_simplify hg hP hP h1 tolerance (Or.inl rfl) hsw normalize ha
    have hdist : distTo ds (amp P) P = 0 := distTo_zero.2 fun _ _ => rfl
    have hfirst : a.errs.getD 0 0 ≤ 0 := by
      have := f.first fl hd
      rw [hdist, infid, sub_zero, div_self hn] at this
      simpa using this
    have hst : StopRule tolerance ((1 :: a.errs).getD 0 0) (a.errs.getD 0 0) := Or.inr (by linarith)
    have hl : a.errs.length = 1 := by
      by_contra hne
      exact f.go 0 (by have := f.count.1; omega) hst
    refine ⟨a, ha, hl, ?_, f⟩
    have := f.count.2.2
    rw [hl] at this ⊢
    rw [← this]
    exact hst
  obtain ⟨a, a1, a2, a3, a4⟩ := key true
  obtain ⟨b, b1, b2, b3, b4⟩ := key false
  refine ⟨a, b, a1, b1, a2, b2, ?_, ?_⟩
  · rw [a4.sense (Or.inl rfl), a2]; rfl
  · rw [b4.sense' rfl b3, b2]; rfl

/-! ### a state that is not a product, and a guess that overlaps with it -/

/-- `2|00⟩`, in right canonical form -/
def guess2 : List (Tensor ℝ) := [⟨[1, 2, 1], fun I => if I.getD 1 0 = 0 then 2 else 0⟩, ⟨[1, 2, 1], fun I => if I.getD 1 0 = 0 then 1 else 0⟩]

/-- `2|00⟩ + |11⟩` -/
def target2 : List (Tensor ℝ) :=
  [⟨[1, 2, 2], fun I => if I.getD 1 0 = I.getD 2 0 then (if I.getD 1 0 = 0 then 2 else 1) else 0⟩,
   ⟨[2, 2, 1], fun I => if I.getD 0 0 = I.getD 1 0 then 1 else 0⟩]

theorem guess2_wf : WF 1 guess2 [2, 2] 1 := WF.cons rfl Nat.one_pos (by decide) Nat.one_pos (WF.cons rfl Nat.one_pos (by decide) Nat.one_pos (WF.nil 1))
theorem target2_wf : WF 1 target2 [2, 2] 1 := WF.cons rfl Nat.one_pos (by decide) (by decide) (WF.cons rfl (by decide) (by decide) Nat.one_pos (WF.nil 1))

theorem guess2_amp (i j : Nat) : amp guess2 [i, j] = if i = 0 ∧ j = 0 then 2 else 0 := by
  simp [amp, guess2, path, dim, Finset.sum_range_succ]
  split_ifs <;> simp_all

theorem target2_amp {i j : Nat} (hi : i < 2) (hj : j < 2) : amp target2 [i, j] = if i = 0 ∧ j = 0 then 2 else if i = 1 ∧ j = 1 then 1 else 0 := by
  interval_cases i <;> interval_cases j <;> simp [amp, target2, path, dim, Finset.sum_range_succ]

theorem guess2_desc : Described 2 guess2 (-1) := by
  simp only [Described, show (-1 : Int) < 0 by decide, if_true]
  intro j h1 h2
  obtain rfl : j = 1 := by omega
  intro x x' hx hx'
  have e0 : (site guess2 1).dim 0 = 1 := rfl
  have e1 : (site guess2 1).dim 1 = 2 := rfl
  have e2 : (site guess2 1).dim 2 = 1 := rfl
  rw [e0] at hx hx'
  rw [e1, e2]
  obtain rfl : x = 0 := by omega
  obtain rfl : x' = 0 := by omega
  simp [Finset.sum_range_succ, guess2, site]

/-- the hypotheses of C93, C57 are met -/
theorem C93_witness : ∃ svd : Tensor ℝ → SvdRes ℝ, GoodSvd svd ∧ ∃ out, simplify svd (1 / 10 ^ 14) guess2 target2 1 false 2 true = some out := by
  obtain ⟨svd, hg⟩ := exists_goodSvd (K := ℝ)
  refine ⟨svd, hg, C93_returns hg guess2_wf target2_wf (by decide) _ (Or.inl rfl) (by decide) true ?_⟩
  simp [MPS.inner, sumCfg_cons, sumCfg_nil, Finset.sum_range_succ, guess2_amp, target2_amp]

theorem C57_witness : ∃ a b, simplify (Classical.choose (exists_goodSvd (K := ℝ))) (1 / 10 ^ 14) guess2 guess2 1 false 5 true = some a ∧
    simplify (Classical.choose (exists_goodSvd (K := ℝ))) (1 / 10 ^ 14) guess2 guess2 1 false 5 false = some b ∧
      a.errs.length = 1 ∧ b.errs.length = 1 ∧ a.sense = -1 ∧ b.sense = 1 :=
  C57_sense_violated (Classical.choose_spec (exists_goodSvd (K := ℝ))) guess2_wf (by decide) (by positivity) guess2_desc
    ⟨[0, 0], .cons (by decide) (.cons (by decide) .nil), by simp [guess2_amp]⟩ (by decide)

/-- **C94**, what holds: with `normalize`, if the loop ends because of the stopping rule, the result has norm one and is the state found,
divided by its norm.  Missing: the case in which the sweeps run out. -/
theorem C94_normalize_partial {svd : Tensor K → SvdRes K} (hg : GoodSvd svd) {ds : List Nat} {P Q : List (Tensor K)} (hP : WF 1 P ds 1)
    (hQ : WF 1 Q ds 1) (h1 : 1 < ds.length) (tolerance : ℝ) {sense : Int} (hs : sense = 1 ∨ sense = -1) {sweeps : Nat} (hsw : 0 < sweeps)
    {out : Res K} (ho : simplify svd tolerance P Q sense false sweeps true = some out) (hst : out.errs.length < sweeps) :
    normSq ds out.P = 1 ∧ ∀ s, IsCfg ds s → amp out.P s = ((1 / Real.sqrt (normSq ds out.P0) : ℝ) : K) * amp out.P0 s := by
  obtain ⟨f, -⟩ := C93_simplify hg hP hQ h1 tolerance hs hsw true ho
  obtain ⟨u1, u2⟩ := f.unit rfl (f.stop hst)
  exact ⟨u2, u1⟩

/-- **C94**, what fails: `normalize` is ignored if the sweeps run out.  One sweep for `2|00⟩ + |11⟩`, from `2|00⟩`, with any tolerance up to
1/10, returns a state of norm 2, with `normalize` and without. -/
theorem C94_normalize_violated {svd : Tensor ℝ → SvdRes ℝ} (hg : GoodSvd svd) {tolerance : ℝ} (ht : tolerance ≤ 1 / 10) (normalize : Bool) :
    ∃ out, simplify svd tolerance guess2 target2 1 false 1 normalize = some out ∧ normSq [2, 2] out.P = 4 := by
  have hz : MPS.inner [2, 2] (amp guess2) (amp target2) ≠ 0 := by
    simp [MPS.inner, sumCfg_cons, sumCfg_nil, Finset.sum_range_succ, guess2_amp, target2_amp]
  have hnq : normSqOf [2, 2] (amp target2) = 5 := by
    simp [normSqOf, sumCfg_cons, sumCfg_nil, Finset.sum_range_succ, target2_amp]; norm_num
  have hd : distTo [2, 2] (amp target2) guess2 = 1 := by
    simp [distTo, sumCfg_cons, sumCfg_nil, Finset.sum_range_succ, target2_amp, guess2_amp]
  obtain ⟨out, ho⟩ := C93_returns hg guess2_wf target2_wf (by decide) tolerance (Or.inl rfl) (sweeps := 1) (by decide) normalize hz
  obtain ⟨f, fl, n0, -, -, e2, -, -⟩ := C93_simplify hg guess2_wf target2_wf (by decide) tolerance (Or.inl rfl) (by decide) normalize ho
  have hcl := f.closer guess2_desc
  rw [fl, hd, f.best.dist, hnq] at hcl
  have hov := f.best.overlap
  have hlen := f.wf.2.length
  -- a product state
  obtain ⟨a, b, hab⟩ : ∃ a b : Nat → ℝ, ∀ i j, amp out.P0 [i, j] = a i * b j := by
    have hb : (site out.P0 0).dim 2 ≤ 1 := (f.bond 0 (by decide)).2
    obtain ⟨A, B, hAB⟩ : ∃ A B, out.P0 = [A, B] := by
      match h : out.P0, hlen with
      | [A, B], _ => exact ⟨A, B, rfl⟩
    have hw := f.wf.2
    rw [hAB] at hb hw ⊢
    cases hw with
    | cons k1 k2 k3 k4 k5 =>
      rename_i c
      cases k5 with
      | cons l1 l2 l3 l4 l5 =>
        rename_i c'
        cases l5
        rw [show site [A, B] 0 = A from rfl, dim2_of k1] at hb
        obtain rfl : c = 1 := by omega
        refine ⟨fun i => A.get [0, i, 0], fun j => B.get [0, j, 0], fun i j => ?_⟩
        simp [amp, path, k1, l1, dim, Finset.sum_range_succ, nrm]
  have hn : normSq [2, 2] out.P0 = (a 0 ^ 2 + a 1 ^ 2) * (b 0 ^ 2 + b 1 ^ 2) := by
    simp [normSq, sumCfg_cons, sumCfg_nil, Finset.sum_range_succ, hab]; ring
  have ho' : MPS.inner [2, 2] (amp target2) (amp out.P0) = 2 * a 0 * b 0 + a 1 * b 1 := by
    simp [MPS.inner, sumCfg_cons, sumCfg_nil, Finset.sum_range_succ, hab, target2_amp]; ring
  rw [ho'] at hov
  simp only [RCLike.ofReal_real_eq_id, id] at hov
  have h4 : normSq [2, 2] out.P0 = 4 := by
    set n := normSq [2, 2] out.P0 with hnd
    have h5 : n ^ 2 ≤ 4 * n := by
      have h6 : (2 * a 0 * b 0 + a 1 * b 1) ^ 2 ≤ 4 * ((a 0 ^ 2 + a 1 ^ 2) * (b 0 ^ 2 + b 1 ^ 2)) := by
        nlinarith [sq_nonneg (2 * a 0 * b 1 - a 1 * b 0), mul_nonneg (sq_nonneg (a 1)) (add_nonneg (sq_nonneg (b 0)) (sq_nonneg (b 1)))]
      rw [hov, ← hn] at h6
      exact h6
    have h7 : 4 ≤ n := by linarith
    nlinarith
  have h8 : Real.sqrt 4 / Real.sqrt 5 = Real.sqrt (4 / 5) := (Real.sqrt_div (by norm_num) _).symm
  rw [h4, hnq, h8] at e2
  have h9 : Real.sqrt (4 / 5) ≤ 9 / 10 := Real.sqrt_le_iff.2 ⟨by norm_num, by norm_num⟩
  have h10 : (1 / 10 : ℝ) ≤ Real.sqrt (4 / 5) := Real.le_sqrt_of_sq_le (by norm_num)
  have hl1 : out.errs.length = 1 := le_antisymm f.count.2.1 f.count.1
  refine ⟨out, ho, ?_⟩
  rw [f.keep (Or.inr ?_), h4]
  rw [hl1]
  simp only [Nat.sub_self, List.getD_cons_zero]
  rintro (h | h)
  · norm_num at h; linarith
  · linarith

end MPS.Props
