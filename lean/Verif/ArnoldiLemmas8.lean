import Verif.ArnoldiLemmas7
import Verif.EigsExists
import Mathlib.Analysis.Matrix.Order

/-!
# The lowest energy in the space of a basis
-/

set_option linter.unusedSectionVars false
set_option linter.unusedSimpArgs false

namespace MPS.Arnoldi
open MPS Tensor Form Minim Obc
variable {ds : List Nat} {m : Nat}

theorem argmin_spec (f : Nat → ℝ) (n : Nat) (hn : 0 < n) : argmin f n < n ∧ ∀ i < n, f (argmin f n) ≤ f i := by
  unfold argmin
  induction n with
  | zero => omega
  | succ n ih =>
    rw [List.range_succ, List.foldl_append]
    simp only [List.foldl_cons, List.foldl_nil]
    rcases Nat.eq_zero_or_pos n with rfl | hn0
    · simp only [List.range_zero, List.foldl_nil, lt_self_iff_false, if_false]
      refine ⟨by omega, fun i hi => ?_⟩
      obtain rfl : i = 0 := by omega
      exact le_rfl
    · obtain ⟨h1, h2⟩ := ih hn0
      split_ifs with h
      · refine ⟨by omega, fun i hi => ?_⟩
        rcases Nat.lt_succ_iff_lt_or_eq.1 hi with hi | rfl
        · exact h.le.trans (h2 i hi)
        · exact le_rfl
      · refine ⟨by omega, fun i hi => ?_⟩
        rcases Nat.lt_succ_iff_lt_or_eq.1 hi with hi | rfl
        · exact h2 i hi
        · exact not_lt.1 h

open scoped MatrixOrder ComplexOrder in
/-- the lowest eigenvalue of `T u = E G u` is the minimum of the quotient of the two forms -/
theorem gen_lowest (hm : 0 < m) {G T : Matrix (Fin m) (Fin m) ℂ} (hT : T.conjTranspose = T) (hG : G.PosDef) :
    ∃ (E : ℝ) (u : Fin m → ℂ), u ≠ 0 ∧ T.mulVec u = (E : ℂ) • G.mulVec u ∧
      ∀ x, E * (star x ⬝ᵥ G.mulVec x).re ≤ (star x ⬝ᵥ T.mulVec x).re := by
  obtain ⟨B, hB⟩ := CStarAlgebra.nonneg_iff_eq_star_mul_self.mp hG.posSemidef.nonneg
  rw [Matrix.star_eq_conjTranspose] at hB
  have hu : IsUnit B := by
    have := hG.isUnit
    rw [hB] at this
    rw [Matrix.isUnit_iff_isUnit_det] at this ⊢
    rw [Matrix.det_mul] at this
    exact isUnit_of_mul_isUnit_right this
  have hdet : IsUnit B.det := (Matrix.isUnit_iff_isUnit_det _).1 hu
  have i1 : B * B⁻¹ = 1 := Matrix.mul_nonsing_inv _ hdet
  have i2 : B⁻¹ * B = 1 := Matrix.nonsing_inv_mul _ hdet
  have i3 : B.conjTranspose * B⁻¹.conjTranspose = 1 := by rw [← Matrix.conjTranspose_mul, i2, Matrix.conjTranspose_one]
  set W := B⁻¹.conjTranspose * T * B⁻¹ with hWdef
  clear_value W
  have hW : W.conjTranspose = W := by
    rw [hWdef]
    simp only [Matrix.conjTranspose_mul, Matrix.conjTranspose_conjTranspose, hT, Matrix.mul_assoc]
  have hTW : T = B.conjTranspose * W * B := by
    rw [hWdef]
    calc T = (B.conjTranspose * B⁻¹.conjTranspose) * T * (B⁻¹ * B) := by rw [i3, i2]; simp
      _ = _ := by simp only [Matrix.mul_assoc]
  obtain ⟨v, E, h1, h2, h3⟩ := exists_lowest m hm (fun i j => W i j) (fun i j => by
    have := congrFun (congrFun hW j) i
    rw [Matrix.conjTranspose_apply] at this
    exact this)
  have hWv : W.mulVec v = (E : ℂ) • v := funext fun i => h2 i
  have hv : v ≠ 0 := by
    rintro rfl
    simp at h1
  have hBu : B.mulVec (B⁻¹.mulVec v) = v := by rw [Matrix.mulVec_mulVec, i1, Matrix.one_mulVec]
  refine ⟨E, B⁻¹.mulVec v, fun h => hv ?_, ?_, fun x => ?_⟩
  · rw [← hBu, h, Matrix.mulVec_zero]
  · rw [hTW, hB, ← Matrix.mulVec_mulVec, ← Matrix.mulVec_mulVec, ← Matrix.mulVec_mulVec, hBu, hWv, Matrix.mulVec_smul]
  · have hx := h3 (B.mulVec x)
    have e1 : star x ⬝ᵥ G.mulVec x = ((∑ i, ‖B.mulVec x i‖ ^ 2 : ℝ) : ℂ) := by
      rw [hB, ← Matrix.mulVec_mulVec, Matrix.dotProduct_mulVec, ← Matrix.star_mulVec]
      push_cast
      refine Finset.sum_congr rfl fun i _ => ?_
      rw [Pi.star_apply, ← Complex.conj_mul']
      rfl
    have e2 : star x ⬝ᵥ T.mulVec x = ∑ i, ∑ j, star (B.mulVec x i) * W i j * B.mulVec x j := by
      rw [hTW, ← Matrix.mulVec_mulVec, ← Matrix.mulVec_mulVec, Matrix.dotProduct_mulVec, ← Matrix.star_mulVec]
      refine Finset.sum_congr rfl fun i _ => ?_
      rw [Pi.star_apply, show W.mulVec (B.mulVec x) i = ∑ j, W i j * B.mulVec x j from rfl, Finset.mul_sum]
      exact Finset.sum_congr rfl fun j _ => by ring
    rw [e1, e2, Complex.ofReal_re]
    exact hx

theorem Basis.Independent.family {b : Basis} (h : b.Independent ds) {y : Fin b.states.length → ℂ} (hy : ∀ s, IsCfg ds s → comb b.family y s = 0) : y = 0 := by
  funext j
  have := h (fun i => if hi : i < b.states.length then y ⟨i, hi⟩ else 0) (fun s hs => by
    rw [Finset.sum_range, ← hy s hs]
    exact Finset.sum_congr rfl fun i _ => by simp [Basis.family]) j.1 j.2
  simpa using this

open scoped ComplexOrder in
theorem Basis.Independent.posDef {b : Basis} (h : b.Independent ds) : (gram ds b.family).PosDef := by
  refine Matrix.PosDef.of_dotProduct_mulVec_pos (gram_herm b.family) fun x hx => ?_
  rw [← inner_comb, inner_self_ofReal]
  have h0 : 0 ≤ sumCfg ds (fun s => ‖comb b.family x s‖ ^ 2) := sumCfg_nonneg _ _ fun s _ => by positivity
  rcases h0.eq_or_lt with h1 | h1
  · refine absurd (h.family fun s hs => zero_of_inner (ds := ds) ?_ s hs) hx
    rw [inner_self_ofReal, ← h1]; simp
  · exact Complex.zero_lt_real.2 h1

open scoped ComplexOrder in
/-- `dt = 0`: the coefficients of the state with the lowest energy -/
theorem lowest {H psi : List (Tensor ℂ)} {nv : Nat} {b : Basis} (hK : Krylov ds H psi nv b) (hf : Faithful ds psi b) (hi : b.Independent ds)
    (hH : Minim.Hermitian ds H)
    {lin : Tensor ℂ → Tensor ℂ → Tensor ℂ} (hl : GoodSolveM lin) {eig : Tensor ℂ → Tensor ℂ × Tensor ℂ} (heig : GoodEig eig) :
    (groundState lin eig b.Heff b.N).dims = [b.states.length] ∧
    let v := comb b.family fun i => (groundState lin eig b.Heff b.N).get [i.1]
    (∃ s, IsCfg ds s ∧ v s ≠ 0) ∧ ∀ x, energyAt ds H v * normSqOf ds (comb b.family x) ≤ energyAt ds H (comb b.family x) * normSqOf ds v := by
  have hd := (hl b.N b.Heff b.states.length hK.dims.1 hK.dims.2).1
  obtain ⟨e1, e2, e3, e4⟩ := heig (lin b.N b.Heff) b.states.length hd
  refine ⟨by simp [groundState, dim, e2, nrm], ?_⟩
  intro v
  set r := eig (lin b.N b.Heff) with hr
  have hr1 : r.1.dim 0 = b.states.length := by simp [dim, e1, nrm]
  obtain ⟨k1, k2⟩ := argmin_spec (fun i => RCLike.re (r.1.get [i])) b.states.length hK.size.1
  set k := argmin (fun i => RCLike.re (r.1.get [i])) b.states.length with hk
  have hget : (fun i : Fin b.states.length => (groundState lin eig b.Heff b.N).get [i.1]) = fun i => r.2.get [i.1, k] := by
    funext i
    simp only [groundState, ← hr, hr1, ← hk]
    rfl
  have hvdef : v = comb b.family fun i => r.2.get [i.1, k] := by rw [← hget]
  set w : Fin b.states.length → ℂ := fun i => r.2.get [i.1, k] with hw
  have hGX := hK.solve hf hl
  obtain ⟨E, u, hu0, hu, hlow⟩ := gen_lowest hK.size.1 (ham_herm hH b.family) hi.posDef
  have hXw : (b.mat lin).mulVec w = r.1.get [k] • w := by
    funext i
    have := (e3 k k1).1 i.1 i.2
    rw [Finset.sum_range] at this
    exact this
  have hinj : ∀ x y, (gram ds b.family).mulVec x = (gram ds b.family).mulVec y → x = y := by
    intro x y hxy
    exact Matrix.mulVec_injective_iff_isUnit.2 hi.posDef.isUnit hxy
  have hXu : (b.mat lin).mulVec u = (E : ℂ) • u := by
    refine hinj _ _ ?_
    rw [Matrix.mulVec_mulVec, hGX, hu, Matrix.mulVec_smul]
  have hkE : RCLike.re (r.1.get [k]) ≤ E := by
    obtain ⟨l, hl1, hl2⟩ := e4 (E : ℂ) (fun i => if hi : i < b.states.length then u ⟨i, hi⟩ else 0) (by
      by_contra hc
      push Not at hc
      exact hu0 (funext fun i => by simpa using hc i.1 i.2)) (fun i hi => by
        have := congrFun hXu ⟨i, hi⟩
        rw [Finset.sum_range]
        simpa [Matrix.mulVec, dotProduct, Basis.mat, toMat, hi] using this)
    have := k2 l hl1
    rw [hl2] at this
    simpa using this
  have norm_eq : ∀ x, (star x ⬝ᵥ (gram ds b.family).mulVec x).re = normSqOf ds (comb b.family x) := by
    intro x
    rw [← inner_comb, inner_self_ofReal]
    exact Complex.ofReal_re _
  have en_eq : ∀ x, (star x ⬝ᵥ (ham ds H b.family).mulVec x).re = energyAt ds H (comb b.family x) := by
    intro x
    rw [← inner_ham]; rfl
  constructor
  · by_contra hc
    push Not at hc
    have : w = 0 := hi.family (by rw [← hvdef]; exact hc)
    obtain ⟨i, hi1, hi2⟩ := (e3 k k1).2
    exact hi2 (congrFun this ⟨i, hi1⟩)
  · intro x
    have hv : energyAt ds H v = RCLike.re (r.1.get [k]) * normSqOf ds v := by
      rw [hvdef, ← en_eq, ← norm_eq, ← hGX, ← Matrix.mulVec_mulVec, hXw, Matrix.mulVec_smul, dotProduct_smul, smul_eq_mul]
      rw [← inner_comb, inner_self_ofReal]
      simp
    have hx := hlow x
    rw [norm_eq, en_eq] at hx
    have n1 : 0 ≤ normSqOf ds (comb b.family x) := normSqOf_nonneg _ _
    have n2 : 0 ≤ normSqOf ds v := normSqOf_nonneg _ _
    rw [hv]
    calc RCLike.re (r.1.get [k]) * normSqOf ds v * normSqOf ds (comb b.family x)
        ≤ E * normSqOf ds v * normSqOf ds (comb b.family x) := by gcongr
      _ = (E * normSqOf ds (comb b.family x)) * normSqOf ds v := by ring
      _ ≤ _ := by gcongr

theorem exp_eigen (X : Matrix (Fin m) (Fin m) ℂ) (z h : ℂ) (e : Fin m → ℂ) (he : X.mulVec e = h • e) :
    (NormedSpace.exp (z • X)).mulVec e = Complex.exp (z * h) • e := by
  have hp : ∀ k : Nat, (X ^ k).mulVec e = h ^ k • e := by
    intro k
    induction k with
    | zero => simp
    | succ k ih => rw [pow_succ, ← Matrix.mulVec_mulVec, he, Matrix.mulVec_smul, ih, smul_smul]; ring_nf
  funext i
  have h1 := exp_mulVec_hasSum X z e i
  have h2 : HasSum (fun k : Nat => (z * h) ^ k / (k.factorial : ℂ) * e i) (Complex.exp (z * h) * e i) := by
    have h3 := (NormedSpace.expSeries_div_hasSum_exp (𝔸 := ℂ) (z * h)).mul_right (e i)
    rwa [← Complex.exp_eq_exp_ℂ] at h3
  refine h1.unique ?_
  convert h2 using 1
  swap
  · rfl
  funext k
  rw [hp]
  simp [mul_pow]; ring

end MPS.Arnoldi
