import Verif.Props.CanonTruncProps
import Verif.Props.TrotterOrderProps
import Verif.Props.LayerProps

/-!
# C139: `MPS_DO_NOT_TRUNCATE`

With this strategy `Trotter2Solver::one_step` calls `Unitary::apply` with `Dmax = 0`.  That function still drops the singular values of
the tensor of each pair which are small with respect to the others, and with `Dmax = 0` the state is not brought to canonical form, so
that their weight is not a weight of the state.
-/

set_option linter.unusedSectionVars false
set_option linter.unusedSimpArgs false

namespace MPS.Props
open MPS Tensor Trotter Minim

/-- **C139**, for one layer and a state in canonical form with respect to the first site: with `Dmax = 0` and a positive sense `Unitary::apply` loses
a fraction `L D max(eps, tol)` of the squared norm at most, `D` being the largest bond of the state, and the distance to the exact layer is bounded by
the norm lost.  Missing: the layers after the first one, and other states -- they are false, as shown below. -/
theorem C139_first_layer_partial {svd : Tensor ℂ → SvdRes ℂ} (hg : GoodSvd svd) (eps : ℝ) {dflt : ℝ} (hd0 : 0 < dflt)
    {expm : Tensor ℂ → Tensor ℂ} (he : GoodExpm expm) {H : Ham ℂ} {ds : List Nat} (hH : HamFits H ds) (hh : HamHermitian H ds) (k : Nat) (hk : k ≤ 1)
    (dt : ℝ) {W : Unitary} (hW : mkUnitary expm H k dt = some W) (x : Evo) (hx : ReadyFor ds x.P 0) {D : Nat} (hD : 1 ≤ D)
    (hb : ∀ j, 0 < j → j < ds.length → (site x.P j).dim 0 ≤ D) {tol : ℝ} (htol : 0 < tol) :
    let y := (apply svd eps dflt W x 0 tol 0 false).1.P
    WF 1 y ds 1 ∧ normSq ds y ≤ normSq ds x.P ∧ normSq ds x.P - normSq ds y ≤ ds.length * D * max tol eps * normSq ds x.P ∧
      Order.wdist ds (amp y) (actOp ds (layerElt ds k (site W.U)) (amp x.P)) ≤ Real.sqrt (ds.length * (normSq ds x.P - normSq ds y)) := by
  obtain ⟨hP, hpos⟩ := ready_iff.1 hx
  have ht : effTol dflt tol = tol := by unfold effTol; rw [if_neg (by linarith)]
  obtain ⟨W', e, hf, -⟩ := mkUnitary_fits he.dims hH k hk (dt : ℂ)
  rw [hW] at e
  cases e
  obtain ⟨W', w1, w2⟩ := C58_gates hH expm (dt : ℂ) k hk
  rw [hW] at w1
  cases w1
  have hu : GatesUnitary ds k W.gate := by
    constructor
    · intro p hp
      rw [show W.gate p = _ from w2 p (Or.inl hp)]
      exact he.unitary _ _ (by exact (layerGen_dims hH k).1 p hp) (anti_of_herm ((layerGen_hermitian hH hh k).1 p hp) (by simp))
    · intro p hp
      rw [show W.gate p = _ from w2 p (Or.inr hp)]
      exact he.unitary _ _ (by exact (layerGen_dims hH k).2 p hp) (anti_of_herm ((layerGen_hermitian hH hh k).2 p hp) (by simp))
  intro y
  have hy : y = (sweep svd eps dflt W x 1 tol 0).P := by
    show (apply svd eps dflt W x 0 tol 0 false).1.P = _
    rw [show apply svd eps dflt W x 0 tol 0 false = _ from apply_eq _ _ _ _ _ _ _ _ _]; simp
  obtain ⟨S, c, hS, -, hF⟩ := sweep_free hg eps hd0 hf hu x hpos (lay_start hD hP hpos hb) tol (by rw [ht]; exact htol) (tau := max tol eps) (by rw [ht])
  have e1 : actOp ds (partElt ds k W.gate S) (amp x.P) = actOp ds (layerElt ds k (site W.U)) (amp x.P) := by
    funext t
    exact actOp_congr (fun s t => by rw [partElt_all ds k W.gate S hS]; rfl) (fun _ _ => rfl) t
  have hd := hF.dist
  rw [e1] at hd
  rw [hy]
  exact ⟨hF.lay.wf, hF.lay.norm, hF.small.trans (le_of_eq (by ring)), hd⟩

/-- the Hamiltonian 0 of three sites of dimensions `d`, `d`, 1 -/
noncomputable def zeroHam (d : Nat) : Ham ℂ where
  size := 3
  dim p := [d, d, 1].getD p 0
  loc p := ⟨[[d, d, 1].getD p 0, [d, d, 1].getD p 0], fun _ => 0⟩
  inter p := ⟨[[d, d, 1].getD p 0 * [d, d, 1].getD (p + 1) 0, [d, d, 1].getD p 0 * [d, d, 1].getD (p + 1) 0], fun _ => 0⟩
  depth _ := 0
  left _ _ := Tensor.empty
  right _ _ := Tensor.empty
  periodic := false

theorem zeroHam_fits (d : Nat) : HamFits (zeroHam d) [d, d, 1] := ⟨rfl, fun _ _ => rfl, fun _ _ => rfl, fun _ _ => rfl⟩

theorem zeroHam_hermitian (d : Nat) : HamHermitian (zeroHam d) [d, d, 1] :=
  ⟨fun p hp x y hx hy => by simp [zeroHam], fun p hp x y hx hy => by simp [zeroHam]⟩

/-- the state `∑ |i,i,0⟩`, with most of the weight in the tensor of the third site -/
noncomputable def lopsided (d : Nat) (δ : ℂ) : List (Tensor ℂ) :=
  [diagTensor [1, d, d] 1 2 1 1, ⟨[d, d, d], fun I => if I.getD 0 0 = I.getD 1 0 ∧ I.getD 1 0 = I.getD 2 0 then (if I.getD 0 0 = 0 then 1 else δ) else 0⟩,
    ⟨[d, 1, 1], fun I => if I.getD 0 0 = 0 then 1 else 1 / δ⟩]

theorem lopsided_wf {d : Nat} (hd : 0 < d) (δ : ℂ) : WF 1 (lopsided d δ) [d, d, 1] 1 :=
  WF.cons rfl Nat.one_pos hd hd (WF.cons rfl hd hd hd (WF.cons rfl hd Nat.one_pos Nat.one_pos (WF.nil 1)))

theorem amp_three {A B C : Tensor ℂ} {d l d2 r : Nat} (hA : A.dims = [1, d, l]) (hB : B.dims = [l, d2, r]) (hC : C.dims = [r, 1, 1]) (i j : Nat) :
    amp [A, B, C] [i, j, 0] = ∑ k ∈ Finset.range l, A.get [0, i, k] * ∑ z ∈ Finset.range r, B.get [k, j, z] * C.get [z, 0, 0] := by
  simp [amp, path, dim, hA, hB, hC]

theorem amp_lopsided {d : Nat} {δ : ℂ} (hδ : δ ≠ 0) {i j : Nat} (hi : i < d) : amp (lopsided d δ) [i, j, 0] = if i = j then 1 else 0 := by
  rw [lopsided, amp_three rfl rfl rfl]
  simp only [diagTensor, List.getD_cons_succ, List.getD_cons_zero]
  rw [Finset.sum_eq_single i]
  · rw [Finset.sum_eq_single i]
    · by_cases h : i = j
      · subst h
        by_cases h0 : i = 0
        · simp [h0]
        · simp [h0, hδ]
      · simp [h]
    · intro z _ hz
      rw [if_neg (fun h => hz (h.2.symm.trans h.1.symm)), zero_mul]
    · intro h; exact absurd (Finset.mem_range.2 hi) h
  · intro k _ hk
    rw [if_neg (Ne.symm hk), zero_mul]
  · intro h; exact absurd (Finset.mem_range.2 hi) h

/-- a one-site gate without truncation replaces one tensor by one of the same size -/
theorem applyOne_dims {svd : Tensor ℂ → SvdRes ℂ} (eps dflt : ℝ) (x : Evo) (U : Tensor ℂ) (k : Nat) (dk : Int) {a n b : Nat}
    (hX : (site x.P k).dims = [a, n, b]) (hU : U.dims = [n, n]) :
    ∃ C : Tensor ℂ, C.dims = [a, n, b] ∧ (applyOne svd eps dflt x U k dk 0).P = x.P.set k C := by
  refine ⟨if U.isEmpty then site x.P k else foldin U (-1) (site x.P k) 1, ?_, by simp [applyOne]⟩
  split
  · exact hX
  · simp [foldin, hU, hX]

/-- the number of singular values kept for the first pair -/
theorem kept_le_two {svd : Tensor ℂ → SvdRes ℂ} (hg : GoodSvd svd) (hs : SortedSvd svd) {eps : ℝ} (he0 : 0 < eps) (he1 : eps < 1) (dflt : ℝ)
    {d : Nat} (hd : 0 < d) {A : Tensor ℂ} (hA : A.dims = [1 * d, d * d])
    (hget : ∀ x i j y, x < 1 → i < d → j < d → y < d → A.get [x + 1 * i, j + d * y] =
      if i = j ∧ j = y then (if i = 0 then 1 else ((eps / d : ℝ) : ℂ)) else 0) (n : Int) : whereToTruncate eps dflt (svd A).s eps n ≤ 2 := by
  set δ : ℂ := ((eps / d : ℝ) : ℂ) with hδ
  have hdr : (0 : ℝ) < d := by exact_mod_cast hd
  have hsvd := hg A (1 * d) (d * d) hA (by omega) (Nat.mul_pos hd hd)
  have hcol : ∀ i < d, ∀ f : Nat → ℝ, ∑ c ∈ Finset.range (d * d), f c = ∑ j ∈ Finset.range d, ∑ y ∈ Finset.range d, f (j + d * y) := by
    intro i hi f
    rw [sum_range_mul, Finset.sum_comm]
  have hrank1 := eckart_young hsvd (fun i => by
      rcases Nat.lt_or_ge i (svd A).s.length with h | h
      · rw [List.getD_eq_getElem _ _ h]; exact (hs A).1 _ (List.getElem_mem h)
      · rw [List.getD_eq_default _ _ h]) (hs A).2 1 (fun i _ => if i = 0 then 1 else 0) (fun _ c => if c = 0 then 1 else 0)
  have hsum : ∑ i ∈ Finset.range (1 * d), ∑ c ∈ Finset.range (d * d),
      ‖A.get [i, c] - ∑ k ∈ Finset.range 1, (if i = 0 then (1 : ℂ) else 0) * (if c = 0 then 1 else 0)‖ ^ 2 ≤ d * ‖δ‖ ^ 2 := by
    have : ∀ i ∈ Finset.range (1 * d), ∑ c ∈ Finset.range (d * d),
        ‖A.get [i, c] - ∑ k ∈ Finset.range 1, (if i = 0 then (1 : ℂ) else 0) * (if c = 0 then 1 else 0)‖ ^ 2 ≤ ‖δ‖ ^ 2 := by
      intro i hi
      have hi' : i < d := by simpa using hi
      rw [hcol i hi']
      have hg' : ∀ j y, j < d → y < d → A.get [i, j + d * y] = if i = j ∧ j = y then (if i = 0 then 1 else δ) else 0 := by
        intro j y hj hy
        have := hget 0 i j y Nat.one_pos hi' hj hy
        simpa using this
      have hz : ∀ j y, j + d * y = 0 ↔ j = 0 ∧ y = 0 := by
        intro j y
        constructor
        · intro h
          have h1 : d * y = 0 := by omega
          rcases Nat.mul_eq_zero.1 h1 with h2 | h2
          · omega
          · exact ⟨by omega, h2⟩
        · rintro ⟨rfl, rfl⟩; simp
      rw [Finset.sum_eq_single i]
      · rw [Finset.sum_eq_single i]
        · rw [hg' i i hi' hi']
          by_cases h0 : i = 0
          · simp [h0]
          · simp [h0]
        · intro y hy hne
          rw [hg' i y hi' (Finset.mem_range.1 hy), if_neg (fun h => hne h.2.symm)]
          by_cases h0 : i = 0
          · have h1 : ¬ (i + d * y = 0) := by rw [hz]; omega
            simp only [h1, if_false]; simp
          · simp [h0]
        · intro h; exact absurd (Finset.mem_range.2 hi') h
      · intro j hj hne
        refine Finset.sum_eq_zero fun y hy => ?_
        rw [hg' j y (Finset.mem_range.1 hj) (Finset.mem_range.1 hy), if_neg (fun h => hne h.1.symm)]
        by_cases h0 : i = 0
        · have h1 : ¬ (j + d * y = 0) := by rw [hz]; omega
          simp only [h1, if_false]; simp
        · simp [h0]
      · intro h; exact absurd (Finset.mem_range.2 hi') h
    refine (Finset.sum_le_sum this).trans ?_
    simp
  have htot : 1 ≤ discarded (svd A).s 0 := by
    rw [← hsvd.total]
    have h1 : ‖A.get [0, 0]‖ ^ 2 ≤ ∑ j ∈ Finset.range (d * d), ‖A.get [0, j]‖ ^ 2 :=
      Finset.single_le_sum (f := fun j => ‖A.get [0, j]‖ ^ 2) (fun _ _ => by positivity) (Finset.mem_range.2 (Nat.mul_pos hd hd))
    have h2 : ∑ j ∈ Finset.range (d * d), ‖A.get [0, j]‖ ^ 2 ≤ ∑ i ∈ Finset.range (1 * d), ∑ j ∈ Finset.range (d * d), ‖A.get [i, j]‖ ^ 2 :=
      Finset.single_le_sum (f := fun i => ∑ j ∈ Finset.range (d * d), ‖A.get [i, j]‖ ^ 2)
        (fun _ _ => Finset.sum_nonneg fun _ _ => by positivity) (Finset.mem_range.2 (by omega))
    have h3 : A.get [0, 0] = 1 := by
      have := hget 0 0 0 0 Nat.one_pos hd hd hd
      simpa using this
    rw [h3] at h1
    simp at h1 h2 ⊢
    linarith
  have hδn : (d : ℝ) * ‖δ‖ ^ 2 ≤ eps := by
    have h1 : ‖δ‖ = eps / d := by rw [hδ, Complex.norm_real, Real.norm_eq_abs, abs_of_pos (div_pos he0 hdr)]
    rw [h1]
    have hd1' : (1 : ℝ) ≤ d := by exact_mod_cast hd
    have : (d : ℝ) * (eps / d) ^ 2 = eps * (eps / d) := by field_simp
    rw [this]
    have : eps / d ≤ 1 := by rw [div_le_one hdr]; linarith
    nlinarith
  by_contra hcon
  push Not at hcon
  have h1 := (C18_tight eps dflt (svd A).s eps he0.le he1 n).1 he0 1 (by omega)
  have h2 : eps ≤ max eps eps * discarded (svd A).s 0 := by
    have h3 : eps ≤ max eps eps := le_max_left _ _
    nlinarith
  linarith

/-- the generator of the gate of the first pair is 0 -/
theorem zeroHam_gen {d : Nat} {i j : Nat} (hi : i < d * d) (hj : j < d * d) : (gen (zeroHam d) 0 0).get [i, j] = 0 := by
  rw [gen_pair (by omega) (show PairAt 3 0 0 by decide)]
  simp [zeroHam, add, smul, kron2, kron]

/-- the first layer of a step, on three sites -/
theorem apply_first {svd : Tensor ℂ → SvdRes ℂ} (eps dflt : ℝ) {W : Unitary} (h0 : W.k0 = 0) (hN : W.kN = 2) {x : Evo} (hL : x.P.length = 3) (tol : ℝ) :
    apply svd eps dflt W x 0 tol 0 false =
      (applyOne svd eps dflt (applyTwo svd eps dflt x (site W.U 0) 0 1 tol 0) (site W.U 2) 2 1 0, -1) := by
  simp [apply, h0, hN, hL, loopUp]

/-- the second layer of a step, on three sites -/
theorem apply_second {svd : Tensor ℂ → SvdRes ℂ} (eps dflt : ℝ) {W : Unitary} (h0 : W.k0 = 1) (hN : W.kN = 3) {x : Evo} (hL : x.P.length = 3) (tol : ℝ) :
    apply svd eps dflt W x (-1) tol 0 false =
      (applyOne svd eps dflt (applyTwo svd eps dflt x (site W.U 1) 1 (-1) tol 0) (site W.U 0) 0 (-1) 0, 1) := by
  simp [apply, h0, hN, hL, loopDown]

/-- **C139**, false in general: on the state `∑ |i,i,0⟩` of three sites of dimensions `d`, `d` and 1, written as `lopsided`, one step of
`Trotter2Solver` with `MPS_DO_NOT_TRUNCATE` and the Hamiltonian 0 loses all but two of the `d` terms, and returns the error 0 -/
theorem C139_lopsided_violated {svd : Tensor ℂ → SvdRes ℂ} (hg : GoodSvd svd) (hs : SortedSvd svd) {eps : ℝ} (he0 : 0 < eps) (he1 : eps < 1)
    {dflt : ℝ} (hd0 : 0 < dflt) (simp_obc : List (Tensor ℂ) → Int → Nat → Bool → Nat → List (Tensor ℂ) × ℝ) {d : Nat} (hd : 0 < d) (dt : ℂ)
    (normalize : Bool) (Dmax : Nat) :
    let ψ := lopsided d ((eps / d : ℝ) : ℂ)
    WF 1 ψ [d, d, 1] 1 ∧ normSq [d, d, 1] ψ = d ∧
      ∃ U y sense', (trotter2 eps).unitaries matrixExp (zeroHam d) dt = some U ∧
        oneStep svd eps dflt simp_obc (trotter2 eps) U .doNotTruncate normalize 0 ψ Dmax = some (y, sense') ∧ y.err = 0 ∧
        (d : ℝ) - 2 ≤ distSq [d, d, 1] ψ y.P := by
  intro ψ
  have hdr : (0 : ℝ) < d := by exact_mod_cast hd
  set δ : ℂ := ((eps / d : ℝ) : ℂ) with hδ
  have hδ0 : δ ≠ 0 := by rw [hδ]; exact Complex.ofReal_ne_zero.2 (div_pos he0 hdr).ne'
  have hamp : ∀ i < d, ∀ j, amp ψ [i, j, 0] = if i = j then 1 else 0 := fun i hi j => amp_lopsided hδ0 hi
  refine ⟨lopsided_wf hd δ, ?_, ?_⟩
  · unfold normSq
    simp only [sumCfg_cons, sumCfg_nil, Finset.sum_range_one]
    have : ∀ i ∈ Finset.range d, ∑ j ∈ Finset.range d, ‖amp ψ [i, j, 0]‖ ^ 2 = 1 := by
      intro i hi
      rw [Finset.sum_eq_single i]
      · rw [hamp i (Finset.mem_range.1 hi)]; simp
      · intro j _ hj; rw [hamp i (Finset.mem_range.1 hi), if_neg (Ne.symm hj)]; simp
      · intro h; exact absurd hi h
    rw [Finset.sum_congr rfl this]; simp
  · obtain ⟨W0, hW0, hf0, hg0⟩ := mkUnitary_fits (exists_goodExpm.dims) (zeroHam_fits d) 0 (by omega) (dt * 1)
    obtain ⟨W1, hW1, hf1, hg1⟩ := mkUnitary_fits (exists_goodExpm.dims) (zeroHam_fits d) 1 (by omega) (dt * 1)
    have hk0 : W0.k0 = 0 := hf0.k0
    have hkN : W0.kN = 2 := by rw [hf0.kN]; simp [layerEnd]
    have hk1 : W1.k0 = 1 := hf1.k0
    have hkM : W1.kN = 3 := by rw [hf1.kN]; simp [layerEnd]
    -- the first layer
    have hp0 : PairAt [d, d, 1].length 0 0 := by simp [PairAt]
    have hs2 : Single [d, d, 1].length 0 2 := by simp [Single, PairAt]
    have hU0 : (site W0.U 0).dims = [d * d, d * d] := hf0.gates.1 0 hp0
    have hU2 : (site W0.U 2).dims = [1, 1] := hf0.gates.2 2 hs2
    obtain ⟨B1, B2, g, err, b1, b2, hgpos, -, -, -, -, -, -, ⟨A, hA, hAg, hgw, -⟩, hap⟩ := applyTwo_full hg eps hd0 (a := 1) (b := 1) ⟨ψ, 0, 0⟩
      (pre := []) (post := [site ψ 2]) (X := site ψ 0) (Y := site ψ 1) rfl (c := 1) (d := d) (e := d) (d2 := d) (f := d) (WF.nil 1) rfl rfl
      ⟨Nat.one_pos, hd, hd, hd, hd⟩ (WF.cons rfl hd Nat.one_pos Nat.one_pos (WF.nil 1)) (site W0.U 0) hU0 1 eps (by
        unfold effTol; rw [if_neg (not_lt.2 he0.le)]; exact he0) 0
    have hgate : ∀ x y, x < d * d → y < d * d → (site W0.U 0).get [x, y] = if x = y then 1 else 0 := by
      intro x y hx hy
      have e : site W0.U 0 = matrixExp (smul (rotated (dt * 1)) (gen (zeroHam d) 0 0)) := hg0 0 (Or.inl hp0)
      have hdim : (gen (zeroHam d) 0 0).dims = [d * d, d * d] := (gen_dims (zeroHam_fits d) (by omega)).1 0 hp0
      rw [e, Order.matrixExp_get (n := d * d) (by simpa [smul] using hdim) hx hy]
      have : Order.tmat (d * d) (smul (rotated (dt * 1)) (gen (zeroHam d) 0 0)) = 0 := by
        ext i j
        simp [Order.tmat, smul, zeroHam_gen i.2 j.2]
      rw [this, NormedSpace.exp_zero, Matrix.one_apply]
      simp
    have hg2 : g ≤ 2 := by
      rw [hgw]
      refine kept_le_two hg hs he0 he1 dflt hd hA (fun x i j y hx hi hj hy => ?_) _
      rw [hAg x i j y hx hi hj hy, Finset.sum_eq_single i, Finset.sum_eq_single j]
      · rw [hgate _ _ (add_mul_lt hi hj) (add_mul_lt hi hj), if_pos rfl, one_mul]
        have hx0 : x = 0 := by omega
        subst hx0
        simp only [ψ, lopsided, site, List.getD_cons_succ, List.getD_cons_zero, diagTensor]
        rw [Finset.sum_eq_single i]
        · by_cases h : i = j ∧ j = y
          · simp [h]
          · simp [h]
        · intro z _ hz; rw [if_neg (Ne.symm hz), zero_mul]
        · intro h; exact absurd (Finset.mem_range.2 hi) h
      · intro j' hj' hne
        rw [hgate _ _ (add_mul_lt hi hj) (add_mul_lt hi (Finset.mem_range.1 hj')), if_neg, zero_mul]
        intro h
        have : d * j = d * j' := by omega
        exact hne (Nat.eq_of_mul_eq_mul_left hd this).symm
      · intro h; exact absurd (Finset.mem_range.2 hj) h
      · intro i' hi' hne
        refine Finset.sum_eq_zero fun j' hj' => ?_
        rw [hgate _ _ (add_mul_lt hi hj) (add_mul_lt (Finset.mem_range.1 hi') (Finset.mem_range.1 hj')), if_neg, zero_mul]
        intro h
        have h1 := congrArg (· % d) h
        simp only [Nat.add_mul_mod_self_left, Nat.mod_eq_of_lt hi, Nat.mod_eq_of_lt (Finset.mem_range.1 hi')] at h1
        exact hne h1.symm
      · intro h; exact absurd (Finset.mem_range.2 hi) h
    have hap' : applyTwo svd eps dflt ⟨ψ, 0, 0⟩ (site W0.U 0) 0 1 eps 0 = ⟨[B1, B2, site ψ 2], 0 + err, 0⟩ := hap
    obtain ⟨C, c1, c2⟩ := applyOne_dims (svd := svd) eps dflt ⟨[B1, B2, site ψ 2], 0 + err, 0⟩ (site W0.U 2) 2 1 (a := d) (n := 1) (b := 1) rfl hU2
    rw [← hap'] at c2
    have c2' : (applyOne svd eps dflt (applyTwo svd eps dflt ⟨ψ, 0, 0⟩ (site W0.U 0) 0 1 eps 0) (site W0.U 2) 2 1 0).P = [B1, B2, C] := by
      rw [c2, hap']; rfl
    set z := applyOne svd eps dflt (applyTwo svd eps dflt ⟨ψ, 0, 0⟩ (site W0.U 0) 0 1 eps 0) (site W0.U 2) 2 1 0 with hz
    -- the second layer
    have hp1 : PairAt [d, d, 1].length 1 1 := by simp [PairAt]
    have hs0 : Single [d, d, 1].length 1 0 := by simp [Single, PairAt]
    have hV1 : (site W1.U 1).dims = [d * 1, d * 1] := hf1.gates.1 1 hp1
    have hV0 : (site W1.U 0).dims = [d, d] := hf1.gates.2 0 hs0
    set x1 : Evo := ⟨z.P, 0, z.hidden + (z.err - 0)⟩ with hx1
    have hx1P : x1.P = [B1, B2, C] := c2'
    obtain ⟨D1, D2, h, err', d1, d2, -, -, -, -, -, -, -, -, hap1⟩ := applyTwo_full hg eps hd0 (a := 1) (b := 1) x1
      (pre := [B1]) (post := []) (X := B2) (Y := C) hx1P (c := g) (d := d) (e := d) (d2 := 1) (f := 1)
      (WF.cons b1 Nat.one_pos hd hgpos (WF.nil g)) b2 c1 ⟨hgpos, hd, hd, Nat.one_pos, Nat.one_pos⟩ (WF.nil 1) (site W1.U 1) hV1 (-1) eps (by
        unfold effTol; rw [if_neg (not_lt.2 he0.le)]; exact he0) 0
    have hap1' : applyTwo svd eps dflt x1 (site W1.U 1) 1 (-1) eps 0 = ⟨[B1, D1, D2], x1.err + err', x1.hidden⟩ := hap1
    obtain ⟨E, e1, e2⟩ := applyOne_dims (svd := svd) eps dflt ⟨[B1, D1, D2], x1.err + err', x1.hidden⟩ (site W1.U 0) 0 (-1) (a := 1) (n := d) (b := g) b1 hV0
    set w := applyOne svd eps dflt (applyTwo svd eps dflt x1 (site W1.U 1) 1 (-1) eps 0) (site W1.U 0) 0 (-1) 0 with hw
    have hwP : w.P = [E, D1, D2] := by rw [hw, hap1', e2]; rfl
    refine ⟨[W0, W1], ⟨w.P, 0, w.hidden + (w.err - 0)⟩, 1, ?_, ?_, rfl, ?_⟩
    · have h0 : mkUnitary matrixExp (zeroHam d) 0 dt = some W0 := by simpa using hW0
      have h1 : mkUnitary matrixExp (zeroHam d) 1 dt = some W1 := by simpa using hW1
      simp [Solver.unitaries, trotter2, h0, h1]
    · have r1 : runCall svd eps dflt simp_obc [W0, W1] (⟨ψ, 0, 0⟩, 0) ⟨0, false, eps, 0, false, false⟩ = (x1, -1) := by
        have := apply_first (svd := svd) eps dflt hk0 hkN (x := ⟨ψ, 0, 0⟩) rfl eps
        simp only [runCall, Bool.false_eq_true, if_false, List.getD_cons_zero, this]
        rfl
      have r2 : runCall svd eps dflt simp_obc [W0, W1] (x1, -1) ⟨1, false, eps, 0, false, false⟩ = (⟨w.P, 0, w.hidden + (w.err - 0)⟩, 1) := by
        have := apply_second (svd := svd) eps dflt hk1 hkM (x := x1) (by rw [hx1P]; rfl) eps
        simp only [runCall, Bool.false_eq_true, if_false, List.getD_cons_succ, List.getD_cons_zero, this]
        rfl
      simp only [oneStep, trotter2, ne_eq, not_true_eq_false, and_false, if_false, List.foldl_cons, List.foldl_nil, r1, r2]
    · show (d : ℝ) - 2 ≤ distSq [d, d, 1] ψ w.P
      rw [hwP]
      unfold distSq
      simp only [sumCfg_cons, sumCfg_nil, Finset.sum_range_one]
      have hfar := far_from_identity (K := ℂ) d g (fun i k => E.get [0, i, k]) (fun k j => ∑ y ∈ Finset.range h, D1.get [k, j, y] * D2.get [y, 0, 0])
      have h2 : (g : ℝ) ≤ 2 := by exact_mod_cast hg2
      refine le_trans (by linarith) (hfar.trans (le_of_eq ?_))
      refine Finset.sum_congr rfl fun i hi => Finset.sum_congr rfl fun j _ => ?_
      rw [hamp i (Finset.mem_range.1 hi), amp_three e1 d1 d2]

/-- **C139**, the conclusion: whatever `MPS_TRUNCATE_EPSILON` (between 0 and 1), a step with `MPS_DO_NOT_TRUNCATE` may change the state by any fraction of
its norm below 1, although the Hamiltonian is 0, and the value returned is 0 -/
theorem C139_violated {svd : Tensor ℂ → SvdRes ℂ} (hg : GoodSvd svd) (hs : SortedSvd svd) {eps : ℝ} (he0 : 0 < eps) (he1 : eps < 1)
    {dflt : ℝ} (hd0 : 0 < dflt) (simp_obc : List (Tensor ℂ) → Int → Nat → Bool → Nat → List (Tensor ℂ) × ℝ) (dt : ℂ)
    (normalize : Bool) (Dmax : Nat) {c : ℝ} (hc : c < 1) :
    ∃ (H : Ham ℂ) (ds : List Nat) (ψ : List (Tensor ℂ)) (U : List Unitary) (y : Evo) (sense' : Int),
      HamFits H ds ∧ (∀ p I, (H.loc p).get I = 0 ∧ (H.inter p).get I = 0) ∧ WF 1 ψ ds 1 ∧ ds.length = 3 ∧ 0 < normSq ds ψ ∧
      (trotter2 eps).unitaries matrixExp H dt = some U ∧
      oneStep svd eps dflt simp_obc (trotter2 eps) U .doNotTruncate normalize 0 ψ Dmax = some (y, sense') ∧ y.err = 0 ∧
      c * normSq ds ψ < distSq ds ψ y.P := by
  obtain ⟨n, hn⟩ := exists_nat_gt (2 / (1 - c))
  obtain ⟨a1, a2, U, y, sense', a3, a4, a5, a6⟩ := C139_lopsided_violated hg hs he0 he1 hd0 simp_obc (d := n + 1) (by omega) dt normalize Dmax
  refine ⟨zeroHam (n + 1), [n + 1, n + 1, 1], _, U, y, sense', zeroHam_fits _, fun p I => ⟨rfl, rfl⟩, ?_, rfl, ?_, a3, a4, a5, ?_⟩
  · exact a1
  · rw [a2]; positivity
  · rw [a2]
    refine lt_of_lt_of_le ?_ a6
    rw [div_lt_iff₀ (by linarith)] at hn
    push_cast
    nlinarith

end MPS.Props
