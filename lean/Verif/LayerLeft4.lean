import Verif.LayerLeft3
import Verif.LayerErr10

/-! # A layer of the default strategy, from a state in canonical form with respect to the last site -/

set_option linter.unusedSectionVars false
set_option linter.unusedSimpArgs false

namespace MPS.Trotter
open MPS Tensor Minim Order Props

/-- `x` is obtained from `x0` with the gates in `S`, up to truncations on `N` sites; the sites from `c` on have not been touched -/
structure ConF (ds : List Nat) (k : Nat) (U : Nat → Tensor ℂ) (tau : ℝ) (D : Nat) (x0 : Evo) (S : Nat → Bool) (x : Evo) (N c : Nat) : Prop where
  con : Con ds D (normSq ds x0.P) x.P c
  dist : wdist ds (amp x.P) (actOp ds (partElt ds k U S) (amp x0.P)) ≤ N * Real.sqrt (tau * (D * normSq ds x0.P))

theorem ConF.cast {ds : List Nat} {k : Nat} {U : Nat → Tensor ℂ} {tau : ℝ} {D : Nat} {x0 x : Evo} {S S' : Nat → Bool} {N c N' c' : Nat}
    (h : ConF ds k U tau D x0 S x N c) (hS : ∀ q, S' q = S q) (hN : N = N') (hc : c = c') : ConF ds k U tau D x0 S' x N' c' := by
  obtain rfl : S' = S := funext hS
  subst hN hc
  exact h

theorem conF_start {ds : List Nat} {k : Nat} {U : Nat → Tensor ℂ} {tau : ℝ} {D : Nat} {x : Evo} {S : Nat → Bool}
    (hS : ∀ p, p < ds.length → S p = false) (h : Con ds D (normSq ds x.P) x.P 0) : ConF ds k U tau D x S x 0 0 := by
  refine ⟨h, ?_⟩
  have e : wdist ds (amp x.P) (actOp ds (partElt ds k U S) (amp x.P)) = 0 := by
    rw [← wdist_self ds (amp x.P)]
    exact wdist_congr (fun _ _ => rfl) (fun s hs => partElt_none ds k U S hS (amp x.P) hs)
  rw [e]; simp

theorem ConF.two {svd : Tensor ℂ → SvdRes ℂ} (hg : GoodSvd svd) (eps : ℝ) {dflt : ℝ} (hd0 : 0 < dflt)
    {ds : List Nat} {k : Nat} {U : Nat → Tensor ℂ} {tau : ℝ} {D : Nat} (hD : 1 ≤ D) {x0 x : Evo} {S S' : Nat → Bool} {N p : Nat}
    (h : ConF ds k U tau D x0 S x N p) (hU : GatesOk ds k U) (hUu : GatesUnitary ds k U) (hp : PairAt ds.length k p)
    (h0 : S p = false) (h1 : S' p = true)
    (hS : ∀ q, q ≠ p → (PairAt ds.length k q ∨ Single ds.length k q) → S' q = S q) (dk : Int) (hdk : dk > 0) (tol : ℝ)
    (htol : 0 < effTol dflt tol) (htau : max (effTol dflt tol) eps ≤ tau) :
    ConF ds k U tau D x0 S' (applyTwo svd eps dflt x (U p) p dk tol 0) (N + 2) (p + 2) := by
  have n0 := Trotter.normSq_nonneg ds x0.P
  obtain ⟨g1, g2⟩ := con_two hg eps hd0 x hD n0 h.con hp.2 (hU.1 p hp) (hUu.1 p hp) dk hdk tol htol
  set y := applyTwo svd eps dflt x (U p) p dk tol 0
  have hDn : 0 ≤ (D : ℝ) * normSq ds x0.P := by positivity
  refine ⟨g1, ?_⟩
  rw [wdist_congr (φ' := amp y.P) (fun _ _ => rfl) (fun s hs => part_pair hp h0 h1 hS (amp x0.P) hs)]
  refine (wdist_tri _ _ (actPair (ds.getD p 0) (ds.getD (p + 1) 0) (U p) p (amp x.P)) _).trans ?_
  rw [actPair_dist hp.2 (hUu.1 p hp)]
  have h2 := g2.trans (Real.sqrt_le_sqrt (mul_le_mul_of_nonneg_right htau hDn))
  have h3 := Real.sqrt_nonneg (tau * (D * normSq ds x0.P))
  have := h.dist
  push_cast
  linarith

theorem ConF.one {svd : Tensor ℂ → SvdRes ℂ} (eps dflt : ℝ)
    {ds : List Nat} {k : Nat} {U : Nat → Tensor ℂ} {tau : ℝ} (tau0 : 0 ≤ tau) {D : Nat} {x0 x : Evo} {S S' : Nat → Bool} {N p : Nat}
    (h : ConF ds k U tau D x0 S x N p) (hU : GatesOk ds k U) (hUu : GatesUnitary ds k U) (hp : Single ds.length k p)
    (h0 : S p = false) (h1 : S' p = true)
    (hS : ∀ q, q ≠ p → (PairAt ds.length k q ∨ Single ds.length k q) → S' q = S q) (dk : Int) :
    ConF ds k U tau D x0 S' (applyOne svd eps dflt x (U p) p dk 0) (N + 1) (p + 1) := by
  obtain ⟨g1, g3⟩ := con_one (svd := svd) eps dflt h.con hp.1 (hU.2 p hp) (hUu.2 p hp) dk
  set y := applyOne svd eps dflt x (U p) p dk 0
  refine ⟨g1, ?_⟩
  rw [wdist_congr (fun s hs => g3 s hs) (fun s hs => part_single hp h0 h1 hS (amp x0.P) hs), actSite_dist hp.1 (hUu.2 p hp)]
  have h3 := Real.sqrt_nonneg (tau * (D * normSq ds x0.P))
  have := h.dist
  push_cast
  linarith

theorem sweep_conF {svd : Tensor ℂ → SvdRes ℂ} (hg : GoodSvd svd) (eps : ℝ) {dflt : ℝ} (hd0 : 0 < dflt)
    {ds : List Nat} {k : Nat} {W : Unitary} (hW : Fits W ds k) (hU : GatesUnitary ds k W.gate) (x : Evo) (hpos : 0 < ds.length) {D : Nat}
    (hD : 1 ≤ D) (h : Con ds D (normSq ds x.P) x.P 0) (tol : ℝ) (htol : 0 < effTol dflt tol) {tau : ℝ} (htau : max (effTol dflt tol) eps ≤ tau) :
    ∃ S c, (∀ p, p < ds.length → (PairAt ds.length k p ∨ Single ds.length k p) → S p = true) ∧
      ds.length ≤ c ∧ ConF ds k W.gate tau D x S (sweep svd eps dflt W x 1 tol 0) ds.length c := by
  have hlen := h.wf.length
  obtain ⟨n, hn, n1, n2, n3, n4⟩ := layerEnd_spec ds.length k hW.le
  have hle := hW.le
  have hgates := fun p hp => layer_gates (p := p) hW.le n1 n2 n3 n4 hp
  have hkN : W.kN = n := by rw [hW.kN, hn]
  have tau0 : 0 ≤ tau := (htol.le.trans (le_max_left _ _)).trans htau
  unfold sweep
  rw [hW.k0, hkN, hlen]
  simp only [show (1 : Int) > 0 by norm_num, if_true]
  have h0 : ConF ds k W.gate tau D x (fun q => decide ((q : Int) < 0)) x (0 : Int).toNat (0 : Int).toNat :=
    (conF_start (fun p _ => by simp) h).cast (fun _ => rfl) rfl (by simp)
  obtain ⟨k1, g1, g2, g3, h1⟩ := loopUp_inv (b := (k : Int)) (step := 1) (by omega)
    (body := fun k x => applyOne svd eps dflt x (site W.U k) k 1 0)
    (fun i y => 0 ≤ i ∧ i ≤ k ∧ ConF ds k W.gate tau D x (fun q => decide ((q : Int) < i)) y i.toNat i.toNat) (by
      rintro i y hi ⟨i1, i2, hy⟩
      refine ⟨by omega, by omega, ?_⟩
      obtain ⟨m, rfl⟩ : ∃ m : Nat, i = m := ⟨i.toNat, by omega⟩
      have hm : m < ds.length := by omega
      exact ((hy.cast (fun _ => rfl) rfl (by omega : (m : Int).toNat = m)).one eps dflt tau0 hW.gates hU ((hgates m hm).1 (Or.inl (by omega))) (by simp)
          (S' := fun q => decide ((q : Int) < (m : Int) + 1)) (by simp)
          (fun q hq _ => by simp only [decide_eq_decide]; omega) 1).cast (fun _ => rfl) (by omega) (by omega)) (ds.length + 1) 0 x (by push_cast; omega) ⟨le_refl _, by omega, h0⟩
  obtain rfl : k1 = k := by omega
  obtain ⟨k2, g4, g5, g6, g7, h2⟩ := loopUp_inv (b := (n : Int)) (step := 2) (by omega)
    (body := fun k x => applyTwo svd eps dflt x (site W.U k) k 1 tol 0)
    (fun i y => k ≤ i ∧ i ≤ n ∧ (i - k) % 2 = 0 ∧
      ConF ds k W.gate tau D x (fun q => decide ((q : Int) < i)) y i.toNat i.toNat) (by
      rintro i y hi ⟨i1, i2, i3, hy⟩
      refine ⟨by omega, by omega, by omega, ?_⟩
      obtain ⟨m, rfl⟩ : ∃ m : Nat, i = m := ⟨i.toNat, by omega⟩
      have hm : m < ds.length := by omega
      have hpm := (hgates m hm).2.1 (by omega) (by omega) (by omega)
      refine ((hy.cast (fun _ => rfl) rfl (by omega : (m : Int).toNat = m)).two hg eps hd0 hD hW.gates hU hpm (by simp)
          (S' := fun q => decide ((q : Int) < (m : Int) + 2)) (by simp)
          (fun q hq hgq => ?_) 1 (by norm_num) tol htol htau).cast (fun _ => rfl) (by omega) (by omega)
      simp only [decide_eq_decide]
      have : q ≠ m + 1 := by
        rintro rfl
        have hm1 : m + 1 < ds.length := by
          rcases hgq with h | h
          · have := h.2; omega
          · exact h.1
        have := (hgates (m + 1) hm1).2.2 (by omega) (by omega) (by omega)
        tauto
      omega) (ds.length + 1) k _ (by push_cast; omega) ⟨le_refl _, by omega, by omega, h1⟩
  obtain rfl : k2 = n := by omega
  obtain ⟨k3, g8, g9, g10, h3⟩ := loopUp_inv (b := (ds.length : Int)) (step := 1) (by omega)
    (body := fun k x => applyOne svd eps dflt x (site W.U k) k 1 0)
    (fun i y => n ≤ i ∧ i ≤ max n ds.length ∧
      ConF ds k W.gate tau D x (fun q => decide ((q : Int) < i)) y i.toNat i.toNat) (by
      rintro i y hi ⟨i1, i2, hy⟩
      refine ⟨by omega, by omega, ?_⟩
      obtain ⟨m, rfl⟩ : ∃ m : Nat, i = m := ⟨i.toNat, by omega⟩
      have hm : m < ds.length := by omega
      exact ((hy.cast (fun _ => rfl) rfl (by omega : (m : Int).toNat = m)).one eps dflt tau0 hW.gates hU ((hgates m hm).1 (Or.inr (by omega))) (by simp)
          (S' := fun q => decide ((q : Int) < (m : Int) + 1)) (by simp)
          (fun q hq _ => by simp only [decide_eq_decide]; omega) 1).cast (fun _ => rfl) (by omega) (by omega)) (ds.length + 1) n _ (by push_cast; omega) ⟨le_refl _, by omega, h2⟩
  refine ⟨_, k3.toNat, fun p hp _ => ?_, ?_, h3.cast (fun _ => rfl) (by omega) rfl⟩
  · simp only [decide_eq_true_eq]; omega
  · omega

/-- the canonical form after the sweep -/
theorem layer_con {svd : Tensor ℂ → SvdRes ℂ} (hg : GoodSvd svd) (eps : ℝ) {dflt : ℝ} (hd0 : 0 < dflt)
    {ds : List Nat} {k : Nat} {W : Unitary} (hW : Fits W ds k) (hU : GatesUnitary ds k W.gate) (x : Evo) (hpos : 0 < ds.length) {D : Nat} (hD : 1 ≤ D)
    (h : Cent ds x.P (ds.length - 1)) (hb : ∀ j, 0 < j → j < ds.length → (site x.P j).dim 0 ≤ D)
    (tol : ℝ) (htol : 0 < effTol dflt tol) {tau : ℝ} (htau : max (effTol dflt tol) (max dflt eps) ≤ tau) :
    let c := canonicalForm svd eps dflt (sweep svd eps dflt W x 1 tol 0).P (-1)
    Cent ds c.1 0 ∧ normSq ds c.1 ≤ normSq ds x.P ∧
      wdist ds (amp c.1) (actOp ds (layerElt ds k W.gate) (amp x.P)) ≤ (2 * ds.length : Nat) * Real.sqrt (tau * (D * normSq ds x.P)) := by
  intro c
  have htau1 : max (effTol dflt tol) eps ≤ tau := (max_le_max le_rfl (le_max_right dflt eps)).trans htau
  have htau2 : max dflt eps ≤ tau := (le_max_right _ _).trans htau
  have n0 := Trotter.normSq_nonneg ds x.P
  have tau0 : 0 ≤ tau := (hd0.le.trans (le_max_left dflt eps)).trans htau2
  obtain ⟨S, c0, hS, -, hf⟩ := sweep_conF hg eps hd0 hW hU x hpos hD (con_start h hpos hb) tol htol htau1
  set r := sweep svd eps dflt W x 1 tol 0 with hr
  have hlen := hf.con.wf.length
  have hne : r.P ≠ [] := by intro h0; rw [h0] at hlen; simp at hlen; omega
  have e : c = canonLoopLeft svd eps dflt 0 (ds.length - 1) (r.P, 0) := by
    show canonicalForm svd eps dflt r.P (-1) = _
    simp only [canonicalForm, canonicalFormAt, eitherForm, show (-1 : Int) < 0 by norm_num, if_true, hlen]; rfl
  obtain ⟨a1, -, a3, a4⟩ := loopLeft_proj hg eps hd0 0 (ds.length - 1) (r.P, 0) (by omega) (by omega) hf.con.wf (fun j h1 h2 => by omega)
  have hl := loop_back hg eps hd0 (ds.length - 1) (r.P, 0) (by omega) hf.con.wf (fun j h1 h2 => by omega)
    (fun j hj => hf.con.chain.bal hf.con.wf (show j < ds.length by omega))
  rw [← e] at a1 a3 a4 hl
  have hd := proj_dist (a4 c.1 a1 fun _ _ _ => rfl)
  have hd' : distSq ds r.P c.1 = normSq ds r.P - normSq ds c.1 := hd
  have hd0' : 0 ≤ distSq ds r.P c.1 := sumCfg_nonneg _ _ fun _ _ => by positivity
  have hnr := hf.con.chain.normSq hf.con.wf hne
  simp only [] at hl
  refine ⟨⟨a1, fun j hj => by omega, a3⟩, by linarith, ?_⟩
  have e1 : actOp ds (partElt ds k W.gate S) (amp x.P) = actOp ds (layerElt ds k W.gate) (amp x.P) := by
    funext t
    exact actOp_congr (fun s t => by rw [partElt_all ds k W.gate S hS]) (fun _ _ => rfl) t
  have hf1 := hf.dist
  rw [e1] at hf1
  refine (wdist_tri _ _ (amp r.P) _).trans ?_
  have hD' : (1 : ℝ) ≤ D := by exact_mod_cast hD
  have hL : (1 : ℝ) ≤ ds.length := by exact_mod_cast hpos
  have h1 : wdist ds (amp c.1) (amp r.P) ≤ ds.length * Real.sqrt (tau * (D * normSq ds x.P)) := by
    have e2 : wdist ds (amp c.1) (amp r.P) = Real.sqrt (normSq ds r.P - normSq ds c.1) := by rw [← hd', wdist_symm]; rfl
    rw [e2]
    have e3 : (ds.length : ℝ) * Real.sqrt (tau * (D * normSq ds x.P)) = Real.sqrt ((ds.length : ℝ) ^ 2 * (tau * (D * normSq ds x.P))) := by
      conv_rhs => rw [Real.sqrt_mul (by positivity), Real.sqrt_sq (by positivity)]
    rw [e3]
    refine Real.sqrt_le_sqrt (hl.trans ?_)
    have h4 : max dflt eps * normSq ds x.P ≤ tau * (D * normSq ds x.P) :=
      mul_le_mul htau2 (le_mul_of_one_le_left n0 hD') n0 tau0
    have h5 : ((ds.length - 1 : Nat) : ℝ) ≤ (ds.length : ℝ) ^ 2 := by
      have : ((ds.length - 1 : Nat) : ℝ) ≤ ds.length := by exact_mod_cast Nat.sub_le _ _
      nlinarith
    exact mul_le_mul h5 h4 (mul_nonneg (hd0.le.trans (le_max_left _ _)) n0) (by positivity)
  push_cast
  linarith

/-- a layer of the default strategy before the simplification, from a state in canonical form with respect to either end -/
theorem layer_either {svd : Tensor ℂ → SvdRes ℂ} (hg : GoodSvd svd) (eps : ℝ) {dflt : ℝ} (hd0 : 0 < dflt)
    {expm : Tensor ℂ → Tensor ℂ} (he : GoodExpm expm)
    {H : Ham ℂ} {ds : List Nat} (hH : HamFits H ds) (hh : HamHermitian H ds) (hpos : 0 < ds.length) (dt : ℂ) (l : Nat × ℂ) (hk : l.1 ≤ 1)
    (hl : (dt * l.2).im = 0) {W : Unitary}
    (hW : mkUnitary expm H l.1 (dt * l.2) = some W) (P : List (Tensor ℂ)) (hx : Cent ds P 0 ∨ Cent ds P (ds.length - 1)) {D : Nat} (hD : 1 ≤ D)
    (hb : ∀ j, 0 < j → j < ds.length → (site P j).dim 0 ≤ D) (tol : ℝ)
    (htol : tol < 0 ∨ 0 < tol) {tau : ℝ} (htau : max (effTol dflt tol) (max dflt eps) ≤ tau) :
    let c := layerState svd eps dflt W P tol
    Cent ds c 0 ∧ normSq ds c ≤ normSq ds P ∧
      wdist ds (amp c) (layerStep expm H ds dt (amp P) l) ≤ (2 * ds.length : Nat) * Real.sqrt (tau * (D * normSq ds P)) := by
  have n0 := Trotter.normSq_nonneg ds P
  have hL : (1 : ℝ) ≤ ds.length := by exact_mod_cast hpos
  have tau0 : 0 ≤ tau := ((hd0.le.trans (le_max_left dflt eps)).trans (le_max_right _ _)).trans htau
  rcases hx with hx | hx
  · obtain ⟨a1, a2, a3, a4⟩ := layer_done hg eps hd0 he hH hh hpos dt l hk hl hW P hx hD hb tol htol htau
    refine ⟨a1, a2, a4.trans ?_⟩
    have e3 : ((2 * ds.length : Nat) : ℝ) * Real.sqrt (tau * (D * normSq ds P)) = Real.sqrt (((2 * ds.length : Nat) : ℝ) ^ 2 * (tau * (D * normSq ds P))) := by
      conv_rhs => rw [Real.sqrt_mul (by positivity), Real.sqrt_sq (by positivity)]
    rw [e3]
    refine Real.sqrt_le_sqrt ((mul_le_mul_of_nonneg_left a3 (Nat.cast_nonneg _)).trans ?_)
    rw [← mul_assoc]
    refine mul_le_mul_of_nonneg_right ?_ (by positivity)
    push_cast
    nlinarith
  · obtain ⟨W', e, hf, -⟩ := mkUnitary_fits he.dims hH l.1 hk (dt * l.2)
    rw [hW] at e
    cases e
    have ht : 0 < effTol dflt tol := by
      unfold effTol; rcases htol with h | h
      · rw [if_pos h]; exact hd0
      · rw [if_neg (by linarith)]; exact h
    obtain ⟨W', w1, w2⟩ := C58_gates hH expm (dt * l.2) l.1 hk
    rw [hW] at w1
    cases w1
    have hu : GatesUnitary ds l.1 W.gate := by
      constructor
      · intro p hp
        rw [show W.gate p = _ from w2 p (Or.inl hp)]
        exact he.unitary _ _ (by exact (layerGen_dims hH l.1).1 p hp) (anti_of_herm ((layerGen_hermitian hH hh l.1).1 p hp) (by simp [hl]))
      · intro p hp
        rw [show W.gate p = _ from w2 p (Or.inr hp)]
        exact he.unitary _ _ (by exact (layerGen_dims hH l.1).2 p hp) (anti_of_herm ((layerGen_hermitian hH hh l.1).2 p hp) (by simp [hl]))
    intro c
    have hc : c = (canonicalForm svd eps dflt (sweep svd eps dflt W ⟨P, 0, 0⟩ 1 tol 0).P (-1)).1 := by
      show layerState svd eps dflt W P tol = _
      unfold layerState
      rw [show apply svd eps dflt W ⟨P, 0, 0⟩ 1 tol 0 false = _ from apply_eq _ _ _ _ _ _ _ _ _]; simp
    obtain ⟨a1, a2, a4⟩ := layer_con hg eps hd0 hf hu ⟨P, 0, 0⟩ hpos hD hx hb tol ht htau
    rw [← hc] at a1 a2 a4
    refine ⟨a1, a2, ?_⟩
    rw [wdist_congr (φ' := amp c) (χ' := actOp ds (layerElt ds l.1 W.gate) (amp P)) (fun _ _ => rfl)]
    · exact a4
    · intro t _
      unfold layerStep
      refine actOp_congr (fun s t => ?_) (fun _ _ => rfl) t
      exact layerElt_congr (fun p hp => (w2 p hp).symm) s t

end MPS.Trotter
