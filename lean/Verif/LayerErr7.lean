import Verif.LayerErr6

/-! # A sweep without maximal dimension over a state in canonical form with respect to the first site -/

set_option linter.unusedSectionVars false
set_option linter.unusedSimpArgs false

namespace MPS.Trotter
open MPS Tensor Minim Order

/-- `x` is obtained from `x0` with the gates in `S`, up to truncations on `N` sites; the sites from `c` on have not been touched -/
structure Free (ds : List Nat) (k : Nat) (U : Nat → Tensor ℂ) (tau : ℝ) (D : Nat) (x0 : Evo) (S : Nat → Bool) (x : Evo) (N c : Nat) : Prop where
  lay : Lay ds D (normSq ds x0.P) x.P c
  dist : wdist ds (amp x.P) (actOp ds (partElt ds k U S) (amp x0.P)) ≤ Real.sqrt (N * (normSq ds x0.P - normSq ds x.P))
  small : normSq ds x0.P - normSq ds x.P ≤ N * (tau * (D * normSq ds x0.P))

theorem Free.cast {ds : List Nat} {k : Nat} {U : Nat → Tensor ℂ} {tau : ℝ} {D : Nat} {x0 x : Evo} {S S' : Nat → Bool} {N c N' c' : Nat}
    (h : Free ds k U tau D x0 S x N c) (hS : ∀ q, S' q = S q) (hN : N = N') (hc : c = c') : Free ds k U tau D x0 S' x N' c' := by
  obtain rfl : S' = S := funext hS
  subst hN hc
  exact h

theorem free_start {ds : List Nat} {k : Nat} {U : Nat → Tensor ℂ} {tau : ℝ} {D : Nat} {x : Evo} {S : Nat → Bool}
    (hS : ∀ p, p < ds.length → S p = false) (h : Lay ds D (normSq ds x.P) x.P 0) : Free ds k U tau D x S x 0 0 := by
  refine ⟨h, ?_, by simp⟩
  have e : wdist ds (amp x.P) (actOp ds (partElt ds k U S) (amp x.P)) = 0 := by
    rw [← wdist_self ds (amp x.P)]
    exact wdist_congr (fun _ _ => rfl) (fun s hs => partElt_none ds k U S hS (amp x.P) hs)
  rw [e]
  exact Real.sqrt_nonneg _

theorem Free.two {svd : Tensor ℂ → SvdRes ℂ} (hg : GoodSvd svd) (eps : ℝ) {dflt : ℝ} (hd0 : 0 < dflt)
    {ds : List Nat} {k : Nat} {U : Nat → Tensor ℂ} {tau : ℝ} {D : Nat} {x0 x : Evo} {S S' : Nat → Bool} {N p : Nat}
    (h : Free ds k U tau D x0 S x N p) (hU : GatesOk ds k U) (hUu : GatesUnitary ds k U) (hp : PairAt ds.length k p)
    (h0 : S p = false) (h1 : S' p = true)
    (hS : ∀ q, q ≠ p → (PairAt ds.length k q ∨ Single ds.length k q) → S' q = S q) (dk : Int) (hdk : dk > 0) (tol : ℝ)
    (htol : 0 < effTol dflt tol) (htau : max (effTol dflt tol) eps ≤ tau) :
    Free ds k U tau D x0 S' (applyTwo svd eps dflt x (U p) p dk tol 0) (N + 2) (p + 2) := by
  obtain ⟨g1, g2, g3, g4⟩ := lay_two hg eps hd0 x h.lay hp.2 (hU.1 p hp) (hUu.1 p hp) dk hdk tol htol
  set y := applyTwo svd eps dflt x (U p) p dk tol 0
  have t1 : 0 ≤ normSq ds x0.P - normSq ds x.P := by have := h.lay.norm; linarith
  have t2 : 0 ≤ normSq ds x.P - normSq ds y.P := by linarith
  have n0 := Trotter.normSq_nonneg ds x0.P
  have tau0 : 0 ≤ tau := (htol.le.trans (le_max_left _ _)).trans htau
  have hDn : 0 ≤ (D : ℝ) * normSq ds x0.P := by positivity
  refine ⟨g1, ?_, ?_⟩
  · rw [wdist_congr (φ' := amp y.P) (fun _ _ => rfl) (fun s hs => part_pair hp h0 h1 hS (amp x0.P) hs)]
    refine (wdist_tri _ _ (actPair (ds.getD p 0) (ds.getD (p + 1) 0) (U p) p (amp x.P)) _).trans ?_
    rw [actPair_dist hp.2 (hUu.1 p hp), add_comm]
    have g3' : wdist ds (amp y.P) (actPair (ds.getD p 0) (ds.getD (p + 1) 0) (U p) p (amp x.P)) ≤ Real.sqrt (2 * (normSq ds x.P - normSq ds y.P)) :=
      g3.trans (Real.sqrt_le_sqrt (by linarith))
    have := sqrt_step (Nat.cast_nonneg N) t1 (by norm_num : (0 : ℝ) ≤ 2) t2 h.dist g3'
    refine this.trans (le_of_eq ?_)
    congr 1
    push_cast; ring
  · have h2 := mul_le_mul_of_nonneg_right htau hDn
    have h3 : 0 ≤ tau * (D * normSq ds x0.P) := by positivity
    have := h.small
    push_cast
    linarith

theorem Free.one {svd : Tensor ℂ → SvdRes ℂ} (eps dflt : ℝ)
    {ds : List Nat} {k : Nat} {U : Nat → Tensor ℂ} {tau : ℝ} (tau0 : 0 ≤ tau) {D : Nat} {x0 x : Evo} {S S' : Nat → Bool} {N p : Nat}
    (h : Free ds k U tau D x0 S x N p) (hU : GatesOk ds k U) (hUu : GatesUnitary ds k U) (hp : Single ds.length k p)
    (h0 : S p = false) (h1 : S' p = true)
    (hS : ∀ q, q ≠ p → (PairAt ds.length k q ∨ Single ds.length k q) → S' q = S q) (dk : Int) :
    Free ds k U tau D x0 S' (applyOne svd eps dflt x (U p) p dk 0) (N + 1) (p + 1) := by
  obtain ⟨g1, g2, g3⟩ := lay_one (svd := svd) eps dflt h.lay hp.1 (hU.2 p hp) (hUu.2 p hp) dk
  set y := applyOne svd eps dflt x (U p) p dk 0
  have t1 : 0 ≤ normSq ds x0.P - normSq ds x.P := by have := h.lay.norm; linarith
  have n0 := Trotter.normSq_nonneg ds x0.P
  refine ⟨g1, ?_, ?_⟩
  · rw [wdist_congr (fun s hs => g3 s hs) (fun s hs => part_single hp h0 h1 hS (amp x0.P) hs), actSite_dist hp.1 (hUu.2 p hp), g2]
    refine h.dist.trans (Real.sqrt_le_sqrt ?_)
    push_cast
    linarith
  · have h3 : 0 ≤ tau * (D * normSq ds x0.P) := by positivity
    have := h.small
    rw [g2]
    push_cast
    linarith

theorem sweep_free {svd : Tensor ℂ → SvdRes ℂ} (hg : GoodSvd svd) (eps : ℝ) {dflt : ℝ} (hd0 : 0 < dflt)
    {ds : List Nat} {k : Nat} {W : Unitary} (hW : Fits W ds k) (hU : GatesUnitary ds k W.gate) (x : Evo) (hpos : 0 < ds.length) {D : Nat}
    (h : Lay ds D (normSq ds x.P) x.P 0) (tol : ℝ) (htol : 0 < effTol dflt tol) {tau : ℝ} (htau : max (effTol dflt tol) eps ≤ tau) :
    ∃ S c, (∀ p, p < ds.length → (PairAt ds.length k p ∨ Single ds.length k p) → S p = true) ∧
      ds.length ≤ c ∧ Free ds k W.gate tau D x S (sweep svd eps dflt W x 1 tol 0) ds.length c := by
  have hlen := h.wf.length
  obtain ⟨n, hn, n1, n2, n3, n4⟩ := layerEnd_spec ds.length k hW.le
  have hle := hW.le
  have hgates := fun p hp => layer_gates (p := p) hW.le n1 n2 n3 n4 hp
  have hkN : W.kN = n := by rw [hW.kN, hn]
  have tau0 : 0 ≤ tau := (htol.le.trans (le_max_left _ _)).trans htau
  unfold sweep
  rw [hW.k0, hkN, hlen]
  simp only [show (1 : Int) > 0 by norm_num, if_true]
  have h0 : Free ds k W.gate tau D x (fun q => decide ((q : Int) < 0)) x (0 : Int).toNat (0 : Int).toNat :=
    (free_start (fun p _ => by simp) h).cast (fun _ => rfl) rfl (by simp)
  obtain ⟨k1, g1, g2, g3, h1⟩ := loopUp_inv (b := (k : Int)) (step := 1) (by omega)
    (body := fun k x => applyOne svd eps dflt x (site W.U k) k 1 0)
    (fun i y => 0 ≤ i ∧ i ≤ k ∧ Free ds k W.gate tau D x (fun q => decide ((q : Int) < i)) y i.toNat i.toNat) (by
      rintro i y hi ⟨i1, i2, hy⟩
      refine ⟨by omega, by omega, ?_⟩
      obtain ⟨m, rfl⟩ : ∃ m : Nat, i = m := ⟨i.toNat, by omega⟩
      have hm : m < ds.length := by omega
      exact ((hy.cast (fun _ => rfl) rfl (by omega : (m : Int).toNat = m)).one eps dflt tau0 hW.gates hU ((hgates m hm).1 (Or.inl (by omega))) (by simp)
          (S' := fun q => decide ((q : Int) < (m : Int) + 1)) (by simp)
          (fun q hq _ => by simp only [decide_eq_decide]; omega) 1).cast (fun _ => rfl) (by omega) (by omega)) (ds.length + 1) 0 x (by push_cast; omega) ⟨le_refl _, by omega, h0⟩
  obtain rfl : k1 = k := by omega
  obtain ⟨k2, g4, g5, g6, g7, h2⟩ := loopUp_inv (b := (n : Int)) (step := 2) (by omega)
    (body := fun k x => applyTwo svd eps dflt x (site W.U k) k 1 tol 0)
    (fun i y => k ≤ i ∧ i ≤ n ∧ (i - k) % 2 = 0 ∧
      Free ds k W.gate tau D x (fun q => decide ((q : Int) < i)) y i.toNat i.toNat) (by
      rintro i y hi ⟨i1, i2, i3, hy⟩
      refine ⟨by omega, by omega, by omega, ?_⟩
      obtain ⟨m, rfl⟩ : ∃ m : Nat, i = m := ⟨i.toNat, by omega⟩
      have hm : m < ds.length := by omega
      have hpm := (hgates m hm).2.1 (by omega) (by omega) (by omega)
      refine ((hy.cast (fun _ => rfl) rfl (by omega : (m : Int).toNat = m)).two hg eps hd0 hW.gates hU hpm (by simp)
          (S' := fun q => decide ((q : Int) < (m : Int) + 2)) (by simp)
          (fun q hq hgq => ?_) 1 (by norm_num) tol htol htau).cast (fun _ => rfl) (by omega) (by omega)
      simp only [decide_eq_decide]
      have : q ≠ m + 1 := by
        rintro rfl
        have hm1 : m + 1 < ds.length := by
          rcases hgq with h | h
          · have := h.2; omega
          · exact h.1
        have := (hgates (m + 1) hm1).2.2 (by omega) (by omega) (by omega)
        tauto
      omega) (ds.length + 1) k _ (by push_cast; omega) ⟨le_refl _, by omega, by omega, h1⟩
  obtain rfl : k2 = n := by omega
  obtain ⟨k3, g8, g9, g10, h3⟩ := loopUp_inv (b := (ds.length : Int)) (step := 1) (by omega)
    (body := fun k x => applyOne svd eps dflt x (site W.U k) k 1 0)
    (fun i y => n ≤ i ∧ i ≤ max n ds.length ∧
      Free ds k W.gate tau D x (fun q => decide ((q : Int) < i)) y i.toNat i.toNat) (by
      rintro i y hi ⟨i1, i2, hy⟩
      refine ⟨by omega, by omega, ?_⟩
      obtain ⟨m, rfl⟩ : ∃ m : Nat, i = m := ⟨i.toNat, by omega⟩
      have hm : m < ds.length := by omega
      exact ((hy.cast (fun _ => rfl) rfl (by omega : (m : Int).toNat = m)).one eps dflt tau0 hW.gates hU ((hgates m hm).1 (Or.inr (by omega))) (by simp)
          (S' := fun q => decide ((q : Int) < (m : Int) + 1)) (by simp)
          (fun q hq _ => by simp only [decide_eq_decide]; omega) 1).cast (fun _ => rfl) (by omega) (by omega)) (ds.length + 1) n _ (by push_cast; omega) ⟨le_refl _, by omega, h2⟩
  refine ⟨_, k3.toNat, fun p hp _ => ?_, ?_, h3.cast (fun _ => rfl) (by omega) rfl⟩
  · simp only [decide_eq_true_eq]; omega
  · omega

end MPS.Trotter
