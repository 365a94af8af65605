import Verif.ImagTrunc

/-! # A sweep of gates with truncation, in which the norm of every gate is at most `g` -/

set_option linter.unusedSectionVars false
set_option linter.unusedSimpArgs false

namespace MPS.Trotter
open MPS Tensor Minim Order

/-- every gate of a layer multiplies the norm by `g` at most, and by no factor zero -/
def GatesBound (ds : List Nat) (k : Nat) (U : Nat → Tensor ℂ) (g : ℝ) : Prop :=
  (∀ p, PairAt ds.length k p → ∀ φ, wnorm ds (actPair (ds.getD p 0) (ds.getD (p + 1) 0) (U p) p φ) ≤ g * wnorm ds φ ∧
      (wnorm ds φ ≠ 0 → wnorm ds (actPair (ds.getD p 0) (ds.getD (p + 1) 0) (U p) p φ) ≠ 0)) ∧
    ∀ p, Single ds.length k p → ∀ φ, wnorm ds (actSite (ds.getD p 0) (U p) p φ) ≤ g * wnorm ds φ ∧
      (wnorm ds φ ≠ 0 → wnorm ds (actSite (ds.getD p 0) (U p) p φ) ≠ 0)

theorem wnorm_pow (ds : List Nat) (φ : List Nat → ℂ) : wnorm ds φ ^ 2 = sumCfg ds fun s => ‖φ s‖ ^ 2 :=
  Real.sq_sqrt (sumCfg_nonneg _ _ fun _ _ => by positivity)

theorem wnorm_normSq (ds : List Nat) (P : List (Tensor ℂ)) : wnorm ds (amp P) ^ 2 = normSq ds P := wnorm_pow ds _

/-- `x` is obtained from `x0` with the gates in `S`, up to truncations on `N` sites; it is canonical around `c`; if `E` holds (the bond dimension is not limited), the errors reported are small -/
structure NearB (ds : List Nat) (k : Nat) (U : Nat → Tensor ℂ) (tau g : ℝ) (E : Prop) (x0 : Evo) (S : Nat → Bool) (x : Evo) (N c : Nat) : Prop where
  cent : Cent ds x.P c
  err : x0.err ≤ x.err
  hidden : x0.hidden ≤ x.hidden
  norm : wnorm ds (amp x.P) ≤ g ^ N * wnorm ds (amp x0.P)
  dist : wdist ds (amp x.P) (actOp ds (partElt ds k U S) (amp x0.P)) ≤ g ^ N * Real.sqrt (N * (x.tot - x0.tot))
  small : x.hidden ≤ x0.hidden + N * (tau * (g ^ N * wnorm ds (amp x0.P)) ^ 2)
  alive : wnorm ds (amp x0.P) ≠ 0 → wnorm ds (amp x.P) ≠ 0
  keeps : E → x.err ≤ x0.err + N * (tau * (g ^ N * wnorm ds (amp x0.P)) ^ 2)

theorem nearB_start {ds : List Nat} {k : Nat} {U : Nat → Tensor ℂ} {tau g : ℝ} {E : Prop} {x : Evo} {S : Nat → Bool} {c : Nat}
    (hS : ∀ p, p < ds.length → S p = false) (h : Cent ds x.P c) : NearB ds k U tau g E x S x 0 c := by
  refine ⟨h, le_rfl, le_rfl, by simp, ?_, by simp, id, fun _ => by simp⟩
  have e : wdist ds (amp x.P) (actOp ds (partElt ds k U S) (amp x.P)) = 0 := by
    rw [← wdist_self ds (amp x.P)]
    exact wdist_congr (fun _ _ => rfl) (fun s hs => partElt_none ds k U S hS (amp x.P) hs)
  rw [e]
  simp

/-- one gate after the others: bounds -/
theorem bounds_step {g tau w w0 wy wG d d' E e hx h0 hy : ℝ} {N m : Nat} (hg : 1 ≤ g) (ht : 0 ≤ tau) (hw0 : 0 ≤ w0) (hwy : 0 ≤ wy) (hm : 1 ≤ m)
    (hE : 0 ≤ E) (he : 0 ≤ e) (hwG0 : 0 ≤ wG)
    (hn : w ≤ g ^ N * w0) (hG : wG ≤ g * w) (hyG : wy ^ 2 = wG ^ 2 - e) (hd : d ≤ g ^ N * Real.sqrt (N * E)) (hd' : d' ≤ Real.sqrt (m * e))
    (hs : hx ≤ h0 + N * (tau * (g ^ N * w0) ^ 2)) (hs' : hy ≤ hx + tau * wG ^ 2) :
    wy ≤ g ^ (N + m) * w0 ∧ d' + g * d ≤ g ^ (N + m) * Real.sqrt ((N + m) * (E + e)) ∧ hy ≤ h0 + (N + m : Nat) * (tau * (g ^ (N + m) * w0) ^ 2) := by
  have g0 : 0 ≤ g := by linarith
  have p1 : g ^ (N + 1) ≤ g ^ (N + m) := pow_le_pow_right₀ hg (by omega)
  have p0 : g ^ N ≤ g ^ (N + m) := pow_le_pow_right₀ hg (by omega)
  have q1 : 1 ≤ g ^ (N + m) := one_le_pow₀ hg
  have n1 : wG ≤ g ^ (N + m) * w0 := by
    calc wG ≤ g * w := hG
      _ ≤ g * (g ^ N * w0) := by gcongr
      _ = g ^ (N + 1) * w0 := by ring
      _ ≤ _ := by gcongr
  refine ⟨?_, ?_, ?_⟩
  · refine le_trans ?_ n1
    exact abs_le_of_sq_le_sq' (by linarith) hwG0 |>.2
  · have s := sqrt_step (d := Real.sqrt (N * E)) (d' := Real.sqrt (m * e)) (Nat.cast_nonneg N) hE (Nat.cast_nonneg m) he le_rfl le_rfl
    have a : g * d ≤ g ^ (N + m) * Real.sqrt (N * E) := by
      calc g * d ≤ g * (g ^ N * Real.sqrt (N * E)) := by gcongr
        _ = g ^ (N + 1) * Real.sqrt (N * E) := by ring
        _ ≤ _ := by gcongr
    have b : d' ≤ g ^ (N + m) * Real.sqrt (m * e) := hd'.trans (le_mul_of_one_le_left (Real.sqrt_nonneg _) q1)
    calc d' + g * d ≤ g ^ (N + m) * (Real.sqrt (N * E) + Real.sqrt (m * e)) := by linarith
      _ ≤ _ := by gcongr
  · have a : (g ^ N * w0) ^ 2 ≤ (g ^ (N + m) * w0) ^ 2 := by gcongr
    have b : wG ^ 2 ≤ (g ^ (N + m) * w0) ^ 2 := by gcongr
    have a' := mul_le_mul_of_nonneg_left (mul_le_mul_of_nonneg_left a ht) (Nat.cast_nonneg (α := ℝ) N)
    have b' := mul_le_mul_of_nonneg_left b ht
    have c : 0 ≤ tau * (g ^ (N + m) * w0) ^ 2 := by positivity
    have hm' : (1 : ℝ) ≤ m := by exact_mod_cast hm
    have c' := mul_le_mul_of_nonneg_right hm' c
    push_cast
    linarith

theorem NearB.two {svd : Tensor ℂ → SvdRes ℂ} (hg : GoodSvd svd) (eps : ℝ) {dflt : ℝ} (hd0 : 0 < dflt)
    {ds : List Nat} {k : Nat} {U : Nat → Tensor ℂ} {x0 x : Evo} {S S' : Nat → Bool} {N c : Nat} {g : ℝ} {E : Prop} (hg1 : 1 ≤ g) (hsort : SortedSvd svd) (hm : max dflt eps < 1)
    (h : NearB ds k U (max dflt eps) g E x0 S x N c) (hU : GatesOk ds k U) (hUu : GatesBound ds k U g) {p : Nat} (hp : PairAt ds.length k p)
    (h0 : S p = false) (h1 : S' p = true)
    (hS : ∀ q, q ≠ p → (PairAt ds.length k q ∨ Single ds.length k q) → S' q = S q) (hc : c = p ∨ c = p + 1) (dk : Int) (tol : ℝ)
    (htol : 0 < effTol dflt tol) {D : Nat} (hD : D ≠ 0)
    (hE : E → ds.prod ≤ D ∧ effTol dflt tol ≤ max dflt eps) :
    NearB ds k U (max dflt eps) g E x0 S' (applyTwo svd eps dflt x (U p) p dk tol D) (N + 2) (nextCentre ds.length dk (if dk > 0 then p + 1 else p)) := by
  obtain ⟨g1, g2, g3, g4, g5, g6, g7, g8⟩ := gate2_any hg eps hd0 x h.cent.wf (fun j hj => h.cent.lo j (by omega)) (fun j hj => h.cent.hi j (by omega)) hp.2
    (hU.1 p hp) dk tol htol hD
  set y := applyTwo svd eps dflt x (U p) p dk tol D
  have he := h.err
  have hh := h.hidden
  have t1 : 0 ≤ x.tot - x0.tot := by unfold Evo.tot; linarith
  have t2 : 0 ≤ y.tot - x.tot := by unfold Evo.tot; linarith
  rw [← wnorm_normSq, ← wnorm_pow] at g4
  rw [← wnorm_pow] at g6 g7 g8
  rw [← wnorm_normSq] at g7
  have hb := (hUu.1 p hp fun s => amp x.P s - actOp ds (partElt ds k U S) (amp x0.P) s).1
  rw [show (actPair (ds.getD p 0) (ds.getD (p + 1) 0) (U p) p fun s => amp x.P s - actOp ds (partElt ds k U S) (amp x0.P) s) = _ from
    funext fun s => actPair_sub (U p) (amp x.P) (actOp ds (partElt ds k U S) (amp x0.P)) s] at hb
  obtain ⟨b1, b2, b3⟩ := bounds_step (m := 2) hg1 (hd0.le.trans (le_max_left dflt eps)) (wnorm_nonneg ds (amp x0.P)) (wnorm_nonneg ds (amp y.P)) (by omega)
    t1 t2 (wnorm_nonneg _ _) h.norm (hUu.1 p hp (amp x.P)).1 g4 h.dist g5 h.small g6
  refine ⟨g1, h.err.trans g2, h.hidden.trans g3, b1, ?_, b3, fun h0 hc => g7 hsort hm (pow_ne_zero 2 ((hUu.1 p hp (amp x.P)).2 (h.alive h0))) (by rw [hc]; simp),
    fun hE' => (bounds_step (m := 2) hg1 (hd0.le.trans (le_max_left dflt eps)) (wnorm_nonneg ds (amp x0.P)) (wnorm_nonneg ds (amp y.P)) (by omega)
      t1 t2 (wnorm_nonneg _ _) h.norm (hUu.1 p hp (amp x.P)).1 g4 h.dist g5 (h.keeps hE') (g8 (hE hE').1 (hE hE').2)).2.2⟩
  rw [wdist_congr (φ' := amp y.P) (fun _ _ => rfl) (fun s hs => part_pair hp h0 h1 hS (amp x0.P) hs)]
  refine (wdist_tri _ _ (actPair (ds.getD p 0) (ds.getD (p + 1) 0) (U p) p (amp x.P)) _).trans ?_
  refine (add_le_add le_rfl hb).trans (b2.trans (le_of_eq ?_))
  congr 2
  push_cast; ring

theorem NearB.one {svd : Tensor ℂ → SvdRes ℂ} (hg : GoodSvd svd) (eps : ℝ) {dflt : ℝ} (hd0 : 0 < dflt)
    {ds : List Nat} {k : Nat} {U : Nat → Tensor ℂ} {x0 x : Evo} {S S' : Nat → Bool} {N c : Nat} {g : ℝ} {E : Prop} (hg1 : 1 ≤ g) (_ : SortedSvd svd) (hm : max dflt eps < 1)
    (h : NearB ds k U (max dflt eps) g E x0 S x N c) (hU : GatesOk ds k U) (hUu : GatesBound ds k U g) {p : Nat} (hp : Single ds.length k p)
    (h0 : S p = false) (h1 : S' p = true)
    (hS : ∀ q, q ≠ p → (PairAt ds.length k q ∨ Single ds.length k q) → S' q = S q) (hc : c = p) (dk : Int) {D : Nat} (hD : D ≠ 0) :
    NearB ds k U (max dflt eps) g E x0 S' (applyOne svd eps dflt x (U p) p dk D) (N + 1) (nextCentre ds.length dk p) := by
  subst hc
  obtain ⟨g1, g2, g3, g4, g5, g6, g7⟩ := gate1_any hg eps hd0 x h.cent hp.1 (hU.2 c hp) dk hD
  set y := applyOne svd eps dflt x (U c) c dk D
  have he := h.err
  have hh := h.hidden
  have t1 : 0 ≤ x.tot - x0.tot := by unfold Evo.tot; linarith
  have t2 : 0 ≤ y.tot - x.tot := by unfold Evo.tot; linarith
  rw [← wnorm_normSq, ← wnorm_pow] at g4
  rw [← wnorm_pow] at g6 g7
  rw [← wnorm_normSq] at g7
  have hb := (hUu.2 c hp fun s => amp x.P s - actOp ds (partElt ds k U S) (amp x0.P) s).1
  rw [show (actSite (ds.getD c 0) (U c) c fun s => amp x.P s - actOp ds (partElt ds k U S) (amp x0.P) s) = _ from
    funext fun s => actSite_sub (U c) (amp x.P) (actOp ds (partElt ds k U S) (amp x0.P)) s] at hb
  obtain ⟨b1, b2, b3⟩ := bounds_step (m := 1) hg1 (hd0.le.trans (le_max_left dflt eps)) (wnorm_nonneg ds (amp x0.P)) (wnorm_nonneg ds (amp y.P)) (by omega)
    t1 t2 (wnorm_nonneg _ _) h.norm (hUu.2 c hp (amp x.P)).1 g4 h.dist (d' := wdist ds (amp y.P) (actSite (ds.getD c 0) (U c) c (amp x.P))) (by rw [Nat.cast_one]; exact g5) h.small g6
  refine ⟨g1, by rw [g2]; exact h.err, h.hidden.trans g3, b1, ?_, b3, fun h0 hc => g7 hm (pow_ne_zero 2 ((hUu.2 c hp (amp x.P)).2 (h.alive h0))) (by rw [hc]; simp),
    fun hE' => (bounds_step (m := 1) hg1 (hd0.le.trans (le_max_left dflt eps)) (wnorm_nonneg ds (amp x0.P)) (wnorm_nonneg ds (amp y.P)) (by omega)
      t1 t2 (wnorm_nonneg _ _) h.norm (hUu.2 c hp (amp x.P)).1 g4 h.dist (d' := wdist ds (amp y.P) (actSite (ds.getD c 0) (U c) c (amp x.P))) (by rw [Nat.cast_one]; exact g5)
      (h.keeps hE') (hy := y.err) (by rw [g2]; exact le_add_of_nonneg_right (mul_nonneg (hd0.le.trans (le_max_left dflt eps)) (sq_nonneg _)))).2.2⟩
  rw [wdist_congr (φ' := amp y.P) (fun _ _ => rfl) (fun s hs => part_single hp h0 h1 hS (amp x0.P) hs)]
  refine (wdist_tri _ _ (actSite (ds.getD c 0) (U c) c (amp x.P)) _).trans ?_
  refine (add_le_add le_rfl hb).trans (b2.trans (le_of_eq ?_))
  congr 2
  push_cast; ring

theorem NearB.cast {ds : List Nat} {k : Nat} {U : Nat → Tensor ℂ} {tau g : ℝ} {E : Prop} {x0 x : Evo} {S S' : Nat → Bool} {N c N' c' : Nat}
    (h : NearB ds k U tau g E x0 S x N c) (hS : ∀ q, S' q = S q) (hN : N = N') (hc : c = c') : NearB ds k U tau g E x0 S' x N' c' := by
  obtain rfl : S' = S := funext hS
  subst hN hc
  exact h

theorem sweep_nearB {svd : Tensor ℂ → SvdRes ℂ} (hg : GoodSvd svd) (eps : ℝ) {dflt : ℝ} (hd0 : 0 < dflt)
    {ds : List Nat} {k : Nat} {W : Unitary} (hW : Fits W ds k) {g : ℝ} (hg1 : 1 ≤ g) (hsort : SortedSvd svd) (hm : max dflt eps < 1) (hU : GatesBound ds k W.gate g) (x : Evo) (hpos : 0 < ds.length) (sense : Int)
    (hs0 : sense ≠ 0) (h : Cent ds x.P (startAt ds.length sense))
    (tol : ℝ) (htol : 0 < effTol dflt tol) {Dmax : Nat} (hD : Dmax ≠ 0)
    {E : Prop} (hE : E → ds.prod ≤ Dmax ∧ effTol dflt tol ≤ max dflt eps) :
    ∃ S, (∀ p, p < ds.length → (PairAt ds.length k p ∨ Single ds.length k p) → S p = true) ∧
      NearB ds k W.gate (max dflt eps) g E x S (sweep svd eps dflt W x sense tol Dmax) ds.length (startAt ds.length (-sense)) := by
  have hlen := h.wf.length
  obtain ⟨n, hn, n1, n2, n3, n4⟩ := layerEnd_spec ds.length k hW.le
  have hle := hW.le
  have hgates := fun p hp => layer_gates (p := p) hW.le n1 n2 n3 n4 hp
  have hkN : W.kN = n := by rw [hW.kN, hn]
  unfold sweep
  rw [hW.k0, hkN, hlen]
  set tau := max dflt eps with htau
  by_cases hs : sense > 0
  · simp only [if_pos hs]
    have es : startAt ds.length sense = 0 := by simp [startAt, hs.le]
    have ee : startAt ds.length (-sense) = ds.length - 1 := by
      unfold startAt; rw [if_neg (by omega)]
    have hnc : ∀ m, m < ds.length → nextCentre ds.length sense m = min (m + 1) (ds.length - 1) := by
      intro m hm; unfold nextCentre; rw [if_pos hs]; split <;> omega
    rw [es] at h
    rw [ee]
    have h0 : NearB ds k W.gate tau g E x (fun q => decide ((q : Int) < 0)) x (0 : Int).toNat (min (0 : Int).toNat (ds.length - 1)) :=
      (nearB_start (fun p _ => by simp) h).cast (fun _ => rfl) rfl (by simp)
    obtain ⟨k1, g1, g2, g3, h1⟩ := loopUp_inv (b := (k : Int)) (step := 1) (by omega)
      (body := fun k x => applyOne svd eps dflt x (site W.U k) k sense Dmax)
      (fun i y => 0 ≤ i ∧ i ≤ k ∧ NearB ds k W.gate tau g E x (fun q => decide ((q : Int) < i)) y i.toNat (min i.toNat (ds.length - 1))) (by
        rintro i y hi ⟨i1, i2, hy⟩
        refine ⟨by omega, by omega, ?_⟩
        obtain ⟨m, rfl⟩ : ∃ m : Nat, i = m := ⟨i.toNat, by omega⟩
        have hml : m < ds.length := by omega
        refine (hy.one hg eps hd0 hg1 hsort hm hW.gates hU ((hgates m hml).1 (Or.inl (by omega))) (by simp)
            (S' := fun q => decide ((q : Int) < (m : Int) + 1)) (by simp)
            (fun q hq _ => by simp only [decide_eq_decide]; omega) (by simp; omega) sense hD).cast (fun _ => rfl) (by omega) ?_
        rw [hnc m hml]; omega) (ds.length + 1) 0 x (by push_cast; omega) ⟨le_refl _, by omega, h0⟩
    obtain rfl : k1 = k := by omega
    obtain ⟨k2, g4, g5, g6, g7, h2⟩ := loopUp_inv (b := (n : Int)) (step := 2) (by omega)
      (body := fun k x => applyTwo svd eps dflt x (site W.U k) k sense tol Dmax)
      (fun i y => k ≤ i ∧ i ≤ n ∧ (i - k) % 2 = 0 ∧
        NearB ds k W.gate tau g E x (fun q => decide ((q : Int) < i)) y i.toNat (min i.toNat (ds.length - 1))) (by
        rintro i y hi ⟨i1, i2, i3, hy⟩
        refine ⟨by omega, by omega, by omega, ?_⟩
        obtain ⟨m, rfl⟩ : ∃ m : Nat, i = m := ⟨i.toNat, by omega⟩
        have hml : m < ds.length := by omega
        have hpm := (hgates m hml).2.1 (by omega) (by omega) (by omega)
        refine (hy.two hg eps hd0 hg1 hsort hm hW.gates hU hpm (by simp)
            (S' := fun q => decide ((q : Int) < (m : Int) + 2)) (by simp)
            (fun q hq hgq => ?_) (by simp; omega) sense tol htol hD hE).cast (fun _ => rfl) (by omega) ?_
        · simp only [decide_eq_decide]
          have : q ≠ m + 1 := by
            rintro rfl
            have hm1 : m + 1 < ds.length := by
              rcases hgq with h | h
              · have := h.2; omega
              · exact h.1
            have := (hgates (m + 1) hm1).2.2 (by omega) (by omega) (by omega)
            tauto
          omega
        · rw [if_pos hs, hnc (m + 1) hpm.2]; omega) (ds.length + 1) k _ (by push_cast; omega) ⟨le_refl _, by omega, by omega, h1⟩
    obtain rfl : k2 = n := by omega
    obtain ⟨k3, g8, g9, g10, h3⟩ := loopUp_inv (b := (ds.length : Int)) (step := 1) (by omega)
      (body := fun k x => applyOne svd eps dflt x (site W.U k) k sense Dmax)
      (fun i y => n ≤ i ∧ i ≤ max n ds.length ∧
        NearB ds k W.gate tau g E x (fun q => decide ((q : Int) < i)) y i.toNat (min i.toNat (ds.length - 1))) (by
        rintro i y hi ⟨i1, i2, hy⟩
        refine ⟨by omega, by omega, ?_⟩
        obtain ⟨m, rfl⟩ : ∃ m : Nat, i = m := ⟨i.toNat, by omega⟩
        have hml : m < ds.length := by omega
        refine (hy.one hg eps hd0 hg1 hsort hm hW.gates hU ((hgates m hml).1 (Or.inr (by omega))) (by simp)
            (S' := fun q => decide ((q : Int) < (m : Int) + 1)) (by simp)
            (fun q hq _ => by simp only [decide_eq_decide]; omega) (by simp; omega) sense hD).cast (fun _ => rfl) (by omega) ?_
        rw [hnc m hml]; omega) (ds.length + 1) n _ (by push_cast; omega) ⟨le_refl _, by omega, h2⟩
    refine ⟨_, fun p hp _ => by simp only [decide_eq_true_eq]; omega, h3.cast (fun _ => rfl) (by omega) (by omega)⟩
  · simp only [if_neg hs]
    have es : startAt ds.length sense = ds.length - 1 := by
      unfold startAt; rw [if_neg (by omega)]
    have ee : startAt ds.length (-sense) = 0 := by
      unfold startAt; rw [if_pos (by omega)]
    have hnc : ∀ m, nextCentre ds.length sense m = m - 1 := by
      intro m; unfold nextCentre; rw [if_neg hs]
    rw [es] at h
    rw [ee]
    have h0 : NearB ds k W.gate tau g E x (fun q => decide ((q : Int) > ds.length - 1)) x ((ds.length : Int) - 1 - ((ds.length : Int) - 1)).toNat
        ((ds.length : Int) - 1).toNat :=
      (nearB_start (fun p _ => by simp; omega) h).cast (fun _ => rfl) (by simp) (by omega)
    obtain ⟨k1, g1, g2, g3, h1⟩ := loopDown_inv (b := (n : Int)) (step := 1) (by omega)
      (body := fun k x => applyOne svd eps dflt x (site W.U k) k sense Dmax)
      (fun i y => n ≤ i + 1 ∧ i < ds.length ∧ NearB ds k W.gate tau g E x (fun q => decide ((q : Int) > i)) y ((ds.length : Int) - 1 - i).toNat i.toNat) (by
        rintro i y hi ⟨i1, i2, hy⟩
        refine ⟨by omega, by omega, ?_⟩
        obtain ⟨m, rfl⟩ : ∃ m : Nat, i = m := ⟨i.toNat, by omega⟩
        have hml : m < ds.length := by omega
        refine (hy.one hg eps hd0 hg1 hsort hm hW.gates hU ((hgates m hml).1 (Or.inr (by omega))) (by simp)
            (S' := fun q => decide ((q : Int) > (m : Int) - 1)) (by simp)
            (fun q hq _ => by simp only [decide_eq_decide]; omega) (by simp) sense hD).cast (fun _ => rfl) (by omega) ?_
        rw [hnc]; omega) (ds.length + 1) (ds.length - 1) x (by push_cast; omega)
        ⟨by omega, by omega, h0⟩
    obtain rfl : k1 = n - 1 := by omega
    obtain ⟨k2, g4, g5, g6, g7, h2⟩ := loopDown_inv (b := (k : Int)) (step := 2) (by omega)
      (body := fun k x => applyTwo svd eps dflt x (site W.U k) k sense tol Dmax)
      (fun i y => (k : Int) - 2 ≤ i ∧ i + 2 ≤ n ∧ (i - k) % 2 = 0 ∧
        NearB ds k W.gate tau g E x (fun q => decide ((q : Int) ≥ i + 2)) y ((ds.length : Int) - 2 - i).toNat (i + 1).toNat) (by
        rintro i y hi ⟨i1, i2, i3, hy⟩
        refine ⟨by omega, by omega, by omega, ?_⟩
        obtain ⟨m, rfl⟩ : ∃ m : Nat, i = m := ⟨i.toNat, by omega⟩
        have hml : m < ds.length := by omega
        have hpm := (hgates m hml).2.1 (by omega) (by omega) (by omega)
        have := hpm.2
        refine (hy.two hg eps hd0 hg1 hsort hm hW.gates hU hpm (by simp)
            (S' := fun q => decide ((q : Int) ≥ (m : Int) - 2 + 2)) (by simp)
            (fun q hq hgq => ?_) (by omega) sense tol htol hD hE).cast (fun _ => rfl) (by omega) ?_
        · simp only [decide_eq_decide]
          have : q ≠ m + 1 := by
            rintro rfl
            have hm1 : m + 1 < ds.length := by
              rcases hgq with h | h
              · have := h.2; omega
              · exact h.1
            have := (hgates (m + 1) hm1).2.2 (by omega) (by omega) (by omega)
            tauto
          omega
        · rw [if_neg hs, hnc]; omega) (ds.length + 1) (n - 2) _ (by push_cast; omega)
        ⟨by omega, by omega, by omega, h1.cast (fun q => by simp only [decide_eq_decide]; omega) (by omega) (by omega)⟩
    obtain rfl : k2 = k - 2 := by omega
    obtain ⟨k3, g8, g9, g10, h3⟩ := loopDown_inv (b := (0 : Int)) (step := 1) (by omega)
      (body := fun k x => applyOne svd eps dflt x (site W.U k) k sense Dmax)
      (fun i y => -1 ≤ i ∧ i ≤ k - 1 ∧ NearB ds k W.gate tau g E x (fun q => decide ((q : Int) > i)) y ((ds.length : Int) - 1 - i).toNat i.toNat) (by
        rintro i y hi ⟨i1, i2, hy⟩
        refine ⟨by omega, by omega, ?_⟩
        obtain ⟨m, rfl⟩ : ∃ m : Nat, i = m := ⟨i.toNat, by omega⟩
        have hml : m < ds.length := by omega
        refine (hy.one hg eps hd0 hg1 hsort hm hW.gates hU ((hgates m hml).1 (Or.inl (by omega))) (by simp)
            (S' := fun q => decide ((q : Int) > (m : Int) - 1)) (by simp)
            (fun q hq _ => by simp only [decide_eq_decide]; omega) (by simp) sense hD).cast (fun _ => rfl) (by omega) ?_
        rw [hnc]; omega) (ds.length + 1) (k - 1) _ (by push_cast; omega)
        ⟨by omega, by omega, h2.cast (fun q => by simp only [decide_eq_decide]; omega) (by omega) (by omega)⟩
    refine ⟨_, fun p hp _ => by simp only [decide_eq_true_eq]; omega, h3.cast (fun _ => rfl) (by omega) (by omega)⟩

end MPS.Trotter
