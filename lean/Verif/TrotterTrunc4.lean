import Verif.TrotterTrunc3

/-! # A sweep with truncation over a state in canonical form -/

set_option linter.unusedSectionVars false
set_option linter.unusedSimpArgs false

namespace MPS.Trotter
open MPS Tensor Minim Order

/-- the gates of a layer are unitary -/
def GatesUnitary (ds : List Nat) (k : Nat) (U : Nat → Tensor ℂ) : Prop :=
  (∀ p, PairAt ds.length k p → IsUnitary (ds.getD p 0 * ds.getD (p + 1) 0) (U p)) ∧ ∀ p, Single ds.length k p → IsUnitary (ds.getD p 0) (U p)

/-- the end where a sweep begins -/
def startAt (L : Nat) (sense : Int) : Nat := if sense ≥ 0 then 0 else L - 1

theorem part_pair {ds : List Nat} {k : Nat} {U : Nat → Tensor ℂ} {S S' : Nat → Bool} {p : Nat} (hp : PairAt ds.length k p)
    (h0 : S p = false) (h1 : S' p = true) (hS : ∀ q, q ≠ p → (PairAt ds.length k q ∨ Single ds.length k q) → S' q = S q)
    (φ : List Nat → ℂ) {s : List Nat} (hs : IsCfg ds s) :
    actOp ds (partElt ds k U S') φ s = actPair (ds.getD p 0) (ds.getD (p + 1) 0) (U p) p (actOp ds (partElt ds k U S) φ) s := by
  unfold actOp actPair
  simp only [← sumCfg_mul_left, ← sumCfg_sum]
  refine sumCfg_congr fun t ht => ?_
  rw [← partElt_pair hp h0 h1 hS hs ht]
  simp only [Finset.sum_mul, mul_assoc]

theorem part_single {ds : List Nat} {k : Nat} {U : Nat → Tensor ℂ} {S S' : Nat → Bool} {p : Nat} (hp : Single ds.length k p)
    (h0 : S p = false) (h1 : S' p = true) (hS : ∀ q, q ≠ p → (PairAt ds.length k q ∨ Single ds.length k q) → S' q = S q)
    (φ : List Nat → ℂ) {s : List Nat} (hs : IsCfg ds s) :
    actOp ds (partElt ds k U S') φ s = actSite (ds.getD p 0) (U p) p (actOp ds (partElt ds k U S) φ) s := by
  unfold actOp actSite
  simp only [← sumCfg_mul_left, ← sumCfg_sum]
  refine sumCfg_congr fun t ht => ?_
  rw [← partElt_single hp h0 h1 hS hs ht]
  simp only [Finset.sum_mul, mul_assoc]

/-- `x` is obtained from `x0` with the gates in `S`, up to truncations on `N` sites; it is canonical around `c` -/
structure Near (ds : List Nat) (k : Nat) (U : Nat → Tensor ℂ) (tau : ℝ) (x0 : Evo) (S : Nat → Bool) (x : Evo) (N c : Nat) : Prop where
  cent : Cent ds x.P c
  err : x0.err ≤ x.err
  hidden : x0.hidden ≤ x.hidden
  norm : normSq ds x.P = normSq ds x0.P - (x.tot - x0.tot)
  dist : wdist ds (amp x.P) (actOp ds (partElt ds k U S) (amp x0.P)) ≤ Real.sqrt (N * (x.tot - x0.tot))
  small : x.hidden ≤ x0.hidden + N * (tau * normSq ds x0.P)

theorem wdist_self (ds : List Nat) (φ : List Nat → ℂ) : wdist ds φ φ = 0 := by
  simp [wdist, wnorm]

theorem near_start {ds : List Nat} {k : Nat} {U : Nat → Tensor ℂ} {tau : ℝ} {x : Evo} {S : Nat → Bool} {c : Nat}
    (hS : ∀ p, p < ds.length → S p = false) (h : Cent ds x.P c) : Near ds k U tau x S x 0 c := by
  refine ⟨h, le_rfl, le_rfl, by ring, ?_, by simp⟩
  have e : wdist ds (amp x.P) (actOp ds (partElt ds k U S) (amp x.P)) = 0 := by
    rw [← wdist_self ds (amp x.P)]
    exact wdist_congr (fun _ _ => rfl) (fun s hs => partElt_none ds k U S hS (amp x.P) hs)
  rw [e]
  exact Real.sqrt_nonneg _

theorem Near.two {svd : Tensor ℂ → SvdRes ℂ} (hg : GoodSvd svd) (eps : ℝ) {dflt : ℝ} (hd0 : 0 < dflt)
    {ds : List Nat} {k : Nat} {U : Nat → Tensor ℂ} {x0 x : Evo} {S S' : Nat → Bool} {N c : Nat}
    (h : Near ds k U (max dflt eps) x0 S x N c) (hU : GatesOk ds k U) (hUu : GatesUnitary ds k U) {p : Nat} (hp : PairAt ds.length k p)
    (h0 : S p = false) (h1 : S' p = true)
    (hS : ∀ q, q ≠ p → (PairAt ds.length k q ∨ Single ds.length k q) → S' q = S q) (hc : c = p ∨ c = p + 1) (dk : Int) (tol : ℝ)
    (htol : 0 < effTol dflt tol) {D : Nat} (hD : D ≠ 0) :
    Near ds k U (max dflt eps) x0 S' (applyTwo svd eps dflt x (U p) p dk tol D) (N + 2) (nextCentre ds.length dk (if dk > 0 then p + 1 else p)) := by
  obtain ⟨g1, g2, g3, g4, g5, g6⟩ := gate2 hg eps hd0 x h.cent.wf (fun j hj => h.cent.lo j (by omega)) (fun j hj => h.cent.hi j (by omega)) hp.2
    (hU.1 p hp) (hUu.1 p hp) dk tol htol hD
  set y := applyTwo svd eps dflt x (U p) p dk tol D
  have he := h.err
  have hh := h.hidden
  have t1 : 0 ≤ x.tot - x0.tot := by unfold Evo.tot; linarith
  have t2 : 0 ≤ y.tot - x.tot := by unfold Evo.tot; linarith
  refine ⟨g1, h.err.trans g2, h.hidden.trans g3, by rw [g4, h.norm]; ring, ?_, ?_⟩
  · rw [wdist_congr (φ' := amp y.P) (fun _ _ => rfl) (fun s hs => part_pair hp h0 h1 hS (amp x0.P) hs)]
    refine (wdist_tri _ _ (actPair (ds.getD p 0) (ds.getD (p + 1) 0) (U p) p (amp x.P)) _).trans ?_
    rw [actPair_dist hp.2 (hUu.1 p hp), add_comm]
    have := sqrt_step (Nat.cast_nonneg N) t1 (by norm_num : (0 : ℝ) ≤ 2) t2 h.dist g5
    refine this.trans (le_of_eq ?_)
    congr 1
    push_cast; ring
  · have hn := h.norm
    have h2 := mul_le_mul_of_nonneg_left (show normSq ds x.P ≤ normSq ds x0.P by linarith) (hd0.le.trans (le_max_left dflt eps))
    have h3 : 0 ≤ max dflt eps * normSq ds x0.P :=
      mul_nonneg (hd0.le.trans (le_max_left dflt eps)) (sumCfg_nonneg _ _ fun _ _ => by positivity)
    have := h.small
    push_cast
    linarith

theorem Near.one {svd : Tensor ℂ → SvdRes ℂ} (hg : GoodSvd svd) (eps : ℝ) {dflt : ℝ} (hd0 : 0 < dflt)
    {ds : List Nat} {k : Nat} {U : Nat → Tensor ℂ} {x0 x : Evo} {S S' : Nat → Bool} {N c : Nat}
    (h : Near ds k U (max dflt eps) x0 S x N c) (hU : GatesOk ds k U) (hUu : GatesUnitary ds k U) {p : Nat} (hp : Single ds.length k p)
    (h0 : S p = false) (h1 : S' p = true)
    (hS : ∀ q, q ≠ p → (PairAt ds.length k q ∨ Single ds.length k q) → S' q = S q) (hc : c = p) (dk : Int) {D : Nat} (hD : D ≠ 0) :
    Near ds k U (max dflt eps) x0 S' (applyOne svd eps dflt x (U p) p dk D) (N + 1) (nextCentre ds.length dk p) := by
  subst hc
  obtain ⟨g1, g2, g3, g4, g5, g6⟩ := gate1 hg eps hd0 x h.cent hp.1 (hU.2 c hp) (hUu.2 c hp) dk hD
  set y := applyOne svd eps dflt x (U c) c dk D
  have he := h.err
  have hh := h.hidden
  have t1 : 0 ≤ x.tot - x0.tot := by unfold Evo.tot; linarith
  have t2 : 0 ≤ y.tot - x.tot := by unfold Evo.tot; linarith
  refine ⟨g1, by rw [g2]; exact h.err, h.hidden.trans g3, by rw [g4, h.norm]; ring, ?_, ?_⟩
  · rw [wdist_congr (φ' := amp y.P) (fun _ _ => rfl) (fun s hs => part_single hp h0 h1 hS (amp x0.P) hs)]
    refine (wdist_tri _ _ (actSite (ds.getD c 0) (U c) c (amp x.P)) _).trans ?_
    rw [actSite_dist hp.1 (hUu.2 c hp), add_comm]
    have := sqrt_step (Nat.cast_nonneg N) t1 zero_le_one t2 h.dist g5
    refine this.trans (le_of_eq ?_)
    congr 1
    push_cast; ring
  · have hn := h.norm
    have h2 := mul_le_mul_of_nonneg_left (show normSq ds x.P ≤ normSq ds x0.P by linarith) (hd0.le.trans (le_max_left dflt eps))
    have := h.small
    push_cast
    linarith

theorem Near.cast {ds : List Nat} {k : Nat} {U : Nat → Tensor ℂ} {tau : ℝ} {x0 x : Evo} {S S' : Nat → Bool} {N c N' c' : Nat}
    (h : Near ds k U tau x0 S x N c) (hS : ∀ q, S' q = S q) (hN : N = N') (hc : c = c') : Near ds k U tau x0 S' x N' c' := by
  obtain rfl : S' = S := funext hS
  subst hN hc
  exact h

theorem sweep_near {svd : Tensor ℂ → SvdRes ℂ} (hg : GoodSvd svd) (eps : ℝ) {dflt : ℝ} (hd0 : 0 < dflt)
    {ds : List Nat} {k : Nat} {W : Unitary} (hW : Fits W ds k) (hU : GatesUnitary ds k W.gate) (x : Evo) (hpos : 0 < ds.length) (sense : Int)
    (hs0 : sense ≠ 0) (h : Cent ds x.P (startAt ds.length sense))
    (tol : ℝ) (htol : 0 < effTol dflt tol) {Dmax : Nat} (hD : Dmax ≠ 0) :
    ∃ S, (∀ p, p < ds.length → (PairAt ds.length k p ∨ Single ds.length k p) → S p = true) ∧
      Near ds k W.gate (max dflt eps) x S (sweep svd eps dflt W x sense tol Dmax) ds.length (startAt ds.length (-sense)) := by
  have hlen := h.wf.length
  obtain ⟨n, hn, n1, n2, n3, n4⟩ := layerEnd_spec ds.length k hW.le
  have hle := hW.le
  have hgates := fun p hp => layer_gates (p := p) hW.le n1 n2 n3 n4 hp
  have hkN : W.kN = n := by rw [hW.kN, hn]
  unfold sweep
  rw [hW.k0, hkN, hlen]
  set tau := max dflt eps with htau
  by_cases hs : sense > 0
  · simp only [if_pos hs]
    have es : startAt ds.length sense = 0 := by simp [startAt, hs.le]
    have ee : startAt ds.length (-sense) = ds.length - 1 := by
      unfold startAt; rw [if_neg (by omega)]
    have hnc : ∀ m, m < ds.length → nextCentre ds.length sense m = min (m + 1) (ds.length - 1) := by
      intro m hm; unfold nextCentre; rw [if_pos hs]; split <;> omega
    rw [es] at h
    rw [ee]
    have h0 : Near ds k W.gate tau x (fun q => decide ((q : Int) < 0)) x (0 : Int).toNat (min (0 : Int).toNat (ds.length - 1)) :=
      (near_start (fun p _ => by simp) h).cast (fun _ => rfl) rfl (by simp)
    obtain ⟨k1, g1, g2, g3, h1⟩ := loopUp_inv (b := (k : Int)) (step := 1) (by omega)
      (body := fun k x => applyOne svd eps dflt x (site W.U k) k sense Dmax)
      (fun i y => 0 ≤ i ∧ i ≤ k ∧ Near ds k W.gate tau x (fun q => decide ((q : Int) < i)) y i.toNat (min i.toNat (ds.length - 1))) (by
        rintro i y hi ⟨i1, i2, hy⟩
        refine ⟨by omega, by omega, ?_⟩
        obtain ⟨m, rfl⟩ : ∃ m : Nat, i = m := ⟨i.toNat, by omega⟩
        have hm : m < ds.length := by omega
        refine (hy.one hg eps hd0 hW.gates hU ((hgates m hm).1 (Or.inl (by omega))) (by simp)
            (S' := fun q => decide ((q : Int) < (m : Int) + 1)) (by simp)
            (fun q hq _ => by simp only [decide_eq_decide]; omega) (by simp; omega) sense hD).cast (fun _ => rfl) (by omega) ?_
        rw [hnc m hm]; omega) (ds.length + 1) 0 x (by push_cast; omega) ⟨le_refl _, by omega, h0⟩
    obtain rfl : k1 = k := by omega
    obtain ⟨k2, g4, g5, g6, g7, h2⟩ := loopUp_inv (b := (n : Int)) (step := 2) (by omega)
      (body := fun k x => applyTwo svd eps dflt x (site W.U k) k sense tol Dmax)
      (fun i y => k ≤ i ∧ i ≤ n ∧ (i - k) % 2 = 0 ∧
        Near ds k W.gate tau x (fun q => decide ((q : Int) < i)) y i.toNat (min i.toNat (ds.length - 1))) (by
        rintro i y hi ⟨i1, i2, i3, hy⟩
        refine ⟨by omega, by omega, by omega, ?_⟩
        obtain ⟨m, rfl⟩ : ∃ m : Nat, i = m := ⟨i.toNat, by omega⟩
        have hm : m < ds.length := by omega
        have hpm := (hgates m hm).2.1 (by omega) (by omega) (by omega)
        refine (hy.two hg eps hd0 hW.gates hU hpm (by simp)
            (S' := fun q => decide ((q : Int) < (m : Int) + 2)) (by simp)
            (fun q hq hgq => ?_) (by simp; omega) sense tol htol hD).cast (fun _ => rfl) (by omega) ?_
        · simp only [decide_eq_decide]
          have : q ≠ m + 1 := by
            rintro rfl
            have hm1 : m + 1 < ds.length := by
              rcases hgq with h | h
              · have := h.2; omega
              · exact h.1
            have := (hgates (m + 1) hm1).2.2 (by omega) (by omega) (by omega)
            tauto
          omega
        · rw [if_pos hs, hnc (m + 1) hpm.2]; omega) (ds.length + 1) k _ (by push_cast; omega) ⟨le_refl _, by omega, by omega, h1⟩
    obtain rfl : k2 = n := by omega
    obtain ⟨k3, g8, g9, g10, h3⟩ := loopUp_inv (b := (ds.length : Int)) (step := 1) (by omega)
      (body := fun k x => applyOne svd eps dflt x (site W.U k) k sense Dmax)
      (fun i y => n ≤ i ∧ i ≤ max n ds.length ∧
        Near ds k W.gate tau x (fun q => decide ((q : Int) < i)) y i.toNat (min i.toNat (ds.length - 1))) (by
        rintro i y hi ⟨i1, i2, hy⟩
        refine ⟨by omega, by omega, ?_⟩
        obtain ⟨m, rfl⟩ : ∃ m : Nat, i = m := ⟨i.toNat, by omega⟩
        have hm : m < ds.length := by omega
        refine (hy.one hg eps hd0 hW.gates hU ((hgates m hm).1 (Or.inr (by omega))) (by simp)
            (S' := fun q => decide ((q : Int) < (m : Int) + 1)) (by simp)
            (fun q hq _ => by simp only [decide_eq_decide]; omega) (by simp; omega) sense hD).cast (fun _ => rfl) (by omega) ?_
        rw [hnc m hm]; omega) (ds.length + 1) n _ (by push_cast; omega) ⟨le_refl _, by omega, h2⟩
    refine ⟨_, fun p hp _ => by simp only [decide_eq_true_eq]; omega, h3.cast (fun _ => rfl) (by omega) (by omega)⟩
  · simp only [if_neg hs]
    have es : startAt ds.length sense = ds.length - 1 := by
      unfold startAt; rw [if_neg (by omega)]
    have ee : startAt ds.length (-sense) = 0 := by
      unfold startAt; rw [if_pos (by omega)]
    have hnc : ∀ m, nextCentre ds.length sense m = m - 1 := by
      intro m; unfold nextCentre; rw [if_neg hs]
    rw [es] at h
    rw [ee]
    have h0 : Near ds k W.gate tau x (fun q => decide ((q : Int) > ds.length - 1)) x ((ds.length : Int) - 1 - ((ds.length : Int) - 1)).toNat
        ((ds.length : Int) - 1).toNat :=
      (near_start (fun p _ => by simp; omega) h).cast (fun _ => rfl) (by simp) (by omega)
    obtain ⟨k1, g1, g2, g3, h1⟩ := loopDown_inv (b := (n : Int)) (step := 1) (by omega)
      (body := fun k x => applyOne svd eps dflt x (site W.U k) k sense Dmax)
      (fun i y => n ≤ i + 1 ∧ i < ds.length ∧ Near ds k W.gate tau x (fun q => decide ((q : Int) > i)) y ((ds.length : Int) - 1 - i).toNat i.toNat) (by
        rintro i y hi ⟨i1, i2, hy⟩
        refine ⟨by omega, by omega, ?_⟩
        obtain ⟨m, rfl⟩ : ∃ m : Nat, i = m := ⟨i.toNat, by omega⟩
        have hm : m < ds.length := by omega
        refine (hy.one hg eps hd0 hW.gates hU ((hgates m hm).1 (Or.inr (by omega))) (by simp)
            (S' := fun q => decide ((q : Int) > (m : Int) - 1)) (by simp)
            (fun q hq _ => by simp only [decide_eq_decide]; omega) (by simp) sense hD).cast (fun _ => rfl) (by omega) ?_
        rw [hnc]; omega) (ds.length + 1) (ds.length - 1) x (by push_cast; omega)
        ⟨by omega, by omega, h0⟩
    obtain rfl : k1 = n - 1 := by omega
    obtain ⟨k2, g4, g5, g6, g7, h2⟩ := loopDown_inv (b := (k : Int)) (step := 2) (by omega)
      (body := fun k x => applyTwo svd eps dflt x (site W.U k) k sense tol Dmax)
      (fun i y => (k : Int) - 2 ≤ i ∧ i + 2 ≤ n ∧ (i - k) % 2 = 0 ∧
        Near ds k W.gate tau x (fun q => decide ((q : Int) ≥ i + 2)) y ((ds.length : Int) - 2 - i).toNat (i + 1).toNat) (by
        rintro i y hi ⟨i1, i2, i3, hy⟩
        refine ⟨by omega, by omega, by omega, ?_⟩
        obtain ⟨m, rfl⟩ : ∃ m : Nat, i = m := ⟨i.toNat, by omega⟩
        have hm : m < ds.length := by omega
        have hpm := (hgates m hm).2.1 (by omega) (by omega) (by omega)
        have := hpm.2
        refine (hy.two hg eps hd0 hW.gates hU hpm (by simp)
            (S' := fun q => decide ((q : Int) ≥ (m : Int) - 2 + 2)) (by simp)
            (fun q hq hgq => ?_) (by omega) sense tol htol hD).cast (fun _ => rfl) (by omega) ?_
        · simp only [decide_eq_decide]
          have : q ≠ m + 1 := by
            rintro rfl
            have hm1 : m + 1 < ds.length := by
              rcases hgq with h | h
              · have := h.2; omega
              · exact h.1
            have := (hgates (m + 1) hm1).2.2 (by omega) (by omega) (by omega)
            tauto
          omega
        · rw [if_neg hs, hnc]; omega) (ds.length + 1) (n - 2) _ (by push_cast; omega)
        ⟨by omega, by omega, by omega, h1.cast (fun q => by simp only [decide_eq_decide]; omega) (by omega) (by omega)⟩
    obtain rfl : k2 = k - 2 := by omega
    obtain ⟨k3, g8, g9, g10, h3⟩ := loopDown_inv (b := (0 : Int)) (step := 1) (by omega)
      (body := fun k x => applyOne svd eps dflt x (site W.U k) k sense Dmax)
      (fun i y => -1 ≤ i ∧ i ≤ k - 1 ∧ Near ds k W.gate tau x (fun q => decide ((q : Int) > i)) y ((ds.length : Int) - 1 - i).toNat i.toNat) (by
        rintro i y hi ⟨i1, i2, hy⟩
        refine ⟨by omega, by omega, ?_⟩
        obtain ⟨m, rfl⟩ : ∃ m : Nat, i = m := ⟨i.toNat, by omega⟩
        have hm : m < ds.length := by omega
        refine (hy.one hg eps hd0 hW.gates hU ((hgates m hm).1 (Or.inl (by omega))) (by simp)
            (S' := fun q => decide ((q : Int) > (m : Int) - 1)) (by simp)
            (fun q hq _ => by simp only [decide_eq_decide]; omega) (by simp) sense hD).cast (fun _ => rfl) (by omega) ?_
        rw [hnc]; omega) (ds.length + 1) (k - 1) _ (by push_cast; omega)
        ⟨by omega, by omega, h2.cast (fun q => by simp only [decide_eq_decide]; omega) (by omega) (by omega)⟩
    refine ⟨_, fun p hp _ => by simp only [decide_eq_true_eq]; omega, h3.cast (fun _ => rfl) (by omega) (by omega)⟩

end MPS.Trotter
