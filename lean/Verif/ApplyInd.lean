import Verif.ApplyStep

/-! # Induction over a sweep -/

set_option linter.unusedSectionVars false
set_option linter.unusedSimpArgs false

namespace MPS.Trotter
open MPS Tensor Minim Order

/-- `I` is kept by the gates of a sweep. `S`: the gates already applied, `N`: number of sites done, `c`: centre -/
structure SweepStep (svd : Tensor ℂ → SvdRes ℂ) (eps dflt : ℝ) (ds : List Nat) (k : Nat) (W : Unitary) (sense : Int) (tol : ℝ) (Dmax : Nat)
    (I : (Nat → Bool) → Evo → Nat → Nat → Prop) : Prop where
  one : ∀ S S' y N p, Single ds.length k p → S p = false → S' p = true →
    (∀ q, q ≠ p → (PairAt ds.length k q ∨ Single ds.length k q) → S' q = S q) → I S y N p →
    I S' (applyOne svd eps dflt y (W.gate p) p sense Dmax) (N + 1) (nextCentre ds.length sense p)
  two : ∀ S S' y N p, PairAt ds.length k p → S p = false → S' p = true →
    (∀ q, q ≠ p → (PairAt ds.length k q ∨ Single ds.length k q) → S' q = S q) → I S y N (if sense > 0 then p else p + 1) →
    I S' (applyTwo svd eps dflt y (W.gate p) p sense tol Dmax) (N + 2) (nextCentre ds.length sense (if sense > 0 then p + 1 else p))

structure Inv (I : (Nat → Bool) → Evo → Nat → Nat → Prop) (S : Nat → Bool) (x : Evo) (N c : Nat) : Prop where
  out : I S x N c

theorem Inv.cast {I : (Nat → Bool) → Evo → Nat → Nat → Prop} {x : Evo} {S S' : Nat → Bool} {N c N' c' : Nat}
    (h : Inv I S x N c) (hS : ∀ q, S' q = S q) (hN : N = N') (hc : c = c') : Inv I S' x N' c' := by
  obtain rfl : S' = S := funext hS
  subst hN hc
  exact h

section
variable {svd : Tensor ℂ → SvdRes ℂ} {eps dflt : ℝ} {ds : List Nat} {k : Nat} {W : Unitary} {sense : Int} {tol : ℝ} {Dmax : Nat}
    {I : (Nat → Bool) → Evo → Nat → Nat → Prop}

theorem Inv.one {y : Evo} {S S' : Nat → Bool} {N c p : Nat} (h : Inv I S y N c) (H : SweepStep svd eps dflt ds k W sense tol Dmax I)
    (hp : Single ds.length k p) (h0 : S p = false) (h1 : S' p = true)
    (hS : ∀ q, q ≠ p → (PairAt ds.length k q ∨ Single ds.length k q) → S' q = S q) (hc : c = p) :
    Inv I S' (applyOne svd eps dflt y (W.gate p) p sense Dmax) (N + 1) (nextCentre ds.length sense p) := by
  subst hc; exact ⟨H.one S S' y N _ hp h0 h1 hS h.out⟩

theorem Inv.two {y : Evo} {S S' : Nat → Bool} {N c p : Nat} (h : Inv I S y N c) (H : SweepStep svd eps dflt ds k W sense tol Dmax I)
    (hp : PairAt ds.length k p) (h0 : S p = false) (h1 : S' p = true)
    (hS : ∀ q, q ≠ p → (PairAt ds.length k q ∨ Single ds.length k q) → S' q = S q) (hc : c = if sense > 0 then p else p + 1) :
    Inv I S' (applyTwo svd eps dflt y (W.gate p) p sense tol Dmax) (N + 2) (nextCentre ds.length sense (if sense > 0 then p + 1 else p)) := by
  subst hc; exact ⟨H.two S S' y N _ hp h0 h1 hS h.out⟩

theorem sweep_ind (H : SweepStep svd eps dflt ds k W sense tol Dmax I) (hW : Fits W ds k) (x : Evo) (hpos : 0 < ds.length) (hs0 : sense ≠ 0)
    (hlen : x.P.length = ds.length)
    (hstart : ∀ S : Nat → Bool, (∀ p, p < ds.length → S p = false) → I S x 0 (startAt ds.length sense)) :
    ∃ S, (∀ p, p < ds.length → (PairAt ds.length k p ∨ Single ds.length k p) → S p = true) ∧
      I S (sweep svd eps dflt W x sense tol Dmax) ds.length (startAt ds.length (-sense)) := by
  obtain ⟨n, hn, n1, n2, n3, n4⟩ := layerEnd_spec ds.length k hW.le
  have hle := hW.le
  have hgates := fun p hp => layer_gates (p := p) hW.le n1 n2 n3 n4 hp
  have hkN : W.kN = n := by rw [hW.kN, hn]
  unfold sweep
  rw [hW.k0, hkN, hlen]
  by_cases hs : sense > 0
  · simp only [if_pos hs]
    have es : startAt ds.length sense = 0 := by simp [startAt, hs.le]
    have ee : startAt ds.length (-sense) = ds.length - 1 := by
      unfold startAt; rw [if_neg (by omega)]
    have hnc : ∀ m, m < ds.length → nextCentre ds.length sense m = min (m + 1) (ds.length - 1) := by
      intro m hm; unfold nextCentre; rw [if_pos hs]; split <;> omega
    rw [ee]
    rw [es] at hstart
    have h0 : Inv I (fun q => decide ((q : Int) < 0)) x (0 : Int).toNat (min (0 : Int).toNat (ds.length - 1)) :=
      (Inv.mk (hstart _ (fun p _ => by simp))).cast (fun _ => rfl) rfl (by simp)
    obtain ⟨k1, g1, g2, g3, h1⟩ := loopUp_inv (b := (k : Int)) (step := 1) (by omega)
      (body := fun k x => applyOne svd eps dflt x (site W.U k) k sense Dmax)
      (fun i y => 0 ≤ i ∧ i ≤ k ∧ Inv I (fun q => decide ((q : Int) < i)) y i.toNat (min i.toNat (ds.length - 1))) (by
        rintro i y hi ⟨i1, i2, hy⟩
        refine ⟨by omega, by omega, ?_⟩
        obtain ⟨m, rfl⟩ : ∃ m : Nat, i = m := ⟨i.toNat, by omega⟩
        have hm : m < ds.length := by omega
        refine (hy.one H ((hgates m hm).1 (Or.inl (by omega))) (by simp)
            (S' := fun q => decide ((q : Int) < (m : Int) + 1)) (by simp)
            (fun q hq _ => by simp only [decide_eq_decide]; omega) (by simp [hs]; omega) ).cast (fun _ => rfl) (by omega) ?_
        rw [hnc m hm]; omega) (ds.length + 1) 0 x (by push_cast; omega) ⟨le_refl _, by omega, h0⟩
    obtain rfl : k1 = k := by omega
    obtain ⟨k2, g4, g5, g6, g7, h2⟩ := loopUp_inv (b := (n : Int)) (step := 2) (by omega)
      (body := fun k x => applyTwo svd eps dflt x (site W.U k) k sense tol Dmax)
      (fun i y => k ≤ i ∧ i ≤ n ∧ (i - k) % 2 = 0 ∧
        Inv I (fun q => decide ((q : Int) < i)) y i.toNat (min i.toNat (ds.length - 1))) (by
        rintro i y hi ⟨i1, i2, i3, hy⟩
        refine ⟨by omega, by omega, by omega, ?_⟩
        obtain ⟨m, rfl⟩ : ∃ m : Nat, i = m := ⟨i.toNat, by omega⟩
        have hm : m < ds.length := by omega
        have hpm := (hgates m hm).2.1 (by omega) (by omega) (by omega)
        refine (hy.two H hpm (by simp)
            (S' := fun q => decide ((q : Int) < (m : Int) + 2)) (by simp)
            (fun q hq hgq => ?_) (by simp [hs]; omega) ).cast (fun _ => rfl) (by omega) ?_
        · simp only [decide_eq_decide]
          have : q ≠ m + 1 := by
            rintro rfl
            have hm1 : m + 1 < ds.length := by
              rcases hgq with h | h
              · have := h.2; omega
              · exact h.1
            have := (hgates (m + 1) hm1).2.2 (by omega) (by omega) (by omega)
            tauto
          omega
        · rw [if_pos hs, hnc (m + 1) hpm.2]; omega) (ds.length + 1) k _ (by push_cast; omega) ⟨le_refl _, by omega, by omega, h1⟩
    obtain rfl : k2 = n := by omega
    obtain ⟨k3, g8, g9, g10, h3⟩ := loopUp_inv (b := (ds.length : Int)) (step := 1) (by omega)
      (body := fun k x => applyOne svd eps dflt x (site W.U k) k sense Dmax)
      (fun i y => n ≤ i ∧ i ≤ max n ds.length ∧
        Inv I (fun q => decide ((q : Int) < i)) y i.toNat (min i.toNat (ds.length - 1))) (by
        rintro i y hi ⟨i1, i2, hy⟩
        refine ⟨by omega, by omega, ?_⟩
        obtain ⟨m, rfl⟩ : ∃ m : Nat, i = m := ⟨i.toNat, by omega⟩
        have hm : m < ds.length := by omega
        refine (hy.one H ((hgates m hm).1 (Or.inr (by omega))) (by simp)
            (S' := fun q => decide ((q : Int) < (m : Int) + 1)) (by simp)
            (fun q hq _ => by simp only [decide_eq_decide]; omega) (by simp [hs]; omega) ).cast (fun _ => rfl) (by omega) ?_
        rw [hnc m hm]; omega) (ds.length + 1) n _ (by push_cast; omega) ⟨le_refl _, by omega, h2⟩
    refine ⟨_, fun p hp _ => by simp only [decide_eq_true_eq]; omega, (h3.cast (fun _ => rfl) (by omega) (by omega)).out⟩
  · simp only [if_neg hs]
    have es : startAt ds.length sense = ds.length - 1 := by
      unfold startAt; rw [if_neg (by omega)]
    have ee : startAt ds.length (-sense) = 0 := by
      unfold startAt; rw [if_pos (by omega)]
    have hnc : ∀ m, nextCentre ds.length sense m = m - 1 := by
      intro m; unfold nextCentre; rw [if_neg hs]
    rw [ee]
    rw [es] at hstart
    have h0 : Inv I (fun q => decide ((q : Int) > ds.length - 1)) x ((ds.length : Int) - 1 - ((ds.length : Int) - 1)).toNat
        ((ds.length : Int) - 1).toNat :=
      (Inv.mk (hstart _ (fun p _ => by simp; omega))).cast (fun _ => rfl) (by simp) (by omega)
    obtain ⟨k1, g1, g2, g3, h1⟩ := loopDown_inv (b := (n : Int)) (step := 1) (by omega)
      (body := fun k x => applyOne svd eps dflt x (site W.U k) k sense Dmax)
      (fun i y => n ≤ i + 1 ∧ i < ds.length ∧ Inv I (fun q => decide ((q : Int) > i)) y ((ds.length : Int) - 1 - i).toNat i.toNat) (by
        rintro i y hi ⟨i1, i2, hy⟩
        refine ⟨by omega, by omega, ?_⟩
        obtain ⟨m, rfl⟩ : ∃ m : Nat, i = m := ⟨i.toNat, by omega⟩
        have hm : m < ds.length := by omega
        refine (hy.one H ((hgates m hm).1 (Or.inr (by omega))) (by simp)
            (S' := fun q => decide ((q : Int) > (m : Int) - 1)) (by simp)
            (fun q hq _ => by simp only [decide_eq_decide]; omega) (by simp) ).cast (fun _ => rfl) (by omega) ?_
        rw [hnc]; omega) (ds.length + 1) (ds.length - 1) x (by push_cast; omega)
        ⟨by omega, by omega, h0⟩
    obtain rfl : k1 = n - 1 := by omega
    obtain ⟨k2, g4, g5, g6, g7, h2⟩ := loopDown_inv (b := (k : Int)) (step := 2) (by omega)
      (body := fun k x => applyTwo svd eps dflt x (site W.U k) k sense tol Dmax)
      (fun i y => (k : Int) - 2 ≤ i ∧ i + 2 ≤ n ∧ (i - k) % 2 = 0 ∧
        Inv I (fun q => decide ((q : Int) ≥ i + 2)) y ((ds.length : Int) - 2 - i).toNat (i + 1).toNat) (by
        rintro i y hi ⟨i1, i2, i3, hy⟩
        refine ⟨by omega, by omega, by omega, ?_⟩
        obtain ⟨m, rfl⟩ : ∃ m : Nat, i = m := ⟨i.toNat, by omega⟩
        have hm : m < ds.length := by omega
        have hpm := (hgates m hm).2.1 (by omega) (by omega) (by omega)
        have := hpm.2
        refine (hy.two H hpm (by simp)
            (S' := fun q => decide ((q : Int) ≥ (m : Int) - 2 + 2)) (by simp)
            (fun q hq hgq => ?_) (by simp [hs]; try omega) ).cast (fun _ => rfl) (by omega) ?_
        · simp only [decide_eq_decide]
          have : q ≠ m + 1 := by
            rintro rfl
            have hm1 : m + 1 < ds.length := by
              rcases hgq with h | h
              · have := h.2; omega
              · exact h.1
            have := (hgates (m + 1) hm1).2.2 (by omega) (by omega) (by omega)
            tauto
          omega
        · rw [if_neg hs, hnc]; omega) (ds.length + 1) (n - 2) _ (by push_cast; omega)
        ⟨by omega, by omega, by omega, h1.cast (fun q => by simp only [decide_eq_decide]; omega) (by omega) (by omega)⟩
    obtain rfl : k2 = k - 2 := by omega
    obtain ⟨k3, g8, g9, g10, h3⟩ := loopDown_inv (b := (0 : Int)) (step := 1) (by omega)
      (body := fun k x => applyOne svd eps dflt x (site W.U k) k sense Dmax)
      (fun i y => -1 ≤ i ∧ i ≤ k - 1 ∧ Inv I (fun q => decide ((q : Int) > i)) y ((ds.length : Int) - 1 - i).toNat i.toNat) (by
        rintro i y hi ⟨i1, i2, hy⟩
        refine ⟨by omega, by omega, ?_⟩
        obtain ⟨m, rfl⟩ : ∃ m : Nat, i = m := ⟨i.toNat, by omega⟩
        have hm : m < ds.length := by omega
        refine (hy.one H ((hgates m hm).1 (Or.inl (by omega))) (by simp)
            (S' := fun q => decide ((q : Int) > (m : Int) - 1)) (by simp)
            (fun q hq _ => by simp only [decide_eq_decide]; omega) (by simp) ).cast (fun _ => rfl) (by omega) ?_
        rw [hnc]; omega) (ds.length + 1) (k - 1) _ (by push_cast; omega)
        ⟨by omega, by omega, h2.cast (fun q => by simp only [decide_eq_decide]; omega) (by omega) (by omega)⟩
    refine ⟨_, fun p hp _ => by simp only [decide_eq_true_eq]; omega, (h3.cast (fun _ => rfl) (by omega) (by omega)).out⟩


end
end MPS.Trotter
