import Verif.ObcLemmas2
import Verif.Props.MinimizerProps3

/-!
# Sweeps of `simplify_obc`
-/

set_option linter.unusedSectionVars false

namespace MPS.Obc
open MPS Tensor Form Minim
variable {K : Type} [RCLike K]

/-- the start of a sweep -/
def AtStart (ds : List Nat) (w : List K) (Q : List (List (Tensor K))) (x : Sim K) : Prop :=
  (x.s = ⟨0, 0, (ds.length : Int) - 1, 1⟩ ∧ LCent ds w Q x.P x.lf 0) ∨
  (x.s = ⟨(ds.length : Int) - 1, (ds.length : Int) - 1, 0, -1⟩ ∧ LCent ds w Q x.P x.lf (ds.length - 1))

/-- what a sweep achieves -/
structure Swept (ds : List Nat) (w : List K) (Q : List (List (Tensor K))) (D : Nat) (x y : Sim K) : Prop where
  s : y.s = { x.s with k := x.s.kN }
  cent : LCent ds w Q y.P y.lf y.s.k.toNat
  dist : distTo ds (superpose w Q) y.P + x.lost ≤ distTo ds (superpose w Q) x.P + y.lost
  lost : x.lost ≤ y.lost
  best : Best ds (superpose w Q) y.P y.s.k.toNat
  bonds : ∀ j, j + 1 < ds.length → BondOk D (site y.P j)

theorem Sweep_trans {ds : List Nat} {w : List K} {Q : List (List (Tensor K))} {D : Nat} {x y z : Sim K} (h : Swept ds w Q D y z)
    (hs : y.s = { x.s with k := y.s.k }) (hd : distTo ds (superpose w Q) y.P + x.lost ≤ distTo ds (superpose w Q) x.P + y.lost)
    (hl : x.lost ≤ y.lost) : Swept ds w Q D x z := by
  refine ⟨?_, h.cent, ?_, ?_, h.best, h.bonds⟩
  · rw [h.s, hs]
  · have := h.dist; linarith
  · have := h.lost; linarith

theorem single_step' {svd : Tensor K → SvdRes K} (hg : GoodSvd svd) (eps : ℝ) {dflt : ℝ} (hd0 : 0 < dflt) {ds : List Nat} {w : List K}
    {Q : List (List (Tensor K))} (hne : Q ≠ []) (hQ : ∀ b ∈ Q, WF 1 b ds 1) {P : List (Tensor K)} {lf : LForm K} {k : Nat}
    (hc : LCent ds w Q P lf k) (step : Int) :
    ∃ P' lost, setCanonical svd eps dflt P k (conj lf.singleSiteVector) step true = (P', lost) ∧
    LCent ds w Q P' (lf.propagate (site P' k) step) (nextCentre ds.length step k) ∧
    distTo ds (superpose w Q) P' ≤ distTo ds (superpose w Q) P + lost ∧ 0 ≤ lost ∧
    (nextCentre ds.length step k = k → Best ds (superpose w Q) P' k) :=
  ⟨_, _, rfl, single_step hg eps hd0 hne hQ hc step⟩

theorem single_right {svd : Tensor K → SvdRes K} (hg : GoodSvd svd) (eps : ℝ) {dflt : ℝ} (hd0 : 0 < dflt) {ds : List Nat} {w : List K}
    {Q : List (List (Tensor K))} (hne : Q ≠ []) (hQ : ∀ b ∈ Q, WF 1 b ds 1) (fuel : Nat) {k : Nat} (hfuel : k + fuel + 1 = ds.length)
    {x : Sim K} (hs : x.s = ⟨k, 0, (ds.length : Int) - 1, 1⟩) (hc : LCent ds w Q x.P x.lf k) :
    ∃ y, singleSweep svd eps dflt (fuel + 1) x = some y ∧ Swept ds w Q 0 x y := by
  induction fuel generalizing k x with
  | zero =>
    obtain ⟨P', lost, b1, a1, a2, a3, a4⟩ := single_step' hg eps hd0 hne hQ hc 1
    have e : nextCentre ds.length 1 k = k := by simp [nextCentre]; omega
    rw [e] at a1
    have hd : x.s.dec = (false, x.s) := by simp only [Sweeper.dec, hs]; rw [if_pos (by omega)]
    have hk : x.s.k.toNat = k := by rw [hs]; simp
    have hdk : x.s.dk = 1 := by rw [hs]
    rw [singleSweep, hd, hk, hdk, b1]
    simp only
    refine ⟨_, rfl, ⟨?_, ?_, ?_, ?_, ?_, fun j _ h => absurd h (by omega)⟩⟩
    · rw [hs]; simp; omega
    · simpa only [hk] using a1
    · simp only; linarith
    · simp only; linarith
    · simpa only [hk] using a4 e
  | succ fuel ih =>
    obtain ⟨P', lost, b1, a1, a2, a3, a4⟩ := single_step' hg eps hd0 hne hQ hc 1
    have e : nextCentre ds.length 1 k = k + 1 := by simp [nextCentre]; omega
    rw [e] at a1
    have hd : x.s.dec = (true, ⟨((k + 1 : Nat) : Int), 0, (ds.length : Int) - 1, 1⟩) := by
      simp only [Sweeper.dec, hs]; rw [if_neg (by omega)]; simp
    have hk : x.s.k.toNat = k := by rw [hs]; simp
    have hdk : x.s.dk = 1 := by rw [hs]
    rw [singleSweep, hd, hk, hdk, b1]
    simp only
    obtain ⟨y, h1, h2⟩ := ih (k := k + 1) (by omega)
      (x := ⟨P', x.lf.propagate (site P' k) 1, ⟨((k + 1 : Nat) : Int), 0, (ds.length : Int) - 1, 1⟩, x.lost + lost⟩) rfl a1
    refine ⟨y, h1, Sweep_trans h2 ?_ ?_ ?_⟩
    · rw [hs]
    · simp only; linarith
    · simp only; linarith

theorem single_left {svd : Tensor K → SvdRes K} (hg : GoodSvd svd) (eps : ℝ) {dflt : ℝ} (hd0 : 0 < dflt) {ds : List Nat} {w : List K}
    {Q : List (List (Tensor K))} (hne : Q ≠ []) (hQ : ∀ b ∈ Q, WF 1 b ds 1) {k : Nat}
    {x : Sim K} (hs : x.s = ⟨k, (ds.length : Int) - 1, 0, -1⟩) (hc : LCent ds w Q x.P x.lf k) :
    ∃ y, singleSweep svd eps dflt (k + 1) x = some y ∧ Swept ds w Q 0 x y := by
  induction k generalizing x with
  | zero =>
    obtain ⟨P', lost, b1, a1, a2, a3, a4⟩ := single_step' hg eps hd0 hne hQ hc (-1)
    have e : nextCentre ds.length (-1) 0 = 0 := by simp [nextCentre]
    rw [e] at a1
    have hd : x.s.dec = (false, x.s) := by simp only [Sweeper.dec, hs]; rw [if_pos (by omega)]
    have hk : x.s.k.toNat = 0 := by rw [hs]; simp
    have hdk : x.s.dk = -1 := by rw [hs]
    rw [singleSweep, hd, hk, hdk, b1]
    simp only
    refine ⟨_, rfl, ⟨?_, ?_, ?_, ?_, ?_, fun j _ h => absurd h (by omega)⟩⟩
    · rw [hs]; simp
    · simpa only [hk] using a1
    · simp only; linarith
    · simp only; linarith
    · simpa only [hk] using a4 e
  | succ k ih =>
    obtain ⟨P', lost, b1, a1, a2, a3, a4⟩ := single_step' hg eps hd0 hne hQ hc (-1)
    have e : nextCentre ds.length (-1) (k + 1) = k := by simp [nextCentre]
    rw [e] at a1
    have hd : x.s.dec = (true, ⟨(k : Int), (ds.length : Int) - 1, 0, -1⟩) := by
      simp only [Sweeper.dec, hs]; rw [if_neg (by omega)]; simp
    have hk : x.s.k.toNat = k + 1 := by rw [hs]; simp only; omega
    have hdk : x.s.dk = -1 := by rw [hs]
    rw [singleSweep, hd, hk, hdk, b1]
    simp only
    obtain ⟨y, h1, h2⟩ := ih
      (x := ⟨P', x.lf.propagate (site P' (k + 1)) (-1), ⟨(k : Int), (ds.length : Int) - 1, 0, -1⟩, x.lost + lost⟩) rfl a1
    refine ⟨y, h1, Sweep_trans h2 ?_ ?_ ?_⟩
    · rw [hs]
    · simp only; linarith
    · simp only; linarith

theorem single_sweep {svd : Tensor K → SvdRes K} (hg : GoodSvd svd) (eps : ℝ) {dflt : ℝ} (hd0 : 0 < dflt) {ds : List Nat} {w : List K}
    {Q : List (List (Tensor K))} (hne : Q ≠ []) (hQ : ∀ b ∈ Q, WF 1 b ds 1) {x : Sim K} (hx : AtStart ds w Q x) :
    ∃ y, singleSweep svd eps dflt ds.length x = some y ∧ Swept ds w Q 0 x y := by
  obtain ⟨hs, hc⟩ | ⟨hs, hc⟩ := hx
  · have := hc.lt
    obtain ⟨n, hn⟩ : ∃ n, ds.length = n + 1 := ⟨ds.length - 1, by omega⟩
    have := single_right hg eps hd0 hne hQ n (k := 0) (by omega) hs hc
    rwa [← hn] at this
  · have := hc.lt
    have := single_left hg eps hd0 hne hQ (k := ds.length - 1) (by rw [hs]; simp; omega) hc
    rwa [show ds.length - 1 + 1 = ds.length by omega] at this

theorem two_right {svd : Tensor K → SvdRes K} (hg : GoodSvd svd) (eps : ℝ) {dflt : ℝ} (hd0 : 0 < dflt) {ds : List Nat} {w : List K}
    {Q : List (List (Tensor K))} (hne : Q ≠ []) (hQ : ∀ b ∈ Q, WF 1 b ds 1) (D : Nat) {tol : ℝ} (htol : tol ≠ 0) (fuel : Nat) {k : Nat}
    (hfuel : k + fuel + 2 = ds.length) {x : Sim K} (hs : x.s = ⟨k, 0, (ds.length : Int) - 1, 1⟩) (hc : LCent ds w Q x.P x.lf k)
    (hb : ∀ j < k, BondOk D (site x.P j)) :
    ∃ y, twoSweep svd eps dflt D tol (fuel + 2) x = some y ∧ Swept ds w Q D x y := by
  have hp : pairOf 1 k = k := by simp [pairOf]
  induction fuel generalizing k x with
  | zero =>
    obtain ⟨v, P', lost, b1, b2, a1, a2, a3, a4, a5, a6⟩ := two_step hg eps hd0 hne hQ hc 1 hp (by omega) (Or.inl (by decide)) D htol
    have e : nextCentre ds.length 1 k = k + 1 := by simp [nextCentre]; omega
    rw [e] at a1 a4
    have hd : x.s.dec = (true, ⟨((k + 1 : Nat) : Int), 0, (ds.length : Int) - 1, 1⟩) := by
      simp only [Sweeper.dec, hs]; rw [if_neg (by omega)]; simp
    have hk : x.s.k = k := by rw [hs]
    have hdk : x.s.dk = 1 := by rw [hs]
    rw [twoSweep, hd, hk, hdk, b1, Option.bind_some, b2, Option.bind_some]
    simp only
    rw [if_pos (by simp [Sweeper.isLast]; omega)]
    refine ⟨_, rfl, ⟨?_, ?_, ?_, ?_, ?_, ?_⟩⟩
    · rw [hs]; simp; omega
    · simpa using a1
    · simp only; linarith
    · simp only; linarith
    · simpa using a4
    · intro j hj
      by_cases hjk : j = k
      · rw [hjk]; exact a6
      · simp only; rw [a5 j hjk (by omega)]; exact hb j (by omega)
  | succ fuel ih =>
    obtain ⟨v, P', lost, b1, b2, a1, a2, a3, a4, a5, a6⟩ := two_step hg eps hd0 hne hQ hc 1 hp (by omega) (Or.inl (by decide)) D htol
    have e : nextCentre ds.length 1 k = k + 1 := by simp [nextCentre]; omega
    rw [e] at a1 a4
    have hd : x.s.dec = (true, ⟨((k + 1 : Nat) : Int), 0, (ds.length : Int) - 1, 1⟩) := by
      simp only [Sweeper.dec, hs]; rw [if_neg (by omega)]; simp
    have hk : x.s.k = k := by rw [hs]
    have hdk : x.s.dk = 1 := by rw [hs]
    rw [twoSweep, hd, hk, hdk, b1, Option.bind_some, b2, Option.bind_some]
    simp only
    rw [if_neg (by simp [Sweeper.isLast]; omega)]
    obtain ⟨y, h1, h2⟩ := ih (k := k + 1) (by omega) (x := ⟨P', x.lf.propagate (site P' k) 1, ⟨((k + 1 : Nat) : Int), 0, (ds.length : Int) - 1, 1⟩, x.lost + lost⟩) rfl a1
      (by
        intro j hj
        by_cases hjk : j = k
        · rw [hjk]; exact a6
        · simp only; rw [a5 j hjk (by omega)]; exact hb j (by omega)) (by simp [pairOf])
    refine ⟨y, h1, Sweep_trans h2 ?_ ?_ ?_⟩
    · rw [hs]
    · simp only; linarith
    · simp only; linarith

theorem two_left {svd : Tensor K → SvdRes K} (hg : GoodSvd svd) (eps : ℝ) {dflt : ℝ} (hd0 : 0 < dflt) {ds : List Nat} {w : List K}
    {Q : List (List (Tensor K))} (hne : Q ≠ []) (hQ : ∀ b ∈ Q, WF 1 b ds 1) (D : Nat) {tol : ℝ} (htol : tol ≠ 0) {k : Nat}
    {x : Sim K} (hs : x.s = ⟨((k + 1 : Nat) : Int), (ds.length : Int) - 1, 0, -1⟩) (hc : LCent ds w Q x.P x.lf (k + 1))
    (hb : ∀ j, k < j → j + 1 < ds.length → BondOk D (site x.P j)) :
    ∃ y, twoSweep svd eps dflt D tol (k + 2) x = some y ∧ Swept ds w Q D x y := by
  have bonds : ∀ {p : Nat} {P P' : List (Tensor K)}, WF 1 P ds 1 → WF 1 P' ds 1 → p + 1 < ds.length →
      (∀ j, p < j → j + 1 < ds.length → BondOk D (site P j)) → (∀ j, j ≠ p → j ≠ p + 1 → site P' j = site P j) → BondOk D (site P' p) →
      ∀ j, p ≤ j → j + 1 < ds.length → BondOk D (site P' j) := by
    intro p P P' h h' hp1 hb ho hp j hj hj2
    by_cases hjk : j = p
    · rw [hjk]; exact hp
    · by_cases hj1 : j = p + 1
      · obtain ⟨a, c, b, k1, k2, k3, k4, -⟩ := WF.aroundPair h (p := p) (by omega)
        obtain ⟨g, g1, g2, g3, g4⟩ := chain_dims h' h (p := p) (by omega) ho k1 k4
        have := hb j (by omega) hj2
        intro hD
        rw [hj1, dim2_of g2, ← dim2_of k3, ← hj1]
        exact this hD
      · rw [ho j hjk (by omega)]; exact hb j (by omega) hj2
  induction k generalizing x with
  | zero =>
    have hlt := hc.lt
    obtain ⟨v, P', lost, b1, b2, a1, a2, a3, a4, a5, a6⟩ := two_step hg eps hd0 hne hQ hc (-1) (p := 0) (by simp [pairOf]) (by omega)
      (Or.inr (by omega)) D htol
    have e : nextCentre ds.length (-1) (0 + 1) = 0 := by simp [nextCentre]
    rw [e] at a1 a4
    have hd : x.s.dec = (true, ⟨0, (ds.length : Int) - 1, 0, -1⟩) := by
      simp only [Sweeper.dec, hs]; rw [if_neg (by omega)]; simp
    have hk : x.s.k = ((0 + 1 : Nat) : Int) := by rw [hs]
    have hdk : x.s.dk = -1 := by rw [hs]
    rw [twoSweep, hd, hk, hdk, b1, Option.bind_some, b2, Option.bind_some]
    simp only
    rw [if_pos (by simp [Sweeper.isLast])]
    refine ⟨_, rfl, ⟨?_, ?_, ?_, ?_, ?_, ?_⟩⟩
    · rw [hs]
    · simpa using a1
    · simp only; linarith
    · simp only; linarith
    · simpa using a4
    · intro j hj
      exact bonds hc.wf a1.wf (by omega) hb a5 a6 j (by omega) hj
  | succ k ih =>
    have hlt := hc.lt
    obtain ⟨v, P', lost, b1, b2, a1, a2, a3, a4, a5, a6⟩ := two_step hg eps hd0 hne hQ hc (-1) (p := k + 1) (by simp [pairOf]) (by omega)
      (Or.inr (by omega)) D htol
    have e : nextCentre ds.length (-1) (k + 1 + 1) = k + 1 := by simp [nextCentre]
    rw [e] at a1 a4
    have hd : x.s.dec = (true, ⟨((k + 1 : Nat) : Int), (ds.length : Int) - 1, 0, -1⟩) := by
      simp only [Sweeper.dec, hs]; rw [if_neg (by omega)]; simp
    have hk : x.s.k = ((k + 1 + 1 : Nat) : Int) := by rw [hs]
    have hdk : x.s.dk = -1 := by rw [hs]
    rw [twoSweep, hd, hk, hdk, b1, Option.bind_some, b2, Option.bind_some]
    simp only
    rw [if_neg (by simp [Sweeper.isLast]; omega)]
    obtain ⟨y, h1, h2⟩ := ih (x := ⟨P', x.lf.propagate (site P' (k + 1 + 1)) (-1), ⟨((k + 1 : Nat) : Int), (ds.length : Int) - 1, 0, -1⟩, x.lost + lost⟩) rfl a1
      (fun j hj hj2 => bonds hc.wf a1.wf (by omega) hb a5 a6 j (by omega) hj2)
    refine ⟨y, h1, Sweep_trans h2 ?_ ?_ ?_⟩
    · rw [hs]
    · simp only; linarith
    · simp only; linarith

theorem two_sweep {svd : Tensor K → SvdRes K} (hg : GoodSvd svd) (eps : ℝ) {dflt : ℝ} (hd0 : 0 < dflt) {ds : List Nat} {w : List K}
    {Q : List (List (Tensor K))} (hne : Q ≠ []) (hQ : ∀ b ∈ Q, WF 1 b ds 1) (D : Nat) {tol : ℝ} (htol : tol ≠ 0) (hN : 2 ≤ ds.length)
    {x : Sim K} (hx : AtStart ds w Q x) :
    ∃ y, twoSweep svd eps dflt D tol ds.length x = some y ∧ Swept ds w Q D x y := by
  obtain ⟨n, hn⟩ : ∃ n, ds.length = n + 2 := ⟨ds.length - 2, by omega⟩
  obtain ⟨hs, hc⟩ | ⟨hs, hc⟩ := hx
  · have := two_right hg eps hd0 hne hQ D htol n (k := 0) (by omega) hs hc (by intro j hj; omega)
    rwa [← hn] at this
  · have := two_left hg eps hd0 hne hQ D htol (k := n) (by rw [hs]; simp; omega) (by rwa [show ds.length - 1 = n + 1 by omega] at hc)
      (by intro j hj hj2; omega)
    rwa [← hn] at this

end MPS.Obc
