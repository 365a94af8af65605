import Verif.SolveLemmas8

/-!
# Sweeps of the two-site version of `solve`
-/

set_option linter.unusedSectionVars false
set_option linter.unusedSimpArgs false

namespace MPS.Solve
open MPS Tensor Form Minim Obc
variable {K : Type} [RCLike K]

/-- the solution of the last local problem, `p` is the first site of the pair -/
structure Final (ds : List Nat) (H G : List (Tensor K)) (cgs : Cgs K) (y : St K) (p a b : Nat) (lost : ℝ) : Prop where
  gap : Simp.Gap2 ds y.P p a b
  vdims : y.vP.dims = pairDims ds p a b
  val : tscprod y.vHQ y.vP = MPS.inner ds (amp G) (pairWave ds y.P p a b y.vP.get)
  dist : sumCfg ds (fun s => ‖pairWave ds y.P p a b y.vP.get s - amp y.P s‖ ^ 2) ≤ lost
  best : IdealCgs cgs → (∀ x ∈ ds, 0 < x) → ∀ q, Target ds H (amp G) q → ∀ Y,
    resOf ds H q (pairWave ds y.P p a b y.vP.get) ≤ resOf ds H q (pairWave ds y.P p a b Y)

theorem Stepped2.final {ds : List Nat} {H HH G : List (Tensor K)} {cgs : Cgs K} {Dmax : Nat} {x y : St K} {k p : Nat} {Q : List (Tensor K)} {a b g : Nat}
    {lost lost2 : ℝ} (h : Stepped2 ds H HH G cgs Dmax x y k p Q a b g lost lost2) (hR : y.P = Q) (hlo : ∀ j < p, LeftIso (site x.P j))
    (hhi : ∀ j, p + 1 < j → j < ds.length → RightIso (site x.P j)) : Final ds H G cgs y p a b (y.lost - x.lost) := by
  have hp1 := h.gap.lt
  have hxl := h.gap.len
  have hyl : y.P.length = ds.length := h.stored.wfR.length
  have hsame : ∀ j, j ≠ p → j ≠ p + 1 → site y.P j = site x.P j := by
    rw [hR]; exact h.stored.site hxl hp1
  have hwave : pairWave ds y.P p a b = pairWave ds x.P p a b := by
    funext Y; unfold pairWave; rw [setPair_congr (by omega) (by omega) hsame]
  refine ⟨gap_congr (by omega) h.gap hsame, h.vdims, by rw [hwave]; exact h.val, ?_, by rw [hwave]; exact h.best⟩
  have e : sumCfg ds (fun s => ‖pairWave ds y.P p a b y.vP.get s - amp y.P s‖ ^ 2) = lost := by
    rw [hwave, ← h.stored.lost]
    have := pair_dist (A := factL a (ds.getD p 0) (ds.getD (p + 1) 0) b y.vP.get) (B := factR (ds.getD (p + 1) 0) b) (A' := site Q p) (B' := site Q (p + 1))
      h.gap.wl rfl rfl h.stored.first h.stored.second
      ⟨h.gap.pa, h.gap.pd, Nat.mul_pos h.gap.pd' h.gap.pb, h.stored.pos, h.gap.pd', h.gap.pb⟩ h.gap.wr (iso_take hlo)
      (iso_drop fun j hj hj2 => hhi j (by omega) (by omega))
    rw [← ds_pair hp1, ← setPair_eq (by omega), ← setPair_eq (by omega), ← h.stored.eq] at this
    unfold pairWave
    rw [hR, this]
    exact sumCfg_congr fun I hI => by rw [joined_fact _ hI]
  rw [e]
  have := h.lost2_nonneg
  have := h.lost_eq
  linarith

/-- a two-site sweep -/
structure Swept2 (ds : List Nat) (H HH G : List (Tensor K)) (cgs : Cgs K) (D : Nat) (x y : St K) : Prop where
  s : y.s = { x.s with k := x.s.kN }
  cent : Cent ds HH G y y.s.k.toNat
  lost : x.lost ≤ y.lost
  fin : ∃ a b, Final ds H G cgs y (y.s.k.toNat - 1) a b (y.lost - x.lost)
  iso : if x.s.dk > 0 then ∀ j, j + 1 < ds.length → LeftIso (site y.P j) else ∀ j, 0 < j → j < ds.length → RightIso (site y.P j)
  mono : DescentCgs cgs → ∀ q, Target ds H (amp G) q → y.lost = x.lost → residual ds H q y.P ≤ residual ds H q x.P
  bond : 0 < D → ∀ j, j + 1 < ds.length → (site y.P j).dim 2 ≤ D

theorem Stepped2.lost_le {ds : List Nat} {H HH G : List (Tensor K)} {cgs : Cgs K} {Dmax : Nat} {x y : St K} {k p : Nat} {Q : List (Tensor K)} {a b g : Nat}
    {lost lost2 : ℝ} (h : Stepped2 ds H HH G cgs Dmax x y k p Q a b g lost lost2) : x.lost ≤ y.lost := by
  have := h.lost2_nonneg
  have := h.lost_eq
  have := h.stored.lost_nonneg
  linarith

theorem Stepped2.mono {ds : List Nat} {H HH G : List (Tensor K)} {cgs : Cgs K} {Dmax : Nat} {x y : St K} {k p : Nat} {Q : List (Tensor K)} {a b g : Nat}
    {lost lost2 : ℝ} (h : Stepped2 ds H HH G cgs Dmax x y k p Q a b g lost lost2) (hd : DescentCgs cgs) {q : List Nat → K} (hq : Target ds H (amp G) q)
    (h0 : y.lost = x.lost) : residual ds H q y.P ≤ residual ds H q x.P := by
  refine le_trans (le_of_eq ?_) (h.descent hd q hq)
  rw [residual_eq]
  exact resOf_congr (h.exact h0)

theorem two_right {svd : Tensor K → SvdRes K} (hg : GoodSvd svd) (eps : ℝ) {dflt : ℝ} (hd0 : 0 < dflt) {cgs : Cgs K} (hsz : SizedCgs cgs)
    {ds : List Nat} {H HH G : List (Tensor K)} (hHH : WFO 1 HH ds 1) (hsq : IsSquare ds H HH) (hG : WF 1 G ds 1) (D : Nat) {tol : ℝ} (htol : tol ≠ 0)
    (fuel : Nat) {k : Nat} (hfuel : k + fuel + 2 = ds.length) {m : Nat} (hm : fuel + 1 ≤ m)
    {x y : St K} {C : List (Tensor K)} (hs : x.s = ⟨k, 0, (ds.length : Int) - 1, 1⟩) (hc : Shadow ds HH G x C k) (hiso : ∀ j < k, LeftIso (site x.P j))
    (hbond : 0 < D → ∀ j < k, (site x.P j).dim 2 ≤ D) (hrun : twoSweep svd eps dflt cgs D tol m x = some y) : Swept2 ds H HH G cgs D x y := by
  induction fuel generalizing k x C m with
  | zero =>
    obtain ⟨m, rfl⟩ : ∃ m', m = m' + 1 := ⟨m - 1, by omega⟩
    have hdk : x.s.dk = 1 := by rw [hs]
    rw [twoSweep] at hrun
    obtain ⟨z, h1, h2⟩ := Option.bind_eq_some_iff.1 hrun
    obtain ⟨Q, a, b, g, lost, lost2, st⟩ := two_step hg eps hd0 hsz hHH hsq hG D htol hc (by rw [hs]) (p := k) (by simp [pairOf, hdk]) (by omega)
      (Or.inl (by rw [hdk]; decide)) h1
    have hd : z.s.dec.2 = ⟨((k + 1 : Nat) : Int), 0, (ds.length : Int) - 1, 1⟩ := by
      rw [st.s]; simp only [Sweeper.dec, hs]; rw [if_neg (by omega)]; simp
    simp only [hd] at h2
    rw [if_pos (by simp [Sweeper.isLast]; omega), Option.some.injEq] at h2
    subst h2
    have af := st.stored.after
    rw [hdk, if_pos (by decide)] at af
    have hR : z.P = Q := af.2 (by omega)
    have e : nextCentre ds.length x.s.dk k = k + 1 := by simp [nextCentre, hdk]; omega
    have hcent := st.cent
    rw [e, ← hR] at hcent
    have fin := st.final hR hiso (fun j h1 h2 => by omega)
    have hi := st.stored.iso
    rw [hdk, if_pos (by decide), ← hR] at hi
    refine ⟨by simp only; rw [hs]; simp; omega, ⟨by simp only; omega, hcent.wf, ?_, ?_⟩, st.lost_le, ⟨a, b, ?_⟩, ?_, ?_, ?_⟩
    · simpa using hcent.l
    · simpa using hcent.q
    · have : ((⟨((k + 1 : Nat) : Int), 0, (ds.length : Int) - 1, 1⟩ : Sweeper).k.toNat - 1) = k := by simp
      simp only [this]
      exact ⟨fin.gap, fin.vdims, fin.val, fin.dist, fin.best⟩
    · rw [hdk, if_pos (by decide)]
      intro j hj
      simp only
      by_cases hjk : j = k
      · rw [hjk]; exact hi
      · rw [hR, st.stored.site hc.wf.length (by omega) j hjk (by omega)]
        exact hiso j (by omega)
    · intro ho q hq h0
      exact st.mono ho hq h0
    · intro hD j hj
      simp only
      by_cases hjk : j = k
      · rw [hjk, hR, dim2_of st.stored.first]; exact st.stored.bond hD
      · rw [hR, st.stored.site hc.wf.length (by omega) j hjk (by omega)]
        exact hbond hD j (by omega)
  | succ fuel ih =>
    obtain ⟨m, rfl⟩ : ∃ m', m = m' + 1 := ⟨m - 1, by omega⟩
    have hdk : x.s.dk = 1 := by rw [hs]
    rw [twoSweep] at hrun
    obtain ⟨z, h1, h2⟩ := Option.bind_eq_some_iff.1 hrun
    obtain ⟨Q, a, b, g, lost, lost2, st⟩ := two_step hg eps hd0 hsz hHH hsq hG D htol hc (by rw [hs]) (p := k) (by simp [pairOf, hdk]) (by omega)
      (Or.inl (by rw [hdk]; decide)) h1
    have hd : z.s.dec.2 = ⟨((k + 1 : Nat) : Int), 0, (ds.length : Int) - 1, 1⟩ := by
      rw [st.s]; simp only [Sweeper.dec, hs]; rw [if_neg (by omega)]; simp
    simp only [hd] at h2
    rw [if_neg (by simp [Sweeper.isLast]; omega)] at h2
    have af := st.stored.after
    rw [hdk, if_pos (by decide)] at af
    have e : nextCentre ds.length x.s.dk k = k + 1 := by simp [nextCentre, hdk]; omega
    have hcent := st.cent
    rw [e] at hcent
    have hi := st.stored.iso
    rw [hdk, if_pos (by decide), ← af.1 k (by omega) (by omega)] at hi
    have hz : ∀ j < k, site z.P j = site x.P j := fun j hj => by
      rw [af.1 j (by omega) (by omega), st.stored.site hc.wf.length (by omega) j (by omega) (by omega)]
    have r := ih (k := k + 1) (by omega) (m := m) (by omega) (x := { z with s := ⟨((k + 1 : Nat) : Int), 0, (ds.length : Int) - 1, 1⟩ }) (C := Q) rfl
      ⟨⟨hcent.lt, hcent.wf, hcent.l, hcent.q⟩, st.stored.wfR, fun j h1 h2 => (af.1 j (by simpa [pairOf] using h1) (by simpa [pairOf] using h2)).symm⟩
      (by
        intro j hj
        by_cases hjk : j = k
        · rw [hjk]; exact hi
        · simp only; rw [hz j (by omega)]; exact hiso j (by omega))
      (by
        intro hD j hj
        simp only
        by_cases hjk : j = k
        · rw [hjk, af.1 k (by omega) (by omega), dim2_of st.stored.first]; exact st.stored.bond hD
        · rw [hz j (by omega)]; exact hbond hD j (by omega)) h2
    obtain ⟨r1, r2, r3, ⟨a', b', r4⟩, r5, r6, r7⟩ := r
    simp only at r1 r3 r5 r6 r4
    have l1 := st.lost_le
    refine ⟨by rw [r1, hs], r2, le_trans l1 r3, ⟨a', b', ⟨r4.gap, r4.vdims, r4.val, le_trans r4.dist (by linarith), r4.best⟩⟩, by rw [hdk]; exact r5, ?_, r7⟩
    intro ho q hq h0
    exact le_trans (r6 ho q hq (by linarith)) (st.mono ho hq (by linarith))

theorem two_left {svd : Tensor K → SvdRes K} (hg : GoodSvd svd) (eps : ℝ) {dflt : ℝ} (hd0 : 0 < dflt) {cgs : Cgs K} (hsz : SizedCgs cgs)
    {ds : List Nat} {H HH G : List (Tensor K)} (hHH : WFO 1 HH ds 1) (hsq : IsSquare ds H HH) (hG : WF 1 G ds 1) (D : Nat) {tol : ℝ} (htol : tol ≠ 0)
    {k : Nat} (hk : k + 1 < ds.length) {m : Nat} (hm : k + 1 ≤ m)
    {x y : St K} {C : List (Tensor K)} (hs : x.s = ⟨((k + 1 : Nat) : Int), (ds.length : Int) - 1, 0, -1⟩) (hc : Shadow ds HH G x C (k + 1))
    (hiso : ∀ j, k + 1 < j → j < ds.length → RightIso (site x.P j))
    (hbond : 0 < D → ∀ j, k + 1 < j → j < ds.length → (site x.P j).dim 0 ≤ D) (hrun : twoSweep svd eps dflt cgs D tol m x = some y) :
    Swept2 ds H HH G cgs D x y := by
  induction k generalizing x C m with
  | zero =>
    obtain ⟨m, rfl⟩ : ∃ m', m = m' + 1 := ⟨m - 1, by omega⟩
    have hdk : x.s.dk = -1 := by rw [hs]
    rw [twoSweep] at hrun
    obtain ⟨z, h1, h2⟩ := Option.bind_eq_some_iff.1 hrun
    obtain ⟨Q, a, b, g, lost, lost2, st⟩ := two_step hg eps hd0 hsz hHH hsq hG D htol hc (by rw [hs]) (p := 0) (by simp [pairOf, hdk]) (by omega)
      (Or.inr (by omega)) h1
    have hd : z.s.dec.2 = ⟨((0 : Nat) : Int), (ds.length : Int) - 1, 0, -1⟩ := by
      rw [st.s]; simp only [Sweeper.dec, hs]; rw [if_neg (by omega)]; simp
    simp only [hd] at h2
    rw [if_pos (by simp [Sweeper.isLast]), Option.some.injEq] at h2
    subst h2
    have af := st.stored.after
    rw [hdk, if_neg (by decide)] at af
    have hR : z.P = Q := af.2 rfl
    have e : nextCentre ds.length x.s.dk 1 = 0 := by simp [nextCentre, hdk]
    have hcent := st.cent
    rw [e, ← hR] at hcent
    have fin := st.final hR (fun j h => by omega) (fun j h1 h2 => hiso j (by omega) h2)
    have hi := st.stored.iso
    rw [hdk, if_neg (by decide), ← hR] at hi
    refine ⟨by simp only; rw [hs]; simp, ⟨by simp only; omega, hcent.wf, ?_, ?_⟩, st.lost_le, ⟨a, b, ?_⟩, ?_, ?_, ?_⟩
    · simpa using hcent.l
    · simpa using hcent.q
    · have : ((⟨((0 : Nat) : Int), (ds.length : Int) - 1, 0, -1⟩ : Sweeper).k.toNat - 1) = 0 := by simp
      simp only [this]
      exact ⟨fin.gap, fin.vdims, fin.val, fin.dist, fin.best⟩
    · rw [hdk, if_neg (by decide)]
      intro j hj hj2
      simp only
      by_cases hjk : j = 1
      · rw [hjk]; exact hi
      · rw [hR, st.stored.site hc.wf.length (by omega) j (by omega) (by omega)]
        exact hiso j (by omega) hj2
    · intro ho q hq h0
      exact st.mono ho hq h0
    · intro hD j hj
      simp only
      obtain ⟨u, w, v, -, k2, k3, -⟩ := WF.aroundPair hcent.wf hj
      by_cases hjk : j = 0
      · rw [hjk, hR, dim2_of st.stored.first]; exact st.stored.bond hD
      · have := hbond hD (j + 1) (by omega) hj
        rw [← st.stored.site hc.wf.length (by omega) (j + 1) (by omega) (by omega), ← hR, dim0_of k3] at this
        rw [dim2_of k2]; exact this
  | succ k ih =>
    obtain ⟨m, rfl⟩ : ∃ m', m = m' + 1 := ⟨m - 1, by omega⟩
    have hdk : x.s.dk = -1 := by rw [hs]
    rw [twoSweep] at hrun
    obtain ⟨z, h1, h2⟩ := Option.bind_eq_some_iff.1 hrun
    obtain ⟨Q, a, b, g, lost, lost2, st⟩ := two_step hg eps hd0 hsz hHH hsq hG D htol hc (by rw [hs]) (p := k + 1) (by simp [pairOf, hdk]) (by omega)
      (Or.inr (by omega)) h1
    have hd : z.s.dec.2 = ⟨((k + 1 : Nat) : Int), (ds.length : Int) - 1, 0, -1⟩ := by
      rw [st.s]; simp only [Sweeper.dec, hs]; rw [if_neg (by omega)]; simp
    simp only [hd] at h2
    rw [if_neg (by simp [Sweeper.isLast]; omega)] at h2
    have af := st.stored.after
    rw [hdk, if_neg (by decide)] at af
    have e : nextCentre ds.length x.s.dk (k + 1 + 1) = k + 1 := by simp [nextCentre, hdk]
    have hcent := st.cent
    rw [e] at hcent
    have hi := st.stored.iso
    rw [hdk, if_neg (by decide), ← af.1 (k + 1 + 1) (by omega) (by omega)] at hi
    have hz : ∀ j, k + 1 + 1 < j → site z.P j = site x.P j := fun j hj => by
      rw [af.1 j (by omega) (by omega), st.stored.site hc.wf.length (by omega) j (by omega) (by omega)]
    have r := ih (by omega) (m := m) (by omega) (x := { z with s := ⟨((k + 1 : Nat) : Int), (ds.length : Int) - 1, 0, -1⟩ }) (C := Q) rfl
      ⟨⟨hcent.lt, hcent.wf, hcent.l, hcent.q⟩, st.stored.wfR, fun j h1 h2 => (af.1 j (by simpa [pairOf] using h2) (by
        have : j ≠ k := by simpa [pairOf] using h1
        omega)).symm⟩
      (by
        intro j hj hj2
        by_cases hjk : j = k + 1 + 1
        · rw [hjk]; exact hi
        · simp only; rw [hz j (by omega)]; exact hiso j (by omega) hj2)
      (by
        intro hD j hj hj2
        simp only
        by_cases hjk : j = k + 1 + 1
        · rw [hjk, af.1 (k + 1 + 1) (by omega) (by omega), dim0_of st.stored.second]; exact st.stored.bond hD
        · rw [hz j (by omega)]; exact hbond hD j (by omega) hj2) h2
    obtain ⟨r1, r2, r3, ⟨a', b', r4⟩, r5, r6, r7⟩ := r
    simp only at r1 r3 r5 r6 r4
    have l1 := st.lost_le
    refine ⟨by rw [r1, hs], r2, le_trans l1 r3, ⟨a', b', ⟨r4.gap, r4.vdims, r4.val, le_trans r4.dist (by linarith), r4.best⟩⟩, by rw [hdk]; exact r5, ?_, r7⟩
    intro ho q hq h0
    exact le_trans (r6 ho q hq (by linarith)) (st.mono ho hq (by linarith))

theorem two_sweep {svd : Tensor K → SvdRes K} (hg : GoodSvd svd) (eps : ℝ) {dflt : ℝ} (hd0 : 0 < dflt) {cgs : Cgs K} (hsz : SizedCgs cgs)
    {ds : List Nat} {H HH G : List (Tensor K)} (hHH : WFO 1 HH ds 1) (hsq : IsSquare ds H HH) (hG : WF 1 G ds 1) (D : Nat) {tol : ℝ} (htol : tol ≠ 0)
    (h2 : 1 < ds.length) {x y : St K} (hx : AtStart ds HH G x) (hrun : twoSweep svd eps dflt cgs D tol ds.length x = some y) :
    Swept2 ds H HH G cgs D x y := by
  obtain ⟨hs, hc⟩ | ⟨hs, hc⟩ := hx
  · exact two_right hg eps hd0 hsz hHH hsq hG D htol (ds.length - 2) (k := 0) (by omega) (by omega) hs (C := x.P) ⟨hc, hc.wf, fun _ _ _ => rfl⟩
      (by omega) (by omega) hrun
  · have e : ds.length - 1 = ds.length - 2 + 1 := by omega
    exact two_left hg eps hd0 hsz hHH hsq hG D htol (k := ds.length - 2) (by omega) (m := ds.length) (by omega) (by rw [hs]; simp; omega) (C := x.P)
      ⟨by rw [← e]; exact hc, hc.wf, fun _ _ _ => rfl⟩ (by omega) (by omega) hrun

/-- another state that differs in the last pair, if the method of conjugate gradients converges -/
def NearTwo (cgs : Cgs K) (ds : List Nat) (P : List (Tensor K)) (k : Nat) (Z : List (Tensor K)) : Prop :=
  IdealCgs cgs ∧ WF 1 Z ds 1 ∧ ∀ j, j ≠ k - 1 → j ≠ k - 1 + 1 → site Z j = site P j

theorem two_pass {svd : Tensor K → SvdRes K} (hg : GoodSvd svd) (eps : ℝ) {dflt : ℝ} (hd0 : 0 < dflt) {cgs : Cgs K} (hsz : SizedCgs cgs)
    {ds : List Nat} {H HH G : List (Tensor K)} (hHH : WFO 1 HH ds 1) (hsq : IsSquare ds H HH) (hG : WF 1 G ds 1) (hds : ∀ x ∈ ds, 0 < x)
    (D : Nat) {tol : ℝ} (htol : tol ≠ 0) (h2 : 1 < ds.length) {x : St K} {r : St K × ℝ} (hx : AtStart ds HH G x)
    (hrun : twoPass svd eps dflt cgs D tol ds.length x = some r) :
    PassOk ds H HH G 1 D (DescentCgs cgs) (NearTwo cgs ds) x r := by
  unfold twoPass at hrun
  obtain ⟨y, h1, h3⟩ := Option.bind_eq_some_iff.1 hrun
  obtain ⟨w, h4, h5⟩ := Option.map_eq_some_iff.1 h3
  subst h5
  have sw := two_sweep hg eps hd0 hsz hHH hsq hG D htol h2 hx h1
  refine ⟨y, ?_, rfl⟩
  obtain ⟨a, b, fin⟩ := sw.fin
  -- the pair seen from the other side
  have hflip : pairOf y.s.flip.dk y.s.k.toNat = y.s.k.toNat - 1 ∧ (y.s.flip.dk > 0 ∨ 1 ≤ y.s.k.toNat) := by
    rw [sw.s]
    obtain ⟨hs, hc⟩ | ⟨hs, hc⟩ := hx
    · rw [hs]; simp [Sweeper.flip, pairOf]; omega
    · rw [hs]; simp [Sweeper.flip, pairOf]
  obtain ⟨v, M, -, -, happ, hloc, -, hemp⟩ := sw.cent.pair hHH hsq hG y.s.flip.dk hflip.1 fin.gap.lt hflip.2 fin.gap
  obtain ⟨V, e1, e2, e3⟩ := happ y.vP fin.vdims
  simp only at h4
  rw [e1, Option.some.injEq] at h4
  subst h4
  have hval : RCLike.re (tscprod y.vP V) = RCLike.re (MPS.inner ds (act ds H (pairWave ds y.P (y.s.k.toNat - 1) a b y.vP.get))
      (act ds H (pairWave ds y.P (y.s.k.toNat - 1) a b y.vP.get))) := by
    by_cases hne : M.isEmpty = true
    · rw [hemp hne]
      have hsz : V.size = 0 := by
        have := e2
        rw [hne] at this
        simpa [Tensor.isEmpty] using this
      unfold tscprod
      rw [hsz]; simp
    · have hne : M.isEmpty = false := by simpa using hne
      rw [((hloc hne).values' fin.vdims (e3 hne)).1]
  refine ⟨sw.s, sw.cent, sw.lost, ⟨_, hval, fin.val, by rw [one_mul]; exact fin.dist, ?_⟩, sw.iso, sw.mono, sw.bond⟩
  rintro q hq Z ⟨hi, hZ, hs⟩
  obtain ⟨c, c1, c2, c3, c4⟩ := chain_dims hZ sw.cent.wf fin.gap.lt hs fin.gap.wl fin.gap.wr
  refine le_trans (fin.best hi hds q hq (joined c (site Z (y.s.k.toNat - 1)) (site Z (y.s.k.toNat - 1 + 1)))) (le_of_eq ?_)
  rw [residual_eq]
  refine resOf_congr fun s hs => ?_
  rw [pairWave_eq fin.gap c3 c1 c2 (fun _ _ => rfl) s hs, ← c4]

end MPS.Solve
