import Verif.SolveLemmas9

/-!
# The sweeps of the two-site version of `solve` do not abort
-/

set_option linter.unusedSectionVars false
set_option linter.unusedSimpArgs false

namespace MPS.Solve
open MPS Tensor Form Minim Obc
variable {K : Type} [RCLike K]

theorem two_step_runs {svd : Tensor K → SvdRes K} (hg : GoodSvd svd) (eps : ℝ) {dflt : ℝ} (hd0 : 0 < dflt) {cgs : Cgs K} (hsz : SizedCgs cgs)
    {ds : List Nat} {H HH G : List (Tensor K)} (hHH : WFO 1 HH ds 1) (hnz : NonZero ds HH) (hsq : IsSquare ds H HH) (hG : WF 1 G ds 1) (Dmax : Nat)
    {tol : ℝ} (htol : tol ≠ 0) {x : St K} {k p : Nat} {C : List (Tensor K)} (hc : Shadow ds HH G x C k) (hk : x.s.k = k) (hp : pairOf x.s.dk k = p)
    (hp1 : p + 1 < ds.length) (hk1 : x.s.dk > 0 ∨ 1 ≤ k) : ∃ y, twoStep svd eps dflt cgs Dmax tol x = some y := by
  obtain ⟨hcent, hw, hsame⟩ := hc
  rw [hp] at hsame
  have hkn : x.s.k.toNat = k := by rw [hk]; simp
  have hlen := hw.length
  have hCl : C.length = x.P.length := by rw [hlen]; exact hcent.wf.length
  obtain ⟨a, b, c, gap, c0, hA, hB⟩ := Simp.Gap2.of_WF hw hp1
  have gapC : Simp.Gap2 ds C p a b := gap_congr hCl gap hsame
  obtain ⟨v, M, v1, v2, happ, -, hM, -⟩ := hcent.pair hHH hsq hG x.s.dk hp hp1 hk1 gapC
  have hguess : (if x.s.dk > 0 then fold (site x.P k) (-1) (site x.P (k + 1)) 0 else fold (site x.P (k - 1)) (-1) (site x.P k) 0) =
      fold (site x.P p) (-1) (site x.P (p + 1)) 0 := by
    unfold pairOf at hp
    split_ifs at hp ⊢ with h
    · rw [hp]
    · rw [hp, show k = p + 1 by omega]
  obtain ⟨f1, -⟩ := Simp.fold_pair hA hB
  obtain ⟨V0, e1, e2, -⟩ := happ _ f1
  have hfirst : Props.firstSite x.s.k x.s.dk = p := by
    unfold Props.firstSite
    unfold pairOf at hp
    rw [hk]
    split_ifs at hp ⊢ with h
    · rw [hp]
    · have := hk1.resolve_left h; omega
  unfold twoStep
  simp only [v1, Option.bind_some, hkn, hguess, e1, Option.getD_some, e2, hM hnz, Bool.false_eq_true, if_false]
  set X := cgs (fun y => (x.qf.applyTwoSite y x.s.dk).getD Tensor.empty) (conj v) (fold (site x.P p) (-1) (site x.P (p + 1)) 0) (2 * (conj v).size) tol with hX
  have hXd : X.dims = pairDims ds p a b := by rw [hX, hsz]; exact f1
  obtain ⟨Q, R, lost, lost2, g, s1, -⟩ := Simp.stored' hg eps hd0 hw hp1 gap hXd Dmax htol x.s.k x.s.dk hfirst
  rw [s1]
  exact ⟨_, rfl⟩

theorem two_right_runs {svd : Tensor K → SvdRes K} (hg : GoodSvd svd) (eps : ℝ) {dflt : ℝ} (hd0 : 0 < dflt) {cgs : Cgs K} (hsz : SizedCgs cgs)
    {ds : List Nat} {H HH G : List (Tensor K)} (hHH : WFO 1 HH ds 1) (hnz : NonZero ds HH) (hsq : IsSquare ds H HH) (hG : WF 1 G ds 1) (D : Nat)
    {tol : ℝ} (htol : tol ≠ 0) (fuel : Nat) {k : Nat} (hfuel : k + fuel + 2 = ds.length) {m : Nat} (hm : fuel + 1 ≤ m)
    {x : St K} {C : List (Tensor K)} (hs : x.s = ⟨k, 0, (ds.length : Int) - 1, 1⟩) (hc : Shadow ds HH G x C k) :
    ∃ y, twoSweep svd eps dflt cgs D tol m x = some y := by
  induction fuel generalizing k x C m with
  | zero =>
    obtain ⟨m, rfl⟩ : ∃ m', m = m' + 1 := ⟨m - 1, by omega⟩
    have hdk : x.s.dk = 1 := by rw [hs]
    obtain ⟨z, h1⟩ := two_step_runs hg eps hd0 hsz hHH hnz hsq hG D htol hc (by rw [hs]) (p := k) (by simp [pairOf, hdk]) (by omega)
      (Or.inl (by rw [hdk]; decide))
    obtain ⟨Q, a, b, g, lost, lost2, st⟩ := two_step hg eps hd0 hsz hHH hsq hG D htol hc (by rw [hs]) (p := k) (by simp [pairOf, hdk]) (by omega)
      (Or.inl (by rw [hdk]; decide)) h1
    have hd : z.s.dec.2 = ⟨((k + 1 : Nat) : Int), 0, (ds.length : Int) - 1, 1⟩ := by
      rw [st.s]; simp only [Sweeper.dec, hs]; rw [if_neg (by omega)]; simp
    rw [twoSweep, h1, Option.bind_some]
    simp only [hd]
    rw [if_pos (by simp [Sweeper.isLast]; omega)]
    exact ⟨_, rfl⟩
  | succ fuel ih =>
    obtain ⟨m, rfl⟩ : ∃ m', m = m' + 1 := ⟨m - 1, by omega⟩
    have hdk : x.s.dk = 1 := by rw [hs]
    obtain ⟨z, h1⟩ := two_step_runs hg eps hd0 hsz hHH hnz hsq hG D htol hc (by rw [hs]) (p := k) (by simp [pairOf, hdk]) (by omega)
      (Or.inl (by rw [hdk]; decide))
    obtain ⟨Q, a, b, g, lost, lost2, st⟩ := two_step hg eps hd0 hsz hHH hsq hG D htol hc (by rw [hs]) (p := k) (by simp [pairOf, hdk]) (by omega)
      (Or.inl (by rw [hdk]; decide)) h1
    have hd : z.s.dec.2 = ⟨((k + 1 : Nat) : Int), 0, (ds.length : Int) - 1, 1⟩ := by
      rw [st.s]; simp only [Sweeper.dec, hs]; rw [if_neg (by omega)]; simp
    rw [twoSweep, h1, Option.bind_some]
    simp only [hd]
    rw [if_neg (by simp [Sweeper.isLast]; omega)]
    have af := st.stored.after
    rw [hdk, if_pos (by decide)] at af
    have e : nextCentre ds.length x.s.dk k = k + 1 := by simp [nextCentre, hdk]; omega
    have hcent := st.cent
    rw [e] at hcent
    exact ih (k := k + 1) (by omega) (m := m) (by omega) (C := Q) rfl
      ⟨⟨hcent.lt, hcent.wf, hcent.l, hcent.q⟩, st.stored.wfR, fun j h1 h2 => (af.1 j (by simpa [pairOf] using h1) (by simpa [pairOf] using h2)).symm⟩

theorem two_left_runs {svd : Tensor K → SvdRes K} (hg : GoodSvd svd) (eps : ℝ) {dflt : ℝ} (hd0 : 0 < dflt) {cgs : Cgs K} (hsz : SizedCgs cgs)
    {ds : List Nat} {H HH G : List (Tensor K)} (hHH : WFO 1 HH ds 1) (hnz : NonZero ds HH) (hsq : IsSquare ds H HH) (hG : WF 1 G ds 1) (D : Nat)
    {tol : ℝ} (htol : tol ≠ 0) {k : Nat} (hk : k + 1 < ds.length) {m : Nat} (hm : k + 1 ≤ m)
    {x : St K} {C : List (Tensor K)} (hs : x.s = ⟨((k + 1 : Nat) : Int), (ds.length : Int) - 1, 0, -1⟩) (hc : Shadow ds HH G x C (k + 1)) :
    ∃ y, twoSweep svd eps dflt cgs D tol m x = some y := by
  induction k generalizing x C m with
  | zero =>
    obtain ⟨m, rfl⟩ : ∃ m', m = m' + 1 := ⟨m - 1, by omega⟩
    have hdk : x.s.dk = -1 := by rw [hs]
    obtain ⟨z, h1⟩ := two_step_runs hg eps hd0 hsz hHH hnz hsq hG D htol hc (by rw [hs]) (p := 0) (by simp [pairOf, hdk]) (by omega)
      (Or.inr (by omega))
    obtain ⟨Q, a, b, g, lost, lost2, st⟩ := two_step hg eps hd0 hsz hHH hsq hG D htol hc (by rw [hs]) (p := 0) (by simp [pairOf, hdk]) (by omega)
      (Or.inr (by omega)) h1
    have hd : z.s.dec.2 = ⟨((0 : Nat) : Int), (ds.length : Int) - 1, 0, -1⟩ := by
      rw [st.s]; simp only [Sweeper.dec, hs]; rw [if_neg (by omega)]; simp
    rw [twoSweep, h1, Option.bind_some]
    simp only [hd]
    rw [if_pos (by simp [Sweeper.isLast])]
    exact ⟨_, rfl⟩
  | succ k ih =>
    obtain ⟨m, rfl⟩ : ∃ m', m = m' + 1 := ⟨m - 1, by omega⟩
    have hdk : x.s.dk = -1 := by rw [hs]
    obtain ⟨z, h1⟩ := two_step_runs hg eps hd0 hsz hHH hnz hsq hG D htol hc (by rw [hs]) (p := k + 1) (by simp [pairOf, hdk]) (by omega)
      (Or.inr (by omega))
    obtain ⟨Q, a, b, g, lost, lost2, st⟩ := two_step hg eps hd0 hsz hHH hsq hG D htol hc (by rw [hs]) (p := k + 1) (by simp [pairOf, hdk]) (by omega)
      (Or.inr (by omega)) h1
    have hd : z.s.dec.2 = ⟨((k + 1 : Nat) : Int), (ds.length : Int) - 1, 0, -1⟩ := by
      rw [st.s]; simp only [Sweeper.dec, hs]; rw [if_neg (by omega)]; simp
    rw [twoSweep, h1, Option.bind_some]
    simp only [hd]
    rw [if_neg (by simp [Sweeper.isLast]; omega)]
    have af := st.stored.after
    rw [hdk, if_neg (by decide)] at af
    have e : nextCentre ds.length x.s.dk (k + 1 + 1) = k + 1 := by simp [nextCentre, hdk]
    have hcent := st.cent
    rw [e] at hcent
    exact ih (by omega) (m := m) (by omega) (C := Q) rfl
      ⟨⟨hcent.lt, hcent.wf, hcent.l, hcent.q⟩, st.stored.wfR, fun j h1 h2 => (af.1 j (by simpa [pairOf] using h2) (by
        have : j ≠ k := by simpa [pairOf] using h1
        omega)).symm⟩

theorem two_pass_runs {svd : Tensor K → SvdRes K} (hg : GoodSvd svd) (eps : ℝ) {dflt : ℝ} (hd0 : 0 < dflt) {cgs : Cgs K} (hsz : SizedCgs cgs)
    {ds : List Nat} {H HH G : List (Tensor K)} (hHH : WFO 1 HH ds 1) (hnz : NonZero ds HH) (hsq : IsSquare ds H HH) (hG : WF 1 G ds 1)
    (hds : ∀ x ∈ ds, 0 < x) (D : Nat) {tol : ℝ} (htol : tol ≠ 0) (h2 : 1 < ds.length) {x : St K} (hx : AtStart ds HH G x) :
    ∃ r, twoPass svd eps dflt cgs D tol ds.length x = some r ∧ AtStart ds HH G r.1 := by
  have hy : ∃ y, twoSweep svd eps dflt cgs D tol ds.length x = some y := by
    obtain ⟨hs, hc⟩ | ⟨hs, hc⟩ := hx
    · exact two_right_runs hg eps hd0 hsz hHH hnz hsq hG D htol (ds.length - 2) (k := 0) (by omega) (by omega) hs (C := x.P) ⟨hc, hc.wf, fun _ _ _ => rfl⟩
    · have e : ds.length - 1 = ds.length - 2 + 1 := by omega
      exact two_left_runs hg eps hd0 hsz hHH hnz hsq hG D htol (k := ds.length - 2) (by omega) (m := ds.length) (by omega) (by rw [hs]; simp; omega) (C := x.P)
        ⟨by rw [← e]; exact hc, hc.wf, fun _ _ _ => rfl⟩
  obtain ⟨y, hy⟩ := hy
  have sw := two_sweep hg eps hd0 hsz hHH hsq hG D htol h2 hx hy
  obtain ⟨a, b, fin⟩ := sw.fin
  have hflip : pairOf y.s.flip.dk y.s.k.toNat = y.s.k.toNat - 1 ∧ (y.s.flip.dk > 0 ∨ 1 ≤ y.s.k.toNat) := by
    rw [sw.s]
    obtain ⟨hs, hc⟩ | ⟨hs, hc⟩ := hx
    · rw [hs]; simp [Sweeper.flip, pairOf]; omega
    · rw [hs]; simp [Sweeper.flip, pairOf]
  obtain ⟨v, M, -, -, happ, -⟩ := sw.cent.pair hHH hsq hG y.s.flip.dk hflip.1 fin.gap.lt hflip.2 fin.gap
  obtain ⟨V, e1, -⟩ := happ y.vP fin.vdims
  have hrun : twoPass svd eps dflt cgs D tol ds.length x = some ({ y with s := y.s.flip }, RCLike.re (tscprod y.vP V)) := by
    unfold twoPass; rw [hy, Option.bind_some]; simp only [e1, Option.map_some]
  obtain ⟨y', sw', e'⟩ := two_pass hg eps hd0 hsz hHH hsq hG hds D htol h2 hx hrun
  refine ⟨_, hrun, ?_⟩
  rw [e']
  exact (flip_end hx sw').1.start

end MPS.Solve
