import Verif.SolveLemmas7

/-!
# Steps of the two-site version of `solve`
-/

set_option linter.unusedSectionVars false
set_option linter.unusedSimpArgs false

namespace MPS.Solve
open MPS Tensor Form Minim Obc
variable {K : Type} [RCLike K]

theorem setPair_congr {P C : List (Tensor K)} {p : Nat} (hl : C.length = P.length) (hp : p + 1 < P.length)
    (h : ∀ j, j ≠ p → j ≠ p + 1 → site C j = site P j) (A B : Tensor K) : setPair C p A B = setPair P p A B := by
  rw [setPair_eq (by omega), setPair_eq hp, take_ext hl (by omega) fun j hj => h j (by omega) (by omega),
    drop_ext hl fun j hj hj2 => h j (by omega) (by omega)]

theorem gap_congr {ds : List Nat} {P C : List (Tensor K)} {p a b : Nat} (hl : C.length = P.length) (hg : Simp.Gap2 ds P p a b)
    (h : ∀ j, j ≠ p → j ≠ p + 1 → site C j = site P j) : Simp.Gap2 ds C p a b := by
  have := hg.lt
  have := hg.len
  refine ⟨hg.lt, by omega, hg.pos, ?_, ?_⟩
  · rw [take_ext hl (by omega) fun j hj => h j (by omega) (by omega)]; exact hg.wl
  · rw [drop_ext hl fun j hj hj2 => h j (by omega) (by omega)]; exact hg.wr

/-- the forms belong to a chain `C` that differs from the state at most in the pair treated next -/
structure Shadow (ds : List Nat) (HH G : List (Tensor K)) (x : St K) (C : List (Tensor K)) (k : Nat) : Prop where
  cent : Cent ds HH G { x with P := C } k
  wf : WF 1 x.P ds 1
  same : ∀ j, j ≠ pairOf x.s.dk k → j ≠ pairOf x.s.dk k + 1 → site C j = site x.P j

/-- one pass of the loop of the two-site algorithm: `x` before, `y` after.  `Q` is the state after the new pair `y.vP` has been split, `y.P` the
state after the next site has been made an isometry, too. -/
structure Stepped2 (ds : List Nat) (H HH G : List (Tensor K)) (cgs : Cgs K) (Dmax : Nat) (x y : St K) (k p : Nat) (Q : List (Tensor K)) (a b g : Nat)
    (lost lost2 : ℝ) : Prop where
  s : y.s = x.s
  gap : Simp.Gap2 ds x.P p a b
  vdims : y.vP.dims = pairDims ds p a b
  stored : Simp.Stored ds x.P p a b y.vP x.s.dk Dmax Q y.P lost g
  lost_eq : y.lost = x.lost + (lost + lost2)
  lost2_nonneg : 0 ≤ lost2
  amp_eq : lost2 = 0 → ∀ s, IsCfg ds s → amp y.P s = amp Q s
  cent : Cent ds HH G { y with P := Q } (nextCentre ds.length x.s.dk k)
  val : tscprod y.vHQ y.vP = MPS.inner ds (amp G) (pairWave ds x.P p a b y.vP.get)
  descent : DescentCgs cgs → ∀ q, Target ds H (amp G) q → resOf ds H q (pairWave ds x.P p a b y.vP.get) ≤ residual ds H q x.P
  best : IdealCgs cgs → (∀ x ∈ ds, 0 < x) → ∀ q, Target ds H (amp G) q → ∀ Y,
    resOf ds H q (pairWave ds x.P p a b y.vP.get) ≤ resOf ds H q (pairWave ds x.P p a b Y)

theorem two_step {svd : Tensor K → SvdRes K} (hg : GoodSvd svd) (eps : ℝ) {dflt : ℝ} (hd0 : 0 < dflt) {cgs : Cgs K} (hsz : SizedCgs cgs)
    {ds : List Nat} {H HH G : List (Tensor K)} (hHH : WFO 1 HH ds 1) (hsq : IsSquare ds H HH) (hG : WF 1 G ds 1) (Dmax : Nat) {tol : ℝ} (htol : tol ≠ 0)
    {x y : St K} {k p : Nat} {C : List (Tensor K)} (hc : Shadow ds HH G x C k) (hk : x.s.k = k) (hp : pairOf x.s.dk k = p) (hp1 : p + 1 < ds.length)
    (hk1 : x.s.dk > 0 ∨ 1 ≤ k) (hrun : twoStep svd eps dflt cgs Dmax tol x = some y) :
    ∃ Q a b g lost lost2, Stepped2 ds H HH G cgs Dmax x y k p Q a b g lost lost2 := by
  obtain ⟨hcent, hw, hsame⟩ := hc
  rw [hp] at hsame
  have hkn : x.s.k.toNat = k := by rw [hk]; simp
  have hlen := hw.length
  have hCl : C.length = x.P.length := by rw [hlen]; exact hcent.wf.length
  have hklt := hcent.lt
  obtain ⟨a, b, c, gap, c0, hA, hB⟩ := Simp.Gap2.of_WF hw hp1
  have gapC : Simp.Gap2 ds C p a b := gap_congr hCl gap hsame
  obtain ⟨v, M, v1, v2, happ, hloc, -, -⟩ := hcent.pair hHH hsq hG x.s.dk hp hp1 hk1 gapC
  have hwave : pairWave ds C p a b = pairWave ds x.P p a b := by
    funext Y; unfold pairWave; rw [setPair_congr hCl (by omega) hsame]
  rw [hwave] at hloc
  unfold twoStep at hrun
  simp only [v1, Option.bind_some, hkn] at hrun
  -- the initial guess
  have hguess : (if x.s.dk > 0 then fold (site x.P k) (-1) (site x.P (k + 1)) 0 else fold (site x.P (k - 1)) (-1) (site x.P k) 0) =
      fold (site x.P p) (-1) (site x.P (p + 1)) 0 := by
    unfold pairOf at hp
    split_ifs at hp ⊢ with h
    · rw [hp]
    · rw [hp, show k = p + 1 by omega]
  rw [hguess] at hrun
  obtain ⟨f1, f2⟩ := Simp.fold_pair hA hB
  set F := fold (site x.P p) (-1) (site x.P (p + 1)) 0 with hF
  have hFj : ∀ I, IsCfg (pairDims ds p a b) I → joined c (site x.P p) (site x.P (p + 1)) I = F.get I := by
    intro I hI
    obtain ⟨i0, i1, i2, i3, rfl, -⟩ := isCfg4 hI
    rw [f2]; simp [joined]
  have hFw : ∀ s, IsCfg ds s → pairWave ds x.P p a b F.get s = amp x.P s := by
    intro s hs
    rw [pairWave_eq gap c0 hA hB hFj s hs, Simp.setPair_self (by omega)]
  obtain ⟨V0, e1, e2, -⟩ := happ F f1
  have hMne : M.isEmpty = false := by
    by_contra hne
    rw [e1, Option.getD_some, e2, if_pos (by simpa using hne)] at hrun
    exact absurd hrun (by simp)
  rw [e1, Option.getD_some, e2, hMne, if_neg (by simp)] at hrun
  have L := hloc hMne
  set A : Tensor K → Tensor K := fun y => (x.qf.applyTwoSite y x.s.dk).getD Tensor.empty with hAdef
  have hmap : ∀ Y : Tensor K, Y.dims = pairDims ds p a b → (A Y).dims = pairDims ds p a b ∧ ∀ I, IsCfg (pairDims ds p a b) I →
      (A Y).get I = sumCfg (pairDims ds p a b) fun J => M.get [flat (pairDims ds p a b) I, flat (pairDims ds p a b) J] * Y.get J := by
    intro Y hY
    obtain ⟨V, w1, -, w3⟩ := happ Y hY
    simp only [hAdef, w1, Option.getD_some]
    exact w3 hMne
  set X := cgs A (conj v) F (2 * (conj v).size) tol with hX
  have hXd : X.dims = pairDims ds p a b := by rw [hX, hsz]; exact f1
  have hfirst : Props.firstSite x.s.k x.s.dk = p := by
    unfold Props.firstSite
    unfold pairOf at hp
    rw [hk]
    split_ifs at hp ⊢ with h
    · rw [hp]
    · have := hk1.resolve_left h; omega
  obtain ⟨Q, R, lost, lost2, g, s1, s2, s3, s4⟩ := Simp.stored' hg eps hd0 hw hp1 gap hXd Dmax htol x.s.k x.s.dk hfirst
  rw [s1] at hrun
  simp only [Option.map_some, Option.some.injEq] at hrun
  have hRk : site R k = site Q k := by
    have h3 := s2.after
    unfold pairOf at hp
    split_ifs at hp h3 with h
    · rw [← hp] at h3
      exact h3.1 k (by omega) (by omega)
    · have := hk1.resolve_left h
      exact h3.1 k (by omega) (by omega)
  have hQs := s2.site hlen hp1
  have hnc : nextCentre ds.length x.s.dk k = if x.s.dk > 0 then p + 1 else p := by
    unfold nextCentre
    unfold pairOf at hp
    split_ifs at hp ⊢ <;> omega
  have hQC : ∀ j, j ≠ k → j ≠ nextCentre ds.length x.s.dk k → site Q j = site C j := by
    intro j h1 h2
    rw [hnc] at h2
    unfold pairOf at hp
    have hh : j ≠ p ∧ j ≠ p + 1 := by
      split_ifs at hp h2 with h
      · omega
      · have := hk1.resolve_left h; omega
    rw [hQs j hh.1 hh.2, hsame j hh.1 hh.2]
  have hncl : nextCentre ds.length x.s.dk k < ds.length := by rw [hnc]; split_ifs <;> omega
  have hwQ := s2.wfQ
  subst hrun
  refine ⟨Q, a, b, g, lost, lost2, ⟨rfl, gap, hXd, s2, rfl, s3, s4, ⟨hncl, hwQ, ?_, ?_⟩, (L.values' hXd (hmap X hXd)).2, ?_, ?_⟩⟩
  · have := move_form (χ := Q) (w := [1]) (Q := [G]) (by simp) (by simpa using hG) hklt hcent.wf.length hwQ.length x.s.dk hcent.l hQC
    simp only [hRk]; exact this
  · have := move_cache (χ := Q) hHH hklt hcent.wf.length hwQ.length x.s.dk hcent.q hQC
    simp only [hRk]; exact this
  · intro hd q hq
    refine le_trans (L.descent (fun Y => hq _) hmap hXd f1 (hd _ _ _ _ _ _ _ (L.psd hmap) L.Xdims f1)) (le_of_eq ?_)
    rw [residual_eq]
    exact resOf_congr hFw
  · intro hi hds q hq Y
    obtain ⟨z, hz⟩ := L.solvable hds (fun Y => hq _)
    refine L.best_of (fun Y => hq _) (fun I hI => ?_) Y
    rw [← (hmap X hXd).2 I hI]
    refine hi _ _ _ _ _ _ _ (L.psd hmap) L.Xdims f1 ⟨⟨pairDims ds p a b, fun J => z (flat (pairDims ds p a b) J)⟩, rfl, fun J hJ => ?_⟩ I hI
    rw [(hmap _ rfl).2 J hJ, ← hz J hJ]

/-- nothing dropped: the state is the one of the local problem -/
theorem Stepped2.exact {ds : List Nat} {H HH G : List (Tensor K)} {cgs : Cgs K} {Dmax : Nat} {x y : St K} {k p : Nat} {Q : List (Tensor K)} {a b g : Nat}
    {lost lost2 : ℝ} (h : Stepped2 ds H HH G cgs Dmax x y k p Q a b g lost lost2) (h0 : y.lost = x.lost) :
    ∀ s, IsCfg ds s → amp y.P s = pairWave ds x.P p a b y.vP.get s := by
  have l0 := h.stored.lost_nonneg
  have l1 := h.lost2_nonneg
  have l2 := h.lost_eq
  intro s hs
  rw [h.amp_eq (by linarith) s hs, pairWave_eq h.gap h.stored.pos h.stored.first h.stored.second _ s hs, ← h.stored.eq]
  intro I hI
  have hl := h.stored.lost
  rw [show lost = 0 by linarith] at hl
  have := Props.sumCfg_eq_zero_nonneg _ _ (fun _ => sq_nonneg _) hl I hI
  exact (sub_eq_zero.1 (norm_eq_zero.1 (pow_eq_zero_iff two_ne_zero |>.1 this))).symm

end MPS.Solve
