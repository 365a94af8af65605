import Verif.SolveLemmas5
import Verif.FormNonempty
import Verif.Props.MPOProps

/-!
# What happens before the loop of `solve`, and why the sweeps do not abort
-/

set_option linter.unusedSectionVars false
set_option linter.unusedSimpArgs false

namespace MPS.Solve
open MPS Tensor Form Minim Obc
variable {K : Type} [RCLike K]

/-- `A` is the adjoint of `H` -/
def IsAdjoint (ds : List Nat) (A H : List (Tensor K)) : Prop := ∀ s t, IsCfg ds s → IsCfg ds t → opElt A s t = star (opElt H t s)

theorem canon_open {svd : Tensor K → SvdRes K} (hg : GoodSvd svd) (eps : ℝ) {dflt : ℝ} (hd0 : 0 < dflt) {ds : List Nat} {ψ : List (Tensor K)}
    (hw : WF 1 ψ ds 1) (hpos : 0 < ds.length) :
    let c := canonicalForm svd eps dflt ψ (-1)
    WF 1 c.1 ds 1 ∧ (c.2 = 0 → ∀ s, IsCfg ds s → amp c.1 s = amp ψ s) ∧ (∀ j, 0 < j → j < ds.length → RightIso (site c.1 j)) := by
  have hlen := hw.length
  have hne : ψ ≠ [] := by rintro rfl; simp at hlen; omega
  have ec : canonicalForm svd eps dflt ψ (-1) = canonicalFormAt svd eps dflt ψ 0 := by simp [canonicalForm]
  obtain ⟨h1, h2, -, h4⟩ := eitherForm_spec hg eps hw (Props.TolOk.start hw hne (Or.inl hd0)) 0 (by omega)
  obtain ⟨-, c2, -⟩ := Props.canon_core hg eps dflt ⟨hne, 1, hw⟩ (Or.inl hd0) 0 hpos
  intro c
  have e : c = eitherForm svd eps dflt ψ 0 false := by simp only [c, ec, canonicalFormAt]
  refine ⟨by rw [e]; exact h1.wf, ?_, fun j hj hj2 => by rw [e]; exact h4 j hj (by omega)⟩
  show (canonicalForm svd eps dflt ψ (-1)).2 = 0 → _
  simp only [c, ec]
  exact c2

theorem apply_open {H ψ : List (Tensor K)} {ds : List Nat} (hH : WFO 1 H ds 1) (hψ : WF 1 ψ ds 1) (hpos : 0 < ds.length) :
    ∃ χ, applyMPO H ψ = some χ ∧ WF 1 χ ds 1 ∧ ∀ s, IsCfg ds s → amp χ s = act ds H (amp ψ) s := by
  have hl := hH.length
  have hl' := hψ.length
  obtain ⟨χ, h1, -, h3⟩ := Props.C28_apply (R := K) (O := H) (ψ := ψ) ⟨by rintro rfl; simp at hl; omega, 1, hH⟩ ⟨by rintro rfl; simp at hl'; omega, 1, hψ⟩
  refine ⟨χ, h1, ?_, h3⟩
  have e : χ = List.zipWith applySite H ψ := by
    unfold applyMPO at h1
    rw [if_pos (by omega)] at h1
    exact (Option.some.inj h1).symm
  rw [e]
  exact apply_WF hH hψ

theorem mmult_open {A H : List (Tensor K)} {ds : List Nat} (hA : WFO 1 A ds 1) (hH : WFO 1 H ds 1) (hpos : 0 < ds.length) (hadj : IsAdjoint ds A H) :
    ∃ HH, mmultMPO A H = some HH ∧ WFO 1 HH ds 1 ∧ IsSquare ds H HH := by
  have hl := hH.length
  have hl' := hA.length
  obtain ⟨C, h1, -, h3⟩ := mmultMPO_spec (R := K) (A := A) (B := H) ⟨by rintro rfl; simp at hl'; omega, 1, hA⟩ ⟨by rintro rfl; simp at hl; omega, 1, hH⟩
  refine ⟨C, h1, ?_, fun s t hs ht => ?_⟩
  · have e : C = List.zipWith mmultSite A H := by
      unfold mmultMPO at h1
      rw [if_pos (by omega)] at h1
      exact (Option.some.inj h1).symm
    rw [e]
    exact mmult_WFO hA hH
  · rw [h3 s t hs ht]
    exact sumCfg_congr fun u hu => by rw [hadj s u hs hu]

theorem square_nonzero {ds : List Nat} {H HH : List (Tensor K)} (hsq : IsSquare ds H HH) (h : NonZero ds H) : NonZero ds HH := by
  obtain ⟨s, t, hs, ht, h0⟩ := h
  refine ⟨t, t, ht, ht, ?_⟩
  rw [hsq t t ht ht]
  intro hz
  have e : (sumCfg ds fun u => star (opElt H u t) * opElt H u t) = ((sumCfg ds fun u => ‖opElt H u t‖ ^ 2 : ℝ) : K) := by
    rw [sumCfg_ofReal]
    exact sumCfg_congr fun u _ => by rw [RCLike.star_def, RCLike.conj_mul]; simp
  rw [e, RCLike.ofReal_eq_zero] at hz
  have := Props.sumCfg_eq_zero_nonneg ds _ (fun _ => sq_nonneg _) hz s hs
  exact h0 (norm_eq_zero.1 (pow_eq_zero_iff (two_ne_zero) |>.1 this))

/-- the initial state of the sweeps -/
structure Init (adj : List (Tensor K) → List (Tensor K)) (svd : Tensor K → SvdRes K) (eps dflt : ℝ) (ds : List Nat) (H oQ P' : List (Tensor K))
    (HH G : List (Tensor K)) (nq : ℝ) (x : St K) : Prop where
  hHH : WFO 1 HH ds 1
  sq : IsSquare ds H HH
  hG : WF 1 G ds 1
  start : AtStart ds HH G x
  P : x.P = P'
  lost : x.lost = 0
  nq_eq : nq = normSq ds (canonicalForm svd eps dflt oQ (-1)).1
  /-- nothing lost in the canonical forms -/
  target : (canonicalForm svd eps dflt oQ (-1)).2 = 0 →
    (∀ HQ, applyMPO H (canonicalForm svd eps dflt oQ (-1)).1 = some HQ → (canonicalForm svd eps dflt HQ (-1)).2 = 0) →
    nq = normSq ds oQ ∧ ∀ s, IsCfg ds s → amp G s = act ds H (amp oQ) s

theorem norm_first {P : List (Tensor K)} {ds : List Nat} (hw : WF 1 P ds 1) (hpos : 0 < ds.length) (hr : ∀ j, 0 < j → j < ds.length → RightIso (site P j)) :
    ‖tscprod (site P 0) (site P 0)‖ = normSq ds P := by
  obtain ⟨a, b, w1, w2, w3, p1, p2, p3⟩ := WF.around hw hpos
  rw [Props.tscprod_eq rfl, normSq_at hw hpos (by omega) hr]
  · have : (sumCfg (site P 0).dims fun I => star ((site P 0).get I) * (site P 0).get I) =
        ((sumCfg (site P 0).dims fun I => ‖(site P 0).get I‖ ^ 2 : ℝ) : K) := by
      rw [sumCfg_ofReal]
      refine sumCfg_congr fun I _ => ?_
      rw [RCLike.star_def, RCLike.conj_mul]; simp
    rw [this, RCLike.norm_ofReal, abs_of_nonneg (sumCfg_nonneg _ _ fun _ _ => sq_nonneg _)]
  · intro x hx
    rw [w2] at hx
    simp only [List.mem_cons, List.not_mem_nil, or_false] at hx
    obtain rfl | rfl | rfl := hx <;> assumption

theorem zip_self (P : List (Tensor K)) : P.zip P = P.map dup := by
  induction P with
  | nil => rfl
  | cons A P ih => simp [ih, dup]

/-- `solve` up to its loop -/
theorem solve_init {adj : List (Tensor K) → List (Tensor K)} {svd : Tensor K → SvdRes K} (hg : GoodSvd svd) (eps : ℝ) {dflt : ℝ} (hd0 : 0 < dflt)
    (lin : Tensor K → Tensor K → Tensor K) (cgs : Cgs K) (single : Bool) (tolerance solveTol : ℝ) {ds : List Nat} {H P oQ : List (Tensor K)}
    (hH : WFO 1 H ds 1) (hA : WFO 1 (adj H) ds 1) (hadj : IsAdjoint ds (adj H) H) (hQ : WF 1 oQ ds 1) (hpos : 0 < ds.length)
    (hP : P = [] ∨ WF 1 P ds 1) (sense : Int) (n : Nat) (normalize : Bool) (Dmax : Nat) (tol : ℝ) :
    ∃ HH G x, Init adj svd eps dflt ds H oQ (if P = [] then (canonicalForm svd eps dflt oQ (-1)).1 else P) HH G
        (normSq ds (canonicalForm svd eps dflt oQ (-1)).1) x ∧
      solve adj svd eps dflt lin cgs single tolerance solveTol H P oQ sense (n + 1) normalize Dmax tol =
        if normSq ds (canonicalForm svd eps dflt oQ (-1)).1 < 1 / 10 ^ 16 then none
        else loop (if single then singlePass svd eps dflt lin ds.length else twoPass svd eps dflt cgs Dmax (if tol ≤ 0 then solveTol else tol) ds.length)
          normalize tolerance (normSq ds (canonicalForm svd eps dflt oQ (-1)).1) n 0 x [] := by
  obtain ⟨c1, c2, c3⟩ := canon_open hg eps hd0 hQ hpos
  set Q := (canonicalForm svd eps dflt oQ (-1)).1 with hQd
  obtain ⟨HQ, a1, a2, a3⟩ := apply_open hH c1 hpos
  obtain ⟨HH, m1, m2, m3⟩ := mmult_open hA hH hpos hadj
  obtain ⟨g1, g2, -⟩ := canon_open hg eps hd0 a2 hpos
  set G := (canonicalForm svd eps dflt HQ (-1)).1 with hGd
  set P' := (if P = [] then Q else P) with hP'
  have wP' : WF 1 P' ds 1 := by
    rw [hP']
    rcases hP with h | h
    · rw [if_pos h]; exact c1
    · rw [if_neg]
      · exact h
      · rintro rfl; have := h.length; simp at this; omega
  have hlen := wP'.length
  have eP : (if P.length = 0 then Q else P) = P' := by rw [hP']; simp only [List.length_eq_zero_iff]
  have hsw : ∃ s k, Sweeper.new (P'.length : Int) (-sense) = some s ∧ s.k.toNat = k ∧ k < ds.length ∧
      ((s = ⟨0, 0, (ds.length : Int) - 1, 1⟩ ∧ k = 0) ∨ (s = ⟨(ds.length : Int) - 1, (ds.length : Int) - 1, 0, -1⟩ ∧ k = ds.length - 1)) := by
    unfold Sweeper.new
    rw [if_pos (by omega), hlen]
    split_ifs
    · exact ⟨_, 0, rfl, by simp, hpos, Or.inl ⟨rfl, rfl⟩⟩
    · exact ⟨_, ds.length - 1, rfl, by simp only; omega, by omega, Or.inr ⟨rfl, rfl⟩⟩
  obtain ⟨s, k, s1, s2, s3, s4⟩ := hsw
  have hl := LGood.new (ds := ds) (weight := [(1 : K)]) (bras := [G]) (ket := P') (start := k) (by simp [g1.length]) (by simp) hlen s3
  obtain ⟨qf, q1, q2⟩ := QGood.new (O := HH) m2 wP' wP' s3
  rw [zip_self] at q2
  have cent : ∀ y : St K, y.P = P' → y.lf = LForm.new [1] [G] P' k → y.qf = qf → Cent ds HH G y k := by
    intro y y1 y2 y3
    refine ⟨s3, by rw [y1]; exact wP', by rw [y1, y2]; exact hl, ?_⟩
    rw [y1, y3]
    simpa only [List.map_take, List.map_drop] using q2
  refine ⟨HH, G, ⟨P', LForm.new [1] [G] P' k, qf, s, Tensor.empty, Tensor.empty, Tensor.empty, 0⟩, ⟨m2, m3, g1, ?_, rfl, rfl, rfl, ?_⟩, ?_⟩
  · rcases s4 with ⟨h1, h2⟩ | ⟨h1, h2⟩
    · left; refine ⟨h1, ?_⟩; rw [← h2]; exact cent _ rfl rfl rfl
    · right; refine ⟨h1, ?_⟩; rw [← h2]; exact cent _ rfl rfl rfl
  · intro l1 l2
    have e1 := c2 l1
    refine ⟨?_, fun s hs => ?_⟩
    · unfold normSq
      exact sumCfg_congr fun s hs => by rw [e1 s hs]
    · rw [g2 (l2 HQ a1) s hs, a3 s hs]
      exact act_congr e1 s
  · rw [hlen] at s1
    unfold solve
    simp only [← hQd, eP, Nat.add_eq_zero_iff, one_ne_zero, and_false, if_false, norm_first c1 hpos c3, s1, a1, m1, Option.bind_some, s2, ← hGd, q1,
      Nat.add_sub_cancel, hlen]

/-- the single-site sweeps do not abort -/
theorem single_step_runs {svd : Tensor K → SvdRes K} (eps dflt : ℝ) (lin : Tensor K → Tensor K → Tensor K)
    {ds : List Nat} {HH G : List (Tensor K)} (hHH : WFO 1 HH ds 1) (hnz : NonZero ds HH) {x : St K} {k : Nat} (hc : Cent ds HH G x k) :
    ∃ y, singleStep svd eps dflt lin x = some y := by
  obtain ⟨hk, hw, hl, hq⟩ := hc
  have hlen := hw.length
  obtain ⟨a, b, h1, hd, h2, ha, hd0, hb⟩ := WF.around hw hk
  have htl : ((x.P.take k).map dup).length = k := by simp; omega
  have hne := single_nonempty hHH hnz hq (a := a) (b := a) (a' := b) (b' := b) (by rw [htl, map_dup_fst]; exact h1)
    (by rw [htl, map_dup_fst]; exact h2) (by rw [htl, map_dup_snd]; exact h1) (by rw [htl, map_dup_snd]; exact h2)
  unfold singleStep
  simp only [hne, Bool.false_eq_true, if_false]
  exact ⟨_, rfl⟩

theorem single_right_runs {svd : Tensor K → SvdRes K} (hg : GoodSvd svd) (eps : ℝ) {dflt : ℝ} (hd0 : 0 < dflt) {lin : Tensor K → Tensor K → Tensor K}
    (hl : GoodSolve lin) {ds : List Nat} {H HH G : List (Tensor K)} (hHH : WFO 1 HH ds 1) (hnz : NonZero ds HH) (hsq : IsSquare ds H HH) (hG : WF 1 G ds 1)
    (fuel : Nat) {k : Nat} (hfuel : k + fuel + 1 = ds.length) {x : St K} (hs : x.s = ⟨k, 0, (ds.length : Int) - 1, 1⟩) (hc : Cent ds HH G x k) :
    ∃ y, singleSweep svd eps dflt lin (fuel + 1) x = some y := by
  induction fuel generalizing k x with
  | zero =>
    have hk : x.s.k.toNat = k := by rw [hs]; simp
    obtain ⟨z, h1⟩ := single_step_runs (svd := svd) eps dflt lin hHH hnz hc
    have hst := single_step hg eps hd0 hl hHH hsq hG hc hk h1
    have hd : z.s.dec = (false, x.s) := by rw [hst.s]; simp only [Sweeper.dec, hs]; rw [if_pos (by omega)]
    rw [singleSweep, h1, Option.bind_some]
    simp only [hd, Bool.false_eq_true, if_false]
    exact ⟨_, rfl⟩
  | succ fuel ih =>
    have hk : x.s.k.toNat = k := by rw [hs]; simp
    have hdk : x.s.dk = 1 := by rw [hs]
    obtain ⟨z, h1⟩ := single_step_runs (svd := svd) eps dflt lin hHH hnz hc
    have hst := single_step hg eps hd0 hl hHH hsq hG hc hk h1
    have e : nextCentre ds.length x.s.dk k = k + 1 := by simp [nextCentre, hdk]; omega
    have hd : z.s.dec = (true, ⟨((k + 1 : Nat) : Int), 0, (ds.length : Int) - 1, 1⟩) := by
      rw [hst.s]; simp only [Sweeper.dec, hs]; rw [if_neg (by omega)]; simp
    rw [singleSweep, h1, Option.bind_some]
    simp only [hd, if_true]
    have hcent := hst.cent
    rw [e] at hcent
    exact ih (k := k + 1) (by omega) rfl ⟨hcent.lt, hcent.wf, hcent.l, hcent.q⟩

theorem single_left_runs {svd : Tensor K → SvdRes K} (hg : GoodSvd svd) (eps : ℝ) {dflt : ℝ} (hd0 : 0 < dflt) {lin : Tensor K → Tensor K → Tensor K}
    (hl : GoodSolve lin) {ds : List Nat} {H HH G : List (Tensor K)} (hHH : WFO 1 HH ds 1) (hnz : NonZero ds HH) (hsq : IsSquare ds H HH) (hG : WF 1 G ds 1)
    {k : Nat} {x : St K} (hs : x.s = ⟨k, (ds.length : Int) - 1, 0, -1⟩) (hc : Cent ds HH G x k) :
    ∃ y, singleSweep svd eps dflt lin (k + 1) x = some y := by
  induction k generalizing x with
  | zero =>
    have hk : x.s.k.toNat = 0 := by rw [hs]; simp
    obtain ⟨z, h1⟩ := single_step_runs (svd := svd) eps dflt lin hHH hnz hc
    have hst := single_step hg eps hd0 hl hHH hsq hG hc hk h1
    have hd : z.s.dec = (false, x.s) := by rw [hst.s]; simp only [Sweeper.dec, hs]; rw [if_pos (by omega)]
    rw [singleSweep, h1, Option.bind_some]
    simp only [hd, Bool.false_eq_true, if_false]
    exact ⟨_, rfl⟩
  | succ k ih =>
    have hk : x.s.k.toNat = k + 1 := by rw [hs]; simp only; omega
    have hdk : x.s.dk = -1 := by rw [hs]
    obtain ⟨z, h1⟩ := single_step_runs (svd := svd) eps dflt lin hHH hnz hc
    have hst := single_step hg eps hd0 hl hHH hsq hG hc hk h1
    have e : nextCentre ds.length x.s.dk (k + 1) = k := by simp [nextCentre, hdk]
    have hd : z.s.dec = (true, ⟨(k : Int), (ds.length : Int) - 1, 0, -1⟩) := by
      rw [hst.s]; simp only [Sweeper.dec, hs]; rw [if_neg (by omega)]; simp
    rw [singleSweep, h1, Option.bind_some]
    simp only [hd, if_true]
    have hcent := hst.cent
    rw [e] at hcent
    exact ih rfl ⟨hcent.lt, hcent.wf, hcent.l, hcent.q⟩

theorem single_pass_runs {svd : Tensor K → SvdRes K} (hg : GoodSvd svd) (eps : ℝ) {dflt : ℝ} (hd0 : 0 < dflt) {lin : Tensor K → Tensor K → Tensor K}
    (hl : GoodSolve lin) {ds : List Nat} {H HH G : List (Tensor K)} (hHH : WFO 1 HH ds 1) (hnz : NonZero ds HH) (hsq : IsSquare ds H HH) (hG : WF 1 G ds 1)
    (hds : ∀ x ∈ ds, 0 < x) {x : St K} (hx : AtStart ds HH G x) : ∃ r, singlePass svd eps dflt lin ds.length x = some r ∧ AtStart ds HH G r.1 := by
  have hy : ∃ y, singleSweep svd eps dflt lin ds.length x = some y := by
    obtain ⟨hs, hc⟩ | ⟨hs, hc⟩ := hx
    · have := hc.lt
      obtain ⟨n, hn⟩ : ∃ n, ds.length = n + 1 := ⟨ds.length - 1, by omega⟩
      rw [hn]
      exact single_right_runs hg eps hd0 hl hHH hnz hsq hG n (k := 0) (by omega) hs hc
    · have := hc.lt
      have := single_left_runs hg eps hd0 hl hHH hnz hsq hG (k := ds.length - 1) (by rw [hs]; simp; omega) hc
      rwa [show ds.length - 1 + 1 = ds.length by omega] at this
  obtain ⟨y, hy⟩ := hy
  have hrun : singlePass svd eps dflt lin ds.length x = some ({ y with s := y.s.flip }, RCLike.re (tscprod y.vP (mmult y.Heff y.vP))) := by
    unfold singlePass; rw [hy]; rfl
  exact ⟨_, hrun, (flip_end hx (single_sweep hg eps hd0 hl hHH hsq hG hds hx hy)).1.start⟩

end MPS.Solve
