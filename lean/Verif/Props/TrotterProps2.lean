import Verif.Props.TrotterProps

/-!
# C59: application of a layer, and one step of the Trotter solvers
-/

set_option linter.unusedSectionVars false
set_option linter.unusedSimpArgs false

namespace MPS.Props
open MPS Tensor Trotter

theorem layerElt_congr {ds : List Nat} {k : Nat} {U V : Nat → Tensor ℂ}
    (h : ∀ p, PairAt ds.length k p ∨ Single ds.length k p → U p = V p) (s t : List Nat) :
    layerElt ds k U s t = layerElt ds k V s t := by
  unfold layerElt
  congr 1
  · exact Finset.prod_congr rfl fun p hp => by rw [h p (Or.inl (Finset.mem_filter.1 hp).2)]
  · exact Finset.prod_congr rfl fun p hp => by rw [h p (Or.inr (Finset.mem_filter.1 hp).2)]

theorem actOp_congr {ds : List Nat} {O O' : List Nat → List Nat → ℂ} {φ φ' : List Nat → ℂ}
    (hO : ∀ s t, O s t = O' s t) (hφ : ∀ s, IsCfg ds s → φ s = φ' s) (s : List Nat) : actOp ds O φ s = actOp ds O' φ' s := by
  unfold actOp
  exact sumCfg_congr fun t ht => by rw [hO, hφ t ht]

theorem actOp_path {ds : List Nat} {O : List Nat → List Nat → ℂ} {D : Nat} {P Q : List (Tensor ℂ)} (hP : WF D P ds D) (hQ : WF D Q ds D)
    (hne : P ≠ []) (hne' : Q ≠ [])
    (h : ∀ s, IsCfg ds s → ∀ u < D, ∀ v, path Q s u v = sumCfg ds (fun t => O s t * path P t u v)) :
    ∀ s, IsCfg ds s → amp Q s = actOp ds O (amp P) s := by
  intro s hs
  unfold actOp
  rw [amp_of_WF hQ hne', Finset.sum_congr rfl fun x hx => h s hs x (Finset.mem_range.1 hx) x, ← sumCfg_sum]
  refine sumCfg_congr fun t _ => ?_
  rw [amp_of_WF hP hne, Finset.mul_sum]

/-- without maximal dimension no singular value is dropped silently -/
theorem loopUp_pres (p : Evo → Prop) {b step : Int} {body : Nat → Evo → Evo} (hb : ∀ k x, p x → p (body k x)) :
    ∀ (fuel : Nat) (k : Int) (x : Evo), p x → p (loopUp b step body fuel k x)
  | 0, _, _, h => h
  | fuel + 1, k, x, h => by
    rw [loopUp]
    split
    · exact loopUp_pres p hb fuel _ _ (hb _ _ h)
    · exact h

theorem loopDown_pres (p : Evo → Prop) {b step : Int} {body : Nat → Evo → Evo} (hb : ∀ k x, p x → p (body k x)) :
    ∀ (fuel : Nat) (k : Int) (x : Evo), p x → p (loopDown b step body fuel k x)
  | 0, _, _, h => h
  | fuel + 1, k, x, h => by
    rw [loopDown]
    split
    · exact loopDown_pres p hb fuel _ _ (hb _ _ h)
    · exact h

theorem sweep_hidden (svd : Tensor ℂ → SvdRes ℂ) (eps dflt : ℝ) (W : Unitary) (x : Evo) (sense : Int) (tol : ℝ) :
    (sweep svd eps dflt W x sense tol 0).hidden = x.hidden := by
  have h1 : ∀ k y, y.hidden = x.hidden → (applyOne svd eps dflt y (site W.U k) k sense 0).hidden = x.hidden := by
    intro k y hy; simp [applyOne, hy]
  have h2 : ∀ k y, y.hidden = x.hidden → (applyTwo svd eps dflt y (site W.U k) k sense tol 0).hidden = x.hidden := by
    intro k y hy; simp [applyTwo, hy]
  unfold sweep
  simp only
  split
  · exact loopUp_pres (fun y => y.hidden = x.hidden) h1 _ _ _ (loopUp_pres (fun y => y.hidden = x.hidden) h2 _ _ _
      (loopUp_pres (fun y => y.hidden = x.hidden) h1 _ _ _ rfl))
  · exact loopDown_pres (fun y => y.hidden = x.hidden) h1 _ _ _ (loopDown_pres (fun y => y.hidden = x.hidden) h2 _ _ _
      (loopDown_pres (fun y => y.hidden = x.hidden) h1 _ _ _ rfl))

theorem apply_eq (svd : Tensor ℂ → SvdRes ℂ) (eps dflt : ℝ) (W : Unitary) (x : Evo) (sense : Int) (tol : ℝ) (Dmax : Nat)
    (normalize : Bool) :
    apply svd eps dflt W x sense tol Dmax normalize =
      let s := if sense = 0 then 1 else sense
      let y := sweep svd eps dflt W x s tol Dmax
      (if normalize then ⟨(normalForm svd eps dflt y.P s).1, y.err, y.hidden + (normalForm svd eps dflt y.P s).2⟩ else y, -s) := by
  unfold apply sweep
  simp only

theorem sweep_amp {svd : Tensor ℂ → SvdRes ℂ} (hg : GoodSvd svd) (eps : ℝ) {dflt : ℝ} (hd0 : 0 < dflt)
    {ds : List Nat} {k : Nat} {W : Unitary} (hW : Fits W ds k) {D : Nat} (x : Evo) (h : WF D x.P ds D) (hne : x.P ≠ []) (sense : Int)
    (tol : ℝ) (htol : 0 < effTol dflt tol) (Dmax : Nat) :
    let y := sweep svd eps dflt W x sense tol Dmax
    WF D y.P ds D ∧ y.P ≠ [] ∧ x.err ≤ y.err ∧ x.hidden ≤ y.hidden ∧ (Dmax = 0 → y.hidden = x.hidden) ∧
      (y.err = x.err → y.hidden = x.hidden → ∀ s, IsCfg ds s → amp y.P s = actOp ds (layerElt ds k W.gate) (amp x.P) s) := by
  intro y
  have hpos : 0 < ds.length := by rw [← h.length]; exact List.length_pos_iff.2 hne
  obtain ⟨S, hS, hr⟩ := sweep_spec hg eps hd0 hW x h hpos sense tol htol Dmax
  have hy : y.P ≠ [] := by
    intro hh
    have := hr.wf.length
    change y.P.length = _ at this
    rw [hh] at this; simp at this; omega
  refine ⟨hr.wf, hy, hr.err, hr.hidden, fun h0 => ?_, fun h1 h2 => ?_⟩
  · subst h0; exact sweep_hidden svd eps dflt W x sense tol
  · refine actOp_path h hr.wf hne hy fun s hs u hu v => ?_
    rw [hr.same h1 h2 s hs u hu v]
    exact sumCfg_congr fun t _ => by rw [partElt_all ds k W.gate S hS]

/-- **C59**: `W = Unitary(H, k, dt)` for a Hamiltonian which fits the chain, and an MPS `P` of that chain; the application
of `W`, with any tolerance and maximal dimension, in either direction, gives an MPS of the same chain, does not decrease
the error and reverses the direction.  If no singular value is dropped, every gate of the layer has been applied exactly
once: the new wave function is the product of the gates of the layer (`layerElt`) acting on the old one, the same for
both directions.  Without maximal dimension every singular value dropped is part of the error returned. -/
theorem C59_apply {svd : Tensor ℂ → SvdRes ℂ} (hg : GoodSvd svd) (eps : ℝ) {dflt : ℝ} (hd0 : 0 < dflt)
    {expm : Tensor ℂ → Tensor ℂ} (hexp : ∀ A n, A.dims = [n, n] → (expm A).dims = [n, n])
    {H : Ham ℂ} {ds : List Nat} (hH : HamFits H ds) (k : Nat) (hk : k ≤ 1) (dt : ℂ) {W : Unitary}
    (hW : mkUnitary expm H k dt = some W) (x : Evo) (hx : IsMPS ds x.P) (sense : Int) (tol : ℝ)
    (htol : tol < 0 ∨ 0 < tol) (Dmax : Nat) :
    let y := apply svd eps dflt W x sense tol Dmax false
    IsMPS ds y.1.P ∧ x.err ≤ y.1.err ∧ x.hidden ≤ y.1.hidden ∧ (Dmax = 0 → y.1.hidden = x.hidden) ∧
    y.2 = (if sense = 0 then -1 else -sense) ∧
    (y.1.err = x.err → y.1.hidden = x.hidden → ∀ s, IsCfg ds s →
      amp y.1.P s = actOp ds (layerElt ds k (site W.U)) (amp x.P) s) := by
  obtain ⟨W', e, hf, -⟩ := mkUnitary_fits hexp hH k hk dt
  rw [hW] at e
  cases e
  obtain ⟨hne, D, hw⟩ := hx
  have ht : 0 < effTol dflt tol := by
    unfold effTol; rcases htol with h | h
    · rw [if_pos h]; exact hd0
    · rw [if_neg (by linarith)]; exact h
  intro y
  obtain ⟨h1, h2, h3, h4, h5, h6⟩ := sweep_amp hg eps hd0 hf x hw hne (if sense = 0 then 1 else sense) tol ht Dmax
  have hy : y = (sweep svd eps dflt W x (if sense = 0 then 1 else sense) tol Dmax, -(if sense = 0 then 1 else sense)) := by
    rw [show y = _ from apply_eq _ _ _ _ _ _ _ _ _]; simp
  rw [hy]
  refine ⟨⟨h2, D, h1⟩, h3, h4, h5, by split <;> simp, h6⟩

/-- **C59**: with `normalize`, on an open chain, the result is moreover divided by its norm. -/
theorem C59_apply_normalize {svd : Tensor ℂ → SvdRes ℂ} (hg : GoodSvd svd) (eps : ℝ) {dflt : ℝ} (hd0 : 0 < dflt)
    {expm : Tensor ℂ → Tensor ℂ} (hexp : ∀ A n, A.dims = [n, n] → (expm A).dims = [n, n])
    {H : Ham ℂ} {ds : List Nat} (hH : HamFits H ds) (k : Nat) (hk : k ≤ 1) (dt : ℂ) {W : Unitary}
    (hW : mkUnitary expm H k dt = some W) (x : Evo) (hne : x.P ≠ []) (hw : WF 1 x.P ds 1) (sense : Int) (tol : ℝ)
    (htol : tol < 0 ∨ 0 < tol) (Dmax : Nat) :
    let y := apply svd eps dflt W x sense tol Dmax true
    let φ := actOp ds (layerElt ds k (site W.U)) (amp x.P)
    IsMPS ds y.1.P ∧ x.err ≤ y.1.err ∧ x.hidden ≤ y.1.hidden ∧ y.2 = (if sense = 0 then -1 else -sense) ∧
    (y.1.err = x.err → y.1.hidden = x.hidden → MPS.inner ds φ φ ≠ 0 →
      norm2 y.1.P = 1 ∧ ∃ c : ℝ, (c : ℂ) ^ 2 * MPS.inner ds φ φ = 1 ∧ 0 < c ∧ ∀ s, IsCfg ds s → amp y.1.P s = c * φ s) := by
  obtain ⟨W', e, hf, -⟩ := mkUnitary_fits hexp hH k hk dt
  rw [hW] at e
  cases e
  have ht : 0 < effTol dflt tol := by
    unfold effTol; rcases htol with h | h
    · rw [if_pos h]; exact hd0
    · rw [if_neg (by linarith)]; exact h
  intro y φ
  obtain ⟨h1, h2, h3, h4, h5, h6⟩ := sweep_amp hg eps hd0 hf x hw hne (if sense = 0 then 1 else sense) tol ht Dmax
  have hy := apply_eq svd eps dflt W x sense tol Dmax true
  simp only [if_true] at hy
  change y = _ at hy
  set z := sweep svd eps dflt W x (if sense = 0 then 1 else sense) tol Dmax with hz
  have hlen : 0 < z.P.length := List.length_pos_iff.2 h2
  set sn := (if sense = 0 then 1 else sense) with hsn
  obtain ⟨n1, n2, n3, n4, n5⟩ := C16_normal_form_at hg eps dflt h2 h1 (Or.inl hd0) (if sn < 0 then 0 else z.P.length - 1)
    (by rw [← h1.length]; split <;> omega)
  have hnn := (canon_core hg eps dflt ⟨h2, 1, h1⟩ (Or.inl hd0) (if sn < 0 then 0 else z.P.length - 1)
    (by rw [← h1.length]; split <;> omega)).2.2.2.1
  have hnf : normalForm svd eps dflt z.P sn = normalFormAt svd eps dflt z.P (if sn < 0 then 0 else z.P.length - 1) := rfl
  rw [hy, hnf]
  set w := normalFormAt svd eps dflt z.P (if sn < 0 then 0 else z.P.length - 1) with hwd
  simp only
  have hw2 : 0 ≤ w.2 := by rw [n2]; exact hnn
  refine ⟨n1, h3, by linarith, by rw [hsn]; split <;> simp, fun e1 e2 hφ => ?_⟩
  have e3 : w.2 = 0 := by linarith
  have e4 : z.hidden = x.hidden := by linarith
  have e5 := h6 e1 e4
  have hin : MPS.inner ds φ φ = MPS.inner ds (amp z.P) (amp z.P) := by
    unfold MPS.inner
    exact sumCfg_congr fun s hs => by rw [e5 s hs]; rfl
  have hns := norm2_spec (𝕜 := ℂ) ⟨h2, 1, h1⟩
  have hS0 : 0 ≤ sumCfg ds (fun s => ‖amp z.P s‖ ^ 2) := sumCfg_nonneg _ _ fun s _ => by positivity
  have hS : sumCfg ds (fun s => ‖amp z.P s‖ ^ 2) ≠ 0 := by
    intro h0
    rw [hin, inner_self_ofReal, h0] at hφ
    exact hφ (by simp)
  have hN : 0 < norm2 z.P := by rw [hns]; exact Real.sqrt_pos.2 (lt_of_le_of_ne hS0 (Ne.symm hS))
  obtain ⟨m1, m2⟩ := n5 e3 hN.ne'
  refine ⟨m1, 1 / norm2 z.P, ?_, by positivity, fun s hs => ?_⟩
  · rw [hin, inner_self_ofReal, ← Complex.ofReal_pow]
    have : (1 / norm2 z.P) ^ 2 * sumCfg ds (fun s => ‖amp z.P s‖ ^ 2) = 1 := by
      rw [div_pow, hns, Real.sq_sqrt hS0]; field_simp
    have := congrArg Complex.ofReal this
    rw [Complex.ofReal_mul, Complex.ofReal_one] at this
    exact this
  · rw [m2 s hs, e5 s hs]; rfl

theorem runCalls_amp {svd : Tensor ℂ → SvdRes ℂ} (hg : GoodSvd svd) (eps : ℝ) {dflt : ℝ} (hd0 : 0 < dflt)
    (simplifyObc : List (Tensor ℂ) → Int → Nat → Bool → Nat → List (Tensor ℂ) × ℝ)
    {expm : Tensor ℂ → Tensor ℂ} (hexp : ∀ A n, A.dims = [n, n] → (expm A).dims = [n, n])
    {H : Ham ℂ} {ds : List Nat} (hH : HamFits H ds) (dt : ℂ) (U : List Unitary) :
    ∀ (cs : List (Call × Nat × ℂ)),
    (∀ c ∈ cs, c.1.simplify = false ∧ c.1.normalize = false ∧ (c.1.tol < 0 ∨ 0 < c.1.tol) ∧ c.2.1 ≤ 1 ∧
      mkUnitary expm H c.2.1 (dt * c.2.2) = some (U.getD c.1.which ⟨0, 0, []⟩)) →
    ∀ (x : Evo) (hx : IsMPS ds x.P) (sense : Int),
    let y := (cs.map Prod.fst).foldl (runCall svd eps dflt simplifyObc U) (x, sense)
    IsMPS ds y.1.P ∧ x.err ≤ y.1.err ∧ x.hidden ≤ y.1.hidden ∧
    (y.1.err = x.err → y.1.hidden = x.hidden → ∀ s, IsCfg ds s →
      amp y.1.P s = layerSteps expm H ds dt (cs.map Prod.snd) (amp x.P) s) := by
  intro cs
  induction cs with
  | nil => intro _ x hx _; exact ⟨hx, le_rfl, le_rfl, fun _ _ _ _ => rfl⟩
  | cons c cs ih =>
    intro hcs x hx sense
    obtain ⟨c1, c2, c3, c4, c5⟩ := hcs c (by simp)
    obtain ⟨a1, a2, a3, -, -, a6⟩ := C59_apply hg eps hd0 hexp hH c.2.1 c4 (dt * c.2.2) c5 x hx sense c.1.tol c3 c.1.D
    intro y
    set r := runCall svd eps dflt simplifyObc U (x, sense) c.1 with hr
    have hr' : r = (⟨(apply svd eps dflt (U.getD c.1.which ⟨0, 0, []⟩) x sense c.1.tol c.1.D false).1.P,
        if c.1.counted then (apply svd eps dflt (U.getD c.1.which ⟨0, 0, []⟩) x sense c.1.tol c.1.D false).1.err else x.err,
        (apply svd eps dflt (U.getD c.1.which ⟨0, 0, []⟩) x sense c.1.tol c.1.D false).1.hidden + (if c.1.counted then 0 else
          (apply svd eps dflt (U.getD c.1.which ⟨0, 0, []⟩) x sense c.1.tol c.1.D false).1.err - x.err)⟩,
        (apply svd eps dflt (U.getD c.1.which ⟨0, 0, []⟩) x sense c.1.tol c.1.D false).2) := by
      rw [hr]; unfold runCall; simp only [c1, c2]; rfl
    set A := apply svd eps dflt (U.getD c.1.which ⟨0, 0, []⟩) x sense c.1.tol c.1.D false with hA
    have rP : r.1.P = A.1.P := by rw [hr']
    have re : x.err ≤ r.1.err := by
      rw [hr']; simp only; split
      · exact a2
      · exact le_rfl
    have rh : x.hidden ≤ r.1.hidden := by
      rw [hr']; simp only; split <;> linarith
    have rr : r.1.err = x.err → r.1.hidden = x.hidden → A.1.err = x.err ∧ A.1.hidden = x.hidden := by
      rw [hr']; simp only
      by_cases hc : c.1.counted = true
      · rw [if_pos hc, if_pos hc]; intro h1 h2; exact ⟨h1, by linarith⟩
      · rw [if_neg hc, if_neg hc]; intro _ h2; exact ⟨by linarith, by linarith⟩
    have hyr : y = (cs.map Prod.fst).foldl (runCall svd eps dflt simplifyObc U) (r.1, r.2) := rfl
    obtain ⟨b1, b2, b3, b4⟩ := ih (fun c hc => hcs c (by simp [hc])) r.1 (by rw [rP]; exact a1) r.2
    rw [← hyr] at b1 b2 b3 b4
    refine ⟨b1, re.trans b2, rh.trans b3, fun e1 e2 s hs => ?_⟩
    have g1 : y.1.err = r.1.err := by linarith
    have g2 : y.1.hidden = r.1.hidden := by linarith
    obtain ⟨k1, k2⟩ := rr (by linarith) (by linarith)
    rw [b4 g1 g2 s hs]
    simp only [List.map_cons, layerSteps, List.foldl_cons]
    have hφ : ∀ s, IsCfg ds s → amp r.1.P s = layerStep expm H ds dt (amp x.P) c.2 s := by
      intro s hs
      rw [rP, a6 k1 k2 s hs]
      unfold layerStep
      refine actOp_congr (fun s t => layerElt_congr (fun p hp => ?_) s t) (fun _ _ => rfl) s
      obtain ⟨W, w1, w2⟩ := C58_gates hH expm (dt * c.2.2) c.2.1 c4
      rw [c5] at w1
      cases w1
      exact w2 p hp
    have : ∀ (ls : List (Nat × ℂ)) (φ φ' : List Nat → ℂ), (∀ s, IsCfg ds s → φ s = φ' s) → ∀ s, IsCfg ds s →
        ls.foldl (layerStep expm H ds dt) φ s = ls.foldl (layerStep expm H ds dt) φ' s := by
      intro ls
      induction ls with
      | nil => intro φ φ' h s hs; exact h s hs
      | cons l ls ih2 =>
        intro φ φ' h s hs
        exact ih2 _ _ (fun s _ => actOp_congr (fun _ _ => rfl) h s) s hs
    exact this _ _ _ hφ s hs

/-- the layers, in order of application, of one step of the solvers: parity and duration -/
noncomputable def steps2 : List (Nat × ℂ) := [(0, 1), (1, 1)]
/-- second order -/
noncomputable def steps3 : List (Nat × ℂ) := [(0, 1 / 2), (1, 1), (0, 1 / 2)]
/-- Forest-Ruth -/
noncomputable def stepsFR : List (Nat × ℂ) :=
  [(0, 0.67560359597983), (1, 1.35120719195966), (0, -0.17560359597983), (1, -1.70241438391932), (0, -0.17560359597983),
    (1, 1.35120719195966), (0, 0.67560359597983)]

/-- What `one_step` without simplification does: the result is an MPS of the same chain and, if no singular value is
dropped, its wave function is obtained by evolving with the layers `ls`, one after the other. -/
def StepIs (svd : Tensor ℂ → SvdRes ℂ) (eps dflt : ℝ) (S : Solver) (strategy : Strategy) (ls : List (Nat × ℂ)) : Prop :=
  ∀ (simplifyObc : List (Tensor ℂ) → Int → Nat → Bool → Nat → List (Tensor ℂ) × ℝ) (expm : Tensor ℂ → Tensor ℂ),
    (∀ A n, A.dims = [n, n] → (expm A).dims = [n, n]) →
  ∀ (H : Ham ℂ) (ds : List Nat), HamFits H ds → ∀ (dt : ℂ),
  ∃ U, S.unitaries expm H dt = some U ∧
  ∀ (P : List (Tensor ℂ)), IsMPS ds P → ∀ (sense : Int) (Dmax : Nat), (strategy ≠ .doNotTruncate → Dmax ≠ 0) →
  ∃ y sense', oneStep svd eps dflt simplifyObc S U strategy false sense P Dmax = some (y, sense') ∧ IsMPS ds y.P ∧
    0 ≤ y.err ∧ 0 ≤ y.hidden ∧
    (y.err = 0 → y.hidden = 0 → ∀ s, IsCfg ds s → amp y.P s = layerSteps expm H ds dt ls (amp P) s)

theorem stepIs_of {svd : Tensor ℂ → SvdRes ℂ} (hg : GoodSvd svd) (eps : ℝ) {dflt : ℝ} (hd0 : 0 < dflt) (S : Solver)
    (strategy : Strategy) (ls : List (Nat × ℂ))
    (hl : ∀ l ∈ S.layers, l.1 = 0 ∨ l.1 = 1)
    (hls : ∀ Dmax, ls = (S.calls strategy false Dmax).map fun c => ((S.layers.getD c.which (0, 0)).1.toNat, (S.layers.getD c.which (0, 0)).2))
    (hc : ∀ Dmax, ∀ c ∈ S.calls strategy false Dmax, c.simplify = false ∧ c.normalize = false ∧ (c.tol < 0 ∨ 0 < c.tol) ∧
      c.which < S.layers.length) :
    StepIs svd eps dflt S strategy ls := by
  intro simplifyObc expm hexp H ds hH dt
  have hm : ∀ l ∈ S.layers, ∃ W, mkUnitary expm H l.1 (dt * l.2) = some W := by
    intro l hl'
    have : ∃ k : Nat, k ≤ 1 ∧ l.1 = k := by
      rcases hl l hl' with h | h
      · exact ⟨0, by omega, by simpa using h⟩
      · exact ⟨1, by omega, by simpa using h⟩
    obtain ⟨k, hk, e⟩ := this
    obtain ⟨W, hW, -⟩ := mkUnitary_fits hexp hH k hk (dt * l.2)
    exact ⟨W, by rw [e]; exact hW⟩
  have hU : ∀ ll : List (Int × ℂ), (∀ l ∈ ll, ∃ W, mkUnitary expm H l.1 (dt * l.2) = some W) →
      ∃ U, ll.mapM (fun l => mkUnitary expm H l.1 (dt * l.2)) = some U ∧ ∀ i, i < ll.length →
        mkUnitary expm H (ll.getD i (0, 0)).1 (dt * (ll.getD i (0, 0)).2) = some (U.getD i ⟨0, 0, []⟩) := by
    intro ll
    induction ll with
    | nil => intro _; exact ⟨[], rfl, fun i hi => by simp at hi⟩
    | cons l ll ih =>
      intro h
      obtain ⟨W, hW⟩ := h l (by simp)
      obtain ⟨U, u1, u2⟩ := ih fun l hl => h l (by simp [hl])
      refine ⟨W :: U, by simp [List.mapM_cons, hW, u1], fun i hi => ?_⟩
      cases i with
      | zero => simpa using hW
      | succ i => simpa using u2 i (by simpa using hi)
  obtain ⟨U, u1, u2⟩ := hU S.layers hm
  refine ⟨U, u1, fun P hP sense Dmax hD => ?_⟩
  have h := runCalls_amp hg eps hd0 simplifyObc hexp hH dt U
    ((S.calls strategy false Dmax).map fun c => (c, (S.layers.getD c.which (0, 0)).1.toNat, (S.layers.getD c.which (0, 0)).2))
    (by
      intro c hcm
      obtain ⟨c', m, rfl⟩ := List.mem_map.1 hcm
      obtain ⟨h1, h2, h3, h4⟩ := hc Dmax c' m
      have h5 := u2 c'.which h4
      have hmem : S.layers.getD c'.which (0, 0) ∈ S.layers := by
        rw [List.getD_eq_getElem _ _ h4]; exact List.getElem_mem h4
      have h6 := hl _ hmem
      refine ⟨h1, h2, h3, by simp only; omega, ?_⟩
      rw [← h5]
      simp only
      rw [Int.toNat_of_nonneg (by omega)])
    ⟨P, 0, 0⟩ hP sense
  simp only [List.map_map, Function.comp_def, List.map_id'] at h
  rw [← hls Dmax] at h
  unfold oneStep
  rw [if_neg (by tauto)]
  exact ⟨_, _, rfl, h⟩

/-- **C59**: one step of `Trotter2Solver`: even layer, then odd layer -/
theorem C59_trotter2 {svd : Tensor ℂ → SvdRes ℂ} (hg : GoodSvd svd) {eps : ℝ} (he : 0 < eps) {dflt : ℝ} (hd0 : 0 < dflt) :
    StepIs svd eps dflt (trotter2 eps) .eachUnitary steps2 ∧ StepIs svd eps dflt (trotter2 eps) .doNotTruncate steps2 := by
  constructor <;>
  · refine stepIs_of hg eps hd0 _ _ _ ?_ ?_ ?_
    · simp [trotter2]
    · intro D; simp [trotter2, steps2]
    · intro D; simp [trotter2, defaultTol, he, he.ne']

/-- **C59**: one step of `Trotter3Solver`: half an even layer, odd layer, half an even layer -/
theorem C59_trotter3 {svd : Tensor ℂ → SvdRes ℂ} (hg : GoodSvd svd) {eps : ℝ} (he : 0 < eps) {dflt : ℝ} (hd0 : 0 < dflt) :
    StepIs svd eps dflt (trotter3 eps) .eachUnitary steps3 ∧ StepIs svd eps dflt (trotter3 eps) .doNotTruncate steps3 := by
  constructor <;>
  · refine stepIs_of hg eps hd0 _ _ _ ?_ ?_ ?_
    · simp [trotter3]
    · intro D; simp [trotter3, steps3]
    · intro D; simp [trotter3, defaultTol, he, he.ne']

/-- **C59**: one step of `ForestRuthSolver` -/
theorem C59_forest_ruth {svd : Tensor ℂ → SvdRes ℂ} (hg : GoodSvd svd) (eps : ℝ) {dflt : ℝ} (hd0 : 0 < dflt) :
    StepIs svd eps dflt forestRuth .eachUnitary stepsFR ∧ StepIs svd eps dflt forestRuth .doNotTruncate stepsFR := by
  constructor <;>
  · refine stepIs_of hg eps hd0 _ _ _ ?_ ?_ ?_
    · simp [forestRuth]
    · intro D; simp [forestRuth, stepsFR, frParam]
    · intro D; simp [forestRuth, defaultTol]

/-- **C59**: `one_step` aborts exactly when it is asked to truncate and the maximal dimension is 0 -/
theorem C59_abort (svd : Tensor ℂ → SvdRes ℂ) (eps dflt : ℝ)
    (simplifyObc : List (Tensor ℂ) → Int → Nat → Bool → Nat → List (Tensor ℂ) × ℝ) (S : Solver) (U : List Unitary)
    (strategy : Strategy) (normalize : Bool) (sense : Int) (P : List (Tensor ℂ)) (Dmax : Nat) :
    oneStep svd eps dflt simplifyObc S U strategy normalize sense P Dmax = none ↔ Dmax = 0 ∧ strategy ≠ .doNotTruncate := by
  unfold oneStep
  split <;> simp_all

end MPS.Props
