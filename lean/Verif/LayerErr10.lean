import Verif.LayerErr9
import Verif.LayerErrSpec
import Verif.Props.ObcProps3

/-! # Several layers of the default strategy -/

set_option linter.unusedSectionVars false
set_option linter.unusedSimpArgs false

namespace MPS.Trotter
open MPS Tensor Minim Order Props

/-- a chain of isometries -/
theorem iso_prod {a : Nat} {post : List (Tensor ℂ)} {ds : List Nat} (w : WF a post ds 1) (h : ∀ A ∈ post, RightIso A) : a ≤ ds.prod := by
  generalize hb : 1 = b at w
  induction w with
  | nil => simp [← hb]
  | cons h1 _ _ _ _ ih =>
    rw [List.prod_cons]
    exact (iso_bound h1 (h _ (by simp))).trans (Nat.mul_le_mul_left _ (ih (fun A hA => h A (by simp [hA])) hb))

theorem cent_bond {ds : List Nat} {P : List (Tensor ℂ)} (h : Cent ds P 0) (hds : ∀ d ∈ ds, 0 < d) : ∀ j, j < ds.length → (site P j).dim 0 ≤ ds.prod := by
  intro j hj
  have hlen := h.wf.length
  have hp : 0 < ds.prod := List.prod_pos hds
  obtain ⟨a, b, w1, w2, w3, p1, p2, p3⟩ := WF.around h.wf hj
  rw [dim0_of w2]
  by_cases h0 : j = 0
  · subst h0
    rw [List.take_zero, List.take_zero] at w1
    cases w1
    exact hp
  · have wd : WF a (P.drop j) (ds.drop j) 1 := by
      rw [Form.drop_site (by omega), show ds.drop j = ds.getD j 0 :: ds.drop (j + 1) by rw [List.drop_eq_getElem_cons hj]; simp [hj]]
      exact WF.cons w2 p1 p2 p3 w3
    have h1 := iso_prod wd (mem_drop_iso hlen fun i h1 h2 => h.hi i (by omega) h2)
    refine h1.trans (Nat.le_of_dvd hp ?_)
    conv_rhs => rw [← List.take_append_drop j ds, List.prod_append]
    exact Dvd.intro_left _ rfl

theorem cent_largest {ds : List Nat} {P : List (Tensor ℂ)} (h : Cent ds P 0) (hds : ∀ d ∈ ds, 0 < d) (hpos : 0 < ds.length) : largestBond P ≤ ds.prod := by
  have hlen := h.wf.length
  obtain ⟨A, hA, e⟩ := (C68_largest_bond P).2 (by intro hh; rw [hh] at hlen; simp at hlen; omega)
  obtain ⟨i, hi, rfl⟩ := List.getElem_of_mem hA
  rw [← e]
  have := cent_bond h hds i (by omega)
  simpa [site, hi] using this

/-- `P` is obtained from `P0` by the layers which transform the wave function into `φ`; `K` layers -/
structure Layered (ds : List Nat) (tau : ℝ) (D : Nat) (P0 : List (Tensor ℂ)) (φ : List Nat → ℂ) (P : List (Tensor ℂ)) (K : Nat) : Prop where
  cent : Cent ds P 0
  bonds : ∀ j, 0 < j → j < ds.length → (site P j).dim 0 ≤ D
  norm : normSq ds P ≤ normSq ds P0
  small : normSq ds P0 - normSq ds P ≤ (K * (2 * ds.length) : Nat) * (tau * (D * normSq ds P0))
  dist : wdist ds (amp P) φ ≤ Real.sqrt ((K * (ds.length + 1) : Nat) * (normSq ds P0 - normSq ds P))

theorem layer_done {svd : Tensor ℂ → SvdRes ℂ} (hg : GoodSvd svd) (eps : ℝ) {dflt : ℝ} (hd0 : 0 < dflt)
    {expm : Tensor ℂ → Tensor ℂ} (he : GoodExpm expm)
    {H : Ham ℂ} {ds : List Nat} (hH : HamFits H ds) (hh : HamHermitian H ds) (hpos : 0 < ds.length) (dt : ℂ) (l : Nat × ℂ) (hk : l.1 ≤ 1)
    (hl : (dt * l.2).im = 0) {W : Unitary}
    (hW : mkUnitary expm H l.1 (dt * l.2) = some W) (P : List (Tensor ℂ)) (hx : Cent ds P 0) {D : Nat} (hD : 1 ≤ D)
    (hb : ∀ j, 0 < j → j < ds.length → (site P j).dim 0 ≤ D) (tol : ℝ)
    (htol : tol < 0 ∨ 0 < tol) {tau : ℝ} (htau : max (effTol dflt tol) (max dflt eps) ≤ tau) :
    let c := layerState svd eps dflt W P tol
    Cent ds c 0 ∧ normSq ds c ≤ normSq ds P ∧ normSq ds P - normSq ds c ≤ (2 * ds.length : Nat) * (tau * (D * normSq ds P)) ∧
      wdist ds (amp c) (layerStep expm H ds dt (amp P) l) ≤ Real.sqrt ((ds.length + 1 : Nat) * (normSq ds P - normSq ds c)) := by
  obtain ⟨W', e, hf, -⟩ := mkUnitary_fits he.dims hH l.1 hk (dt * l.2)
  rw [hW] at e
  cases e
  have ht : 0 < effTol dflt tol := by
    unfold effTol; rcases htol with h | h
    · rw [if_pos h]; exact hd0
    · rw [if_neg (by linarith)]; exact h
  obtain ⟨W', w1, w2⟩ := C58_gates hH expm (dt * l.2) l.1 hk
  rw [hW] at w1
  cases w1
  have hu : GatesUnitary ds l.1 W.gate := by
    constructor
    · intro p hp
      rw [show W.gate p = _ from w2 p (Or.inl hp)]
      exact he.unitary _ _ (by exact (layerGen_dims hH l.1).1 p hp) (anti_of_herm ((layerGen_hermitian hH hh l.1).1 p hp) (by simp [hl]))
    · intro p hp
      rw [show W.gate p = _ from w2 p (Or.inr hp)]
      exact he.unitary _ _ (by exact (layerGen_dims hH l.1).2 p hp) (anti_of_herm ((layerGen_hermitian hH hh l.1).2 p hp) (by simp [hl]))
  intro c
  have hc : c = (canonicalForm svd eps dflt (sweep svd eps dflt W ⟨P, 0, 0⟩ 1 tol 0).P (-1)).1 := by
    show layerState svd eps dflt W P tol = _
    unfold layerState
    rw [show apply svd eps dflt W ⟨P, 0, 0⟩ 1 tol 0 false = _ from apply_eq _ _ _ _ _ _ _ _ _]; simp
  obtain ⟨a1, a2, a3, a4⟩ := layer_back hg eps hd0 hf hu ⟨P, 0, 0⟩ hpos hD hx hb tol ht htau
  rw [← hc] at a1 a2 a3 a4
  refine ⟨a1, a2, a3, ?_⟩
  rw [wdist_congr (φ' := amp c) (χ' := actOp ds (layerElt ds l.1 W.gate) (amp P)) (fun _ _ => rfl)]
  · exact a4
  · intro t _
    unfold layerStep
    refine actOp_congr (fun s t => ?_) (fun _ _ => rfl) t
    exact layerElt_congr (fun p hp => (w2 p hp).symm) s t

theorem loopUp_P {b step : Int} {body : Nat → Evo → Evo} (h : ∀ k (x x' : Evo), x.P = x'.P → (body k x).P = (body k x').P) :
    ∀ (fuel : Nat) (k : Int) (x x' : Evo), x.P = x'.P → (loopUp b step body fuel k x).P = (loopUp b step body fuel k x').P := by
  intro fuel
  induction fuel with
  | zero => intro k x x' e; exact e
  | succ n ih =>
    intro k x x' e
    unfold loopUp
    split
    · exact ih _ _ _ (h _ _ _ e)
    · exact e

theorem applyOne_P (svd : Tensor ℂ → SvdRes ℂ) (eps dflt : ℝ) (x x' : Evo) (e : x.P = x'.P) (U : Tensor ℂ) (k : Nat) (dk : Int) :
    (applyOne svd eps dflt x U k dk 0).P = (applyOne svd eps dflt x' U k dk 0).P := by
  simp [applyOne, e]

theorem applyTwo_P (svd : Tensor ℂ → SvdRes ℂ) (eps dflt : ℝ) (x x' : Evo) (e : x.P = x'.P) (U : Tensor ℂ) (k : Nat) (dk : Int) (tol : ℝ) :
    (applyTwo svd eps dflt x U k dk tol 0).P = (applyTwo svd eps dflt x' U k dk tol 0).P := by
  simp [applyTwo, e]

/-- the new state does not depend on the errors accumulated before -/
theorem sweep_P (svd : Tensor ℂ → SvdRes ℂ) (eps dflt : ℝ) (W : Unitary) (x x' : Evo) (e : x.P = x'.P) (tol : ℝ) :
    (sweep svd eps dflt W x 1 tol 0).P = (sweep svd eps dflt W x' 1 tol 0).P := by
  unfold sweep
  simp only [show (1 : Int) > 0 by norm_num, if_true, e]
  refine loopUp_P (fun k x x' e => ?_) _ _ _ _ (loopUp_P (fun k x x' e => ?_) _ _ _ _ (loopUp_P (fun k x x' e => ?_) _ _ _ _ e))
  · exact applyOne_P svd eps dflt x x' e _ _ _
  · exact applyTwo_P svd eps dflt x x' e _ _ _ _
  · exact applyOne_P svd eps dflt x x' e _ _ _

theorem layerState_eq (svd : Tensor ℂ → SvdRes ℂ) (eps dflt : ℝ) (W : Unitary) (x : Evo) (tol : ℝ) :
    (canonicalForm svd eps dflt (apply svd eps dflt W ⟨x.P, 0, x.hidden⟩ 1 tol 0 false).1.P (-1)).1 = layerState svd eps dflt W x.P tol := by
  unfold layerState
  rw [show apply svd eps dflt W ⟨x.P, 0, 0⟩ 1 tol 0 false = _ from apply_eq _ _ _ _ _ _ _ _ _,
    show apply svd eps dflt W ⟨x.P, 0, x.hidden⟩ 1 tol 0 false = _ from apply_eq _ _ _ _ _ _ _ _ _]
  simp only [one_ne_zero, if_false, Bool.false_eq_true]
  rw [sweep_P svd eps dflt W ⟨x.P, 0, x.hidden⟩ ⟨x.P, 0, 0⟩ rfl]

/-- `apply_and_simplify` when no bond is too large -/
theorem simplify_not (svd : Tensor ℂ → SvdRes ℂ) (eps dflt : ℝ)
    (simplifyObc : List (Tensor ℂ) → Int → Nat → Bool → Nat → List (Tensor ℂ) × ℝ) (W : Unitary) (x : Evo) (tol : ℝ) (Dmax : Nat) (normalize : Bool) :
    (applyAndSimplify svd eps dflt simplifyObc W x tol Dmax normalize).1.P =
      if largestBond (layerState svd eps dflt W x.P tol) > Dmax then (simplifyObc (layerState svd eps dflt W x.P tol) (-1) 12 normalize Dmax).1
      else layerState svd eps dflt W x.P tol := by
  unfold applyAndSimplify
  simp only [layerState_eq]
  split <;> rfl

theorem bonds_of_largest {ds : List Nat} {P : List (Tensor ℂ)} (h : WF 1 P ds 1) {D : Nat} (hD : largestBond P ≤ D) :
    ∀ j, j < ds.length → (site P j).dim 0 ≤ D := by
  intro j hj
  have hlen := h.length
  refine le_trans ((C68_largest_bond P).1 _ ?_) hD
  have : j < P.length := by omega
  simp [site, this]

theorem calls_layered {svd : Tensor ℂ → SvdRes ℂ} (hg : GoodSvd svd) (eps : ℝ) {dflt : ℝ} (hd0 : 0 < dflt)
    (simplifyObc : List (Tensor ℂ) → Int → Nat → Bool → Nat → List (Tensor ℂ) × ℝ)
    {expm : Tensor ℂ → Tensor ℂ} (he : GoodExpm expm)
    {H : Ham ℂ} {ds : List Nat} (hH : HamFits H ds) (hh : HamHermitian H ds) (hpos : 0 < ds.length) (dt : ℂ) (U : List Unitary) {D : Nat} (hD : 1 ≤ D)
    {tau : ℝ} (htau : max dflt eps ≤ tau) :
    ∀ (cs : List (Call × Nat × ℂ)),
    (∀ c ∈ cs, c.1.simplify = true ∧ c.1.D = D ∧ (c.1.tol < 0 ∨ 0 < c.1.tol) ∧ c.1.tol ≤ tau ∧ c.2.1 ≤ 1 ∧
      (dt * c.2.2).im = 0 ∧ mkUnitary expm H c.2.1 (dt * c.2.2) = some (U.getD c.1.which ⟨0, 0, []⟩)) →
    ∀ (x : Evo × Int) (_ : Cent ds x.1.P 0) (_ : ∀ j, 0 < j → j < ds.length → (site x.1.P j).dim 0 ≤ D),
      NeverSimplified svd eps dflt U (cs.map Prod.fst) x.1.P →
    let y := (cs.map Prod.fst).foldl (runCall svd eps dflt simplifyObc U) x
    Layered ds tau D x.1.P (layerSteps expm H ds dt (cs.map Prod.snd) (amp x.1.P)) y.1.P cs.length := by
  intro cs
  induction cs with
  | nil =>
    intro _ x hx hb _
    refine ⟨hx, hb, le_rfl, by simp, ?_⟩
    rw [show layerSteps expm H ds dt (([] : List (Call × Nat × ℂ)).map Prod.snd) (amp x.1.P) = amp x.1.P from rfl, show
      ((([] : List (Call × Nat × ℂ)).map Prod.fst).foldl (runCall svd eps dflt simplifyObc U) x) = x from rfl, wdist_self]
    exact Real.sqrt_nonneg _
  | cons c cs ih =>
    intro hcs x hx hb hns
    obtain ⟨c1, c2, c3, c4, c5, c6, c7⟩ := hcs c (by simp)
    obtain ⟨hn1, hn2⟩ : largestBond (layerState svd eps dflt (U.getD c.1.which ⟨0, 0, []⟩) x.1.P c.1.tol) ≤ c.1.D ∧
      NeverSimplified svd eps dflt U (cs.map Prod.fst) (layerState svd eps dflt (U.getD c.1.which ⟨0, 0, []⟩) x.1.P c.1.tol) := hns
    have ht : max (effTol dflt c.1.tol) (max dflt eps) ≤ tau := by
      refine max_le ?_ htau
      unfold effTol
      split
      · exact (le_max_left _ _).trans htau
      · exact c4
    obtain ⟨a1, a2, a3, a4⟩ := layer_done hg eps hd0 he hH hh hpos dt c.2 c5 c6 c7 x.1.P hx hD hb c.1.tol c3 ht
    intro y
    set r := runCall svd eps dflt simplifyObc U x c.1 with hr
    have hr' : r.1.P = layerState svd eps dflt (U.getD c.1.which ⟨0, 0, []⟩) x.1.P c.1.tol := by
      rw [hr]; unfold runCall
      simp only [c1, if_true]
      rw [simplify_not, if_neg (by omega)]
    rw [← hr'] at a1 a2 a3 a4 hn1 hn2
    have hyr : y = (cs.map Prod.fst).foldl (runCall svd eps dflt simplifyObc U) r := rfl
    have b := ih (fun c hc => hcs c (by simp [hc])) r a1 (fun j h1 h2 => bonds_of_largest a1.wf (hn1.trans (le_of_eq c2)) j h2) hn2
    rw [← hyr] at b
    have hb1 := b.norm
    have n0 := Trotter.normSq_nonneg ds x.1.P
    have tau0 : 0 ≤ tau := (hd0.le.trans (le_max_left _ _)).trans htau
    refine ⟨b.cent, b.bonds, hb1.trans a2, ?_, ?_⟩
    · have h1 := b.small
      have h2 : tau * ((D : ℝ) * normSq ds r.1.P) ≤ tau * (D * normSq ds x.1.P) :=
        mul_le_mul_of_nonneg_left (mul_le_mul_of_nonneg_left a2 (Nat.cast_nonneg _)) tau0
      have h3 := mul_le_mul_of_nonneg_left h2 (Nat.cast_nonneg (α := ℝ) (cs.length * (2 * ds.length)))
      have e : (((c :: cs).length * (2 * ds.length) : Nat) : ℝ) * (tau * (D * normSq ds x.1.P))
          = (cs.length * (2 * ds.length) : Nat) * (tau * (D * normSq ds x.1.P)) + (2 * ds.length : Nat) * (tau * (D * normSq ds x.1.P)) := by
        simp only [List.length_cons]; push_cast; ring
      rw [e]
      linarith
    · have e : layerSteps expm H ds dt ((c :: cs).map Prod.snd) (amp x.1.P)
          = layerSteps expm H ds dt (cs.map Prod.snd) (layerStep expm H ds dt (amp x.1.P) c.2) := rfl
      rw [e]
      refine (wdist_tri _ _ (layerSteps expm H ds dt (cs.map Prod.snd) (amp r.1.P)) _).trans ?_
      rw [layerSteps_dist he hH hh dt _ (by
        intro l hl
        obtain ⟨c', m, rfl⟩ := List.mem_map.1 hl
        exact (hcs c' (by simp [m])).2.2.2.2.2.1), add_comm]
      refine (sqrt_step (Nat.cast_nonneg _) (by linarith) (Nat.cast_nonneg _) (by linarith) a4 b.dist).trans (le_of_eq ?_)
      congr 1
      simp only [List.length_cons]; push_cast; ring

end MPS.Trotter
