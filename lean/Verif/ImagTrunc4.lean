import Verif.ImagTrunc3

/-! # Several layers of gates which need not be unitary, with truncation -/

set_option linter.unusedSectionVars false
set_option linter.unusedSimpArgs false

namespace MPS.Trotter
open MPS Tensor Minim Order Props

/-- `x` is obtained from `x0` up to truncations in `M` layers of `L` sites; each layer multiplies the norm by `G` at most -/
structure DoneB (ds : List Nat) (tau G : ℝ) (E : Prop) (x0 : Evo) (φ : List Nat → ℂ) (x : Evo) (sense : Int) (M : Nat) : Prop where
  cent : Cent ds x.P (startAt ds.length sense)
  err : x0.err ≤ x.err
  hidden : x0.hidden ≤ x.hidden
  norm : wnorm ds (amp x.P) ≤ G ^ M * wnorm ds (amp x0.P)
  dist : wdist ds (amp x.P) φ ≤ G ^ M * Real.sqrt ((M * ds.length : Nat) * (x.tot - x0.tot))
  small : x.hidden ≤ x0.hidden + (M * ds.length : Nat) * (tau * (G ^ M * wnorm ds (amp x0.P)) ^ 2)
  alive : wnorm ds (amp x0.P) ≠ 0 → wnorm ds (amp x.P) ≠ 0
  keeps : E → x.err ≤ x0.err + (M * ds.length : Nat) * (tau * (G ^ M * wnorm ds (amp x0.P)) ^ 2)

theorem apply_doneB {svd : Tensor ℂ → SvdRes ℂ} (hg : GoodSvd svd) (eps : ℝ) {dflt : ℝ} (hd0 : 0 < dflt) (hsort : SortedSvd svd) (hm : max dflt eps < 1)
    {H : Ham ℂ} {ds : List Nat} (hH : HamFits H ds) (hpos : 0 < ds.length) {r : ℝ} {g : ℝ} (hg1 : 1 ≤ g)
    (hgb : ∀ k, k ≤ 1 → ∀ z : ℂ, ‖z‖ ≤ r → GatesBound ds k (fun p => matrixExp (smul z (layerGen H k p))) g)
    (dt : ℂ) (l : Nat × ℂ) (hk : l.1 ≤ 1) (hl : ‖dt * l.2‖ ≤ r) {W : Unitary}
    (hW : mkUnitary matrixExp H l.1 (dt * l.2) = some W) (x : Evo) (sense : Int) (hx : Cent ds x.P (startAt ds.length sense)) (tol : ℝ)
    (htol : tol < 0 ∨ 0 < tol) {Dmax : Nat} (hD : Dmax ≠ 0)
    {E : Prop} (hE : E → ds.prod ≤ Dmax ∧ effTol dflt tol ≤ max dflt eps) :
    let y := apply svd eps dflt W x sense tol Dmax false
    DoneB ds (max dflt eps) (g ^ ds.length) E x (layerStep matrixExp H ds dt (amp x.P) l) y.1 y.2 1 := by
  obtain ⟨W', e, hf, -⟩ := mkUnitary_fits exists_goodExpm.dims hH l.1 hk (dt * l.2)
  rw [hW] at e
  cases e
  have ht : 0 < effTol dflt tol := by
    unfold effTol; rcases htol with h | h
    · rw [if_pos h]; exact hd0
    · rw [if_neg (by linarith)]; exact h
  obtain ⟨W', w1, w2⟩ := C58_gates hH matrixExp (dt * l.2) l.1 hk
  rw [hW] at w1
  cases w1
  have hu : GatesBound ds l.1 W.gate g := by
    obtain ⟨h1, h2⟩ := hgb l.1 hk ⟨-|(dt * l.2).im|, -(dt * l.2).re⟩ (by rw [norm_rotated]; exact hl)
    constructor
    · intro p hp φ
      rw [show W.gate p = _ from w2 p (Or.inl hp)]
      exact h1 p hp φ
    · intro p hp φ
      rw [show W.gate p = _ from w2 p (Or.inr hp)]
      exact h2 p hp φ
  intro y
  set s := (if sense = 0 then 1 else sense) with hs
  have hs0 : s ≠ 0 := by rw [hs]; split <;> omega
  have hst : startAt ds.length sense = startAt ds.length s := by
    unfold startAt; rw [hs]
    by_cases h0 : sense = 0
    · simp [h0]
    · rw [if_neg h0]
  have hy : y = (sweep svd eps dflt W x s tol Dmax, -s) := by
    rw [show y = _ from apply_eq _ _ _ _ _ _ _ _ _]; simp [hs]
  obtain ⟨S, hS, hn⟩ := sweep_nearB hg eps hd0 hf hg1 hsort hm hu x hpos s hs0 (by rw [← hst]; exact hx) tol ht hD hE
  rw [hy]
  refine ⟨hn.cent, hn.err, hn.hidden, by rw [pow_one]; exact hn.norm, ?_, by rw [pow_one, Nat.one_mul]; exact hn.small, hn.alive,
    fun h => by rw [pow_one, Nat.one_mul]; exact hn.keeps h⟩
  have hgo : ∀ t, IsCfg ds t → actOp ds (partElt ds l.1 W.gate S) (amp x.P) t = layerStep matrixExp H ds dt (amp x.P) l t := by
    intro t ht'
    refine (actOp_congr (fun s t => partElt_all ds l.1 W.gate S hS s t) (fun _ _ => rfl) t).trans ?_
    exact actOp_congr (fun s t => layerElt_congr (fun p hp => w2 p hp) s t) (fun _ _ => rfl) t
  rw [wdist_congr (φ' := amp (sweep svd eps dflt W x s tol Dmax).P) (fun _ _ => rfl) (fun t ht' => (hgo t ht').symm), pow_one, Nat.one_mul]
  exact hn.dist

theorem layerSteps_bound {H : Ham ℂ} {ds : List Nat} {dt : ℂ} {G : ℝ} (hG : 1 ≤ G) {ls : List (Nat × ℂ)}
    (h : ∀ l ∈ ls, ∀ φ, wnorm ds (layerStep matrixExp H ds dt φ l) ≤ G * wnorm ds φ) (φ : List Nat → ℂ) :
    wnorm ds (layerSteps matrixExp H ds dt ls φ) ≤ G ^ ls.length * wnorm ds φ := by
  unfold layerSteps
  induction ls generalizing φ with
  | nil => simp
  | cons l ls ih =>
    simp only [List.foldl_cons, List.length_cons]
    refine (ih (fun l hl => h l (by simp [hl])) _).trans ?_
    rw [pow_succ, mul_assoc]
    exact mul_le_mul_of_nonneg_left (h l (by simp) φ) (by positivity)

theorem calls_doneB {svd : Tensor ℂ → SvdRes ℂ} (hg : GoodSvd svd) (eps : ℝ) {dflt : ℝ} (hd0 : 0 < dflt) (hsort : SortedSvd svd) (hm : max dflt eps < 1)
    (simplifyObc : List (Tensor ℂ) → Int → Nat → Bool → Nat → List (Tensor ℂ) × ℝ)
    {H : Ham ℂ} {ds : List Nat} (hH : HamFits H ds) (hpos : 0 < ds.length) {r : ℝ} {g G : ℝ} (hg1 : 1 ≤ g) (hgG : g ^ ds.length ≤ G)
    (hgb : ∀ k, k ≤ 1 → ∀ z : ℂ, ‖z‖ ≤ r → GatesBound ds k (fun p => matrixExp (smul z (layerGen H k p))) g)
    (hlb : ∀ (dt : ℂ) (l : Nat × ℂ), l.1 ≤ 1 → ‖dt * l.2‖ ≤ r → ∀ φ, wnorm ds (layerStep matrixExp H ds dt φ l) ≤ G * wnorm ds φ)
    (dt : ℂ) (U : List Unitary) {E : Prop} :
    ∀ (cs : List (Call × Nat × ℂ)),
    (∀ c ∈ cs, c.1.simplify = false ∧ c.1.normalize = false ∧ c.1.counted = true ∧ c.1.D ≠ 0 ∧ (c.1.tol < 0 ∨ 0 < c.1.tol) ∧ c.2.1 ≤ 1 ∧
      ‖dt * c.2.2‖ ≤ r ∧ mkUnitary matrixExp H c.2.1 (dt * c.2.2) = some (U.getD c.1.which ⟨0, 0, []⟩) ∧
      (E → ds.prod ≤ c.1.D ∧ effTol dflt c.1.tol ≤ max dflt eps)) →
    ∀ (x : Evo) (sense : Int) (_ : Cent ds x.P (startAt ds.length sense)),
    let y := (cs.map Prod.fst).foldl (runCall svd eps dflt simplifyObc U) (x, sense)
    DoneB ds (max dflt eps) G E x (layerSteps matrixExp H ds dt (cs.map Prod.snd) (amp x.P)) y.1 y.2 cs.length := by
  have hG1 : 1 ≤ G := (one_le_pow₀ hg1).trans hgG
  have G0 : 0 ≤ G := by linarith
  intro cs
  induction cs with
  | nil =>
    intro _ x sense hx
    refine ⟨hx, le_rfl, le_rfl, by simp, ?_, by simp, id, fun _ => by simp⟩
    rw [show layerSteps matrixExp H ds dt (([] : List (Call × Nat × ℂ)).map Prod.snd) (amp x.P) = amp x.P from rfl, show
      ((([] : List (Call × Nat × ℂ)).map Prod.fst).foldl (runCall svd eps dflt simplifyObc U) (x, sense)).1 = x from rfl, wdist_self]
    simp
  | cons c cs ih =>
    intro hcs x sense hx
    obtain ⟨c1, c2, c3, c4, c5, c6, c7, c8, c9⟩ := hcs c (by simp)
    have a := apply_doneB hg eps hd0 hsort hm hH hpos hg1 hgb dt c.2 c6 c7 c8 x sense hx c.1.tol c5 c4 c9
    intro y
    set rr := runCall svd eps dflt simplifyObc U (x, sense) c.1 with hr
    have hr' : rr = apply svd eps dflt (U.getD c.1.which ⟨0, 0, []⟩) x sense c.1.tol c.1.D false := by
      rw [hr]; unfold runCall; simp only [c1, c2, c3]; simp
    rw [← hr'] at a
    have hyr : y = (cs.map Prod.fst).foldl (runCall svd eps dflt simplifyObc U) (rr.1, rr.2) := rfl
    have b := ih (fun c hc => hcs c (by simp [hc])) rr.1 rr.2 a.cent
    rw [← hyr] at b
    have hae := a.err
    have hah := a.hidden
    have hbe := b.err
    have hbh := b.hidden
    have t1 : 0 ≤ rr.1.tot - x.tot := by unfold Evo.tot; linarith
    have t2 : 0 ≤ y.1.tot - rr.1.tot := by unfold Evo.tot; linarith
    have w0 := wnorm_nonneg ds (amp x.P)
    have g0 : 0 ≤ g ^ ds.length := by positivity
    have tau0 : 0 ≤ max dflt eps := hd0.le.trans (le_max_left _ _)
    have an : wnorm ds (amp rr.1.P) ≤ G * wnorm ds (amp x.P) := by
      have := a.norm
      rw [pow_one] at this
      exact this.trans (by gcongr)
    have wr := wnorm_nonneg ds (amp rr.1.P)
    refine ⟨b.cent, a.err.trans b.err, a.hidden.trans b.hidden, ?_, ?_, ?_, fun h => b.alive (a.alive h), ?_⟩
    · refine b.norm.trans ?_
      rw [List.length_cons, pow_succ, mul_assoc]
      gcongr
    · have e : layerSteps matrixExp H ds dt ((c :: cs).map Prod.snd) (amp x.P)
          = layerSteps matrixExp H ds dt (cs.map Prod.snd) (layerStep matrixExp H ds dt (amp x.P) c.2) := rfl
      rw [e]
      refine (wdist_tri _ _ (layerSteps matrixExp H ds dt (cs.map Prod.snd) (amp rr.1.P)) _).trans ?_
      have lb : wdist ds (layerSteps matrixExp H ds dt (cs.map Prod.snd) (amp rr.1.P))
          (layerSteps matrixExp H ds dt (cs.map Prod.snd) (layerStep matrixExp H ds dt (amp x.P) c.2))
          ≤ G ^ cs.length * wdist ds (amp rr.1.P) (layerStep matrixExp H ds dt (amp x.P) c.2) := by
        have := layerSteps_bound (H := H) (ds := ds) (dt := dt) hG1 (ls := cs.map Prod.snd) (by
          intro l hl
          obtain ⟨c', m, rfl⟩ := List.mem_map.1 hl
          obtain ⟨-, -, -, -, -, m6, m7, -, -⟩ := hcs c' (by simp [m])
          exact hlb dt c'.2 m6 m7) (fun s => amp rr.1.P s - layerStep matrixExp H ds dt (amp x.P) c.2 s)
        rw [List.length_map] at this
        rw [wdist, wdist]
        refine le_trans (le_of_eq ?_) this
        congr 1
        funext s
        exact (layerSteps_sub matrixExp H ds dt _ _ _ s).symm
      have ad : wdist ds (amp rr.1.P) (layerStep matrixExp H ds dt (amp x.P) c.2) ≤ G * Real.sqrt (ds.length * (rr.1.tot - x.tot)) := by
        have := a.dist
        rw [pow_one, Nat.one_mul] at this
        exact this.trans (by gcongr)
      have ss := sqrt_step (d := Real.sqrt (ds.length * (rr.1.tot - x.tot)))
        (d' := Real.sqrt ((cs.length * ds.length : Nat) * (y.1.tot - rr.1.tot))) (Nat.cast_nonneg _) t1 (Nat.cast_nonneg _) t2 le_rfl le_rfl
      have bd := b.dist
      have q : G ^ cs.length ≤ G ^ (cs.length + 1) := pow_le_pow_right₀ hG1 (by omega)
      rw [List.length_cons]
      calc _ ≤ G ^ cs.length * Real.sqrt ((cs.length * ds.length : Nat) * (y.1.tot - rr.1.tot))
            + G ^ cs.length * (G * Real.sqrt (ds.length * (rr.1.tot - x.tot))) := add_le_add bd (lb.trans (by gcongr))
        _ ≤ G ^ (cs.length + 1) * Real.sqrt ((cs.length * ds.length : Nat) * (y.1.tot - rr.1.tot))
            + G ^ (cs.length + 1) * Real.sqrt (ds.length * (rr.1.tot - x.tot)) := by
          refine add_le_add (by gcongr) (le_of_eq ?_)
          rw [pow_succ]; ring
        _ = G ^ (cs.length + 1) * (Real.sqrt (ds.length * (rr.1.tot - x.tot))
            + Real.sqrt ((cs.length * ds.length : Nat) * (y.1.tot - rr.1.tot))) := by ring
        _ ≤ _ := by
          gcongr
          refine ss.trans (le_of_eq ?_)
          congr 1
          push_cast; ring
    · have h1 := a.small
      have h2 := b.small
      rw [pow_one, Nat.one_mul] at h1
      rw [List.length_cons]
      have k1 : (g ^ ds.length * wnorm ds (amp x.P)) ^ 2 ≤ (G ^ (cs.length + 1) * wnorm ds (amp x.P)) ^ 2 := by
        gcongr
        calc g ^ ds.length ≤ G := hgG
          _ = G ^ 1 := (pow_one G).symm
          _ ≤ _ := pow_le_pow_right₀ hG1 (by omega)
      have k2 : (G ^ cs.length * wnorm ds (amp rr.1.P)) ^ 2 ≤ (G ^ (cs.length + 1) * wnorm ds (amp x.P)) ^ 2 := by
        have : G ^ cs.length * wnorm ds (amp rr.1.P) ≤ G ^ (cs.length + 1) * wnorm ds (amp x.P) := by
          rw [pow_succ, mul_assoc]; gcongr
        gcongr
      have m1 := mul_le_mul_of_nonneg_left (mul_le_mul_of_nonneg_left k1 tau0) (Nat.cast_nonneg (α := ℝ) ds.length)
      have m2 := mul_le_mul_of_nonneg_left (mul_le_mul_of_nonneg_left k2 tau0) (Nat.cast_nonneg (α := ℝ) (cs.length * ds.length))
      have e : (((cs.length + 1) * ds.length : Nat) : ℝ) = (cs.length * ds.length : Nat) + ds.length := by push_cast; ring
      rw [e, add_mul]
      linarith
    · intro hE
      have h1 := a.keeps hE
      have h2 := b.keeps hE
      rw [pow_one, Nat.one_mul] at h1
      rw [List.length_cons]
      have k1 : (g ^ ds.length * wnorm ds (amp x.P)) ^ 2 ≤ (G ^ (cs.length + 1) * wnorm ds (amp x.P)) ^ 2 := by
        gcongr
        calc g ^ ds.length ≤ G := hgG
          _ = G ^ 1 := (pow_one G).symm
          _ ≤ _ := pow_le_pow_right₀ hG1 (by omega)
      have k2 : (G ^ cs.length * wnorm ds (amp rr.1.P)) ^ 2 ≤ (G ^ (cs.length + 1) * wnorm ds (amp x.P)) ^ 2 := by
        have : G ^ cs.length * wnorm ds (amp rr.1.P) ≤ G ^ (cs.length + 1) * wnorm ds (amp x.P) := by
          rw [pow_succ, mul_assoc]; gcongr
        gcongr
      have m1 := mul_le_mul_of_nonneg_left (mul_le_mul_of_nonneg_left k1 tau0) (Nat.cast_nonneg (α := ℝ) ds.length)
      have m2 := mul_le_mul_of_nonneg_left (mul_le_mul_of_nonneg_left k2 tau0) (Nat.cast_nonneg (α := ℝ) (cs.length * ds.length))
      have e : (((cs.length + 1) * ds.length : Nat) : ℝ) = (cs.length * ds.length : Nat) + ds.length := by push_cast; ring
      rw [e, add_mul]
      linarith

end MPS.Trotter
