import Verif.ApplySweep
import Verif.TrotterTruncSpec
import Verif.Props.TrotterProps4

/-! # Several layers with truncation -/

set_option linter.unusedSectionVars false
set_option linter.unusedSimpArgs false

namespace MPS.Trotter
open MPS Tensor Minim Order Props

theorem ready_iff {ds : List Nat} {P : List (Tensor ℂ)} {sense : Int} :
    ReadyFor ds P sense ↔ Cent ds P (startAt ds.length sense) ∧ 0 < ds.length := by
  constructor
  · intro h
    have hl : 0 < ds.length := by rw [← h.wf.length]; exact List.length_pos_iff.2 h.nonempty
    refine ⟨?_, hl⟩
    unfold startAt
    by_cases hs : sense ≥ 0
    · rw [if_pos hs]
      exact ⟨h.wf, fun j hj => by omega, fun j hj hj2 => h.right hs j hj hj2⟩
    · rw [if_neg hs]
      exact ⟨h.wf, fun j hj => h.left (by omega) j (by omega), fun j hj hj2 => by omega⟩
  · rintro ⟨h, hl⟩
    refine ⟨h.wf, ?_, fun hs j hj hj2 => ?_, fun hs j hj => ?_⟩
    · rintro hh; have := h.wf.length; rw [hh] at this; simp at this; omega
    · exact h.hi j (by unfold startAt; rw [if_pos hs]; exact hj) hj2
    · exact h.lo j (by unfold startAt; rw [if_neg (by omega)]; omega)

theorem actOp_sub {ds : List Nat} {O : List Nat → List Nat → ℂ} (φ χ : List Nat → ℂ) (s : List Nat) :
    actOp ds O (fun s => φ s - χ s) s = actOp ds O φ s - actOp ds O χ s := by
  have : (fun t => O s t * (φ t - χ t)) = fun t => O s t * φ t + (-1) * (O s t * χ t) := by funext t; ring
  unfold actOp
  rw [this, sumCfg_add, sumCfg_mul_left]; ring

theorem layerSteps_sub (expm : Tensor ℂ → Tensor ℂ) (H : Ham ℂ) (ds : List Nat) (dt : ℂ) (ls : List (Nat × ℂ)) (φ χ : List Nat → ℂ) (s : List Nat) :
    layerSteps expm H ds dt ls (fun s => φ s - χ s) s = layerSteps expm H ds dt ls φ s - layerSteps expm H ds dt ls χ s := by
  unfold layerSteps
  induction ls generalizing φ χ with
  | nil => rfl
  | cons l ls ih =>
    simp only [List.foldl_cons]
    rw [← ih]
    have e : layerStep expm H ds dt (fun s => φ s - χ s) l = fun s => layerStep expm H ds dt φ l s - layerStep expm H ds dt χ l s :=
      funext fun s => actOp_sub φ χ s
    rw [e]

theorem layerSteps_dist {expm : Tensor ℂ → Tensor ℂ} (he : GoodExpm expm) {H : Ham ℂ} {ds : List Nat} (hH : HamFits H ds)
    (hh : HamHermitian H ds) (dt : ℂ) (ls : List (Nat × ℂ)) (hl : ∀ l ∈ ls, (dt * l.2).im = 0) (φ χ : List Nat → ℂ) :
    wdist ds (layerSteps expm H ds dt ls φ) (layerSteps expm H ds dt ls χ) = wdist ds φ χ := by
  have := wnorm_of_inner (layerSteps_norm he hH hh dt ls hl fun s => φ s - χ s)
  rw [wdist, wdist, ← this]
  congr 1
  funext s
  exact (layerSteps_sub expm H ds dt ls φ χ s).symm

/-- `x` is obtained from `x0` by the operation `op` on the wave function, up to truncations on `N` sites, in `M` layers -/
structure Done (ds : List Nat) (tau : ℝ) (x0 : Evo) (φ : List Nat → ℂ) (x : Evo) (sense : Int) (M N : Nat) : Prop where
  cent : Cent ds x.P (startAt ds.length sense)
  err : x0.err ≤ x.err
  hidden : x0.hidden ≤ x.hidden
  norm : normSq ds x.P = normSq ds x0.P - (x.tot - x0.tot)
  dist : wdist ds (amp x.P) φ ≤ Real.sqrt (M * (x.tot - x0.tot))
  small : x.hidden ≤ x0.hidden + N * (tau * normSq ds x0.P)

theorem apply_done {svd : Tensor ℂ → SvdRes ℂ} (hg : GoodSvd svd) (eps : ℝ) {dflt : ℝ} (hd0 : 0 < dflt)
    {expm : Tensor ℂ → Tensor ℂ} (he : GoodExpm expm)
    {H : Ham ℂ} {ds : List Nat} (hH : HamFits H ds) (hh : HamHermitian H ds) (hpos : 0 < ds.length) (dt : ℂ) (l : Nat × ℂ) (hk : l.1 ≤ 1)
    (hl : (dt * l.2).im = 0) {W : Unitary}
    (hW : mkUnitary expm H l.1 (dt * l.2) = some W) (x : Evo) (sense : Int) (hx : Cent ds x.P (startAt ds.length sense)) (tol : ℝ)
    (htol : tol < 0 ∨ 0 < tol) {Dmax : Nat} (hD : Dmax ≠ 0) :
    let y := apply svd eps dflt W x sense tol Dmax false
    Done ds (max dflt eps) x (layerStep expm H ds dt (amp x.P) l) y.1 y.2 1 ds.length := by
  obtain ⟨W', e, hf, -⟩ := mkUnitary_fits he.dims hH l.1 hk (dt * l.2)
  rw [hW] at e
  cases e
  have ht : 0 < effTol dflt tol := by
    unfold effTol; rcases htol with h | h
    · rw [if_pos h]; exact hd0
    · rw [if_neg (by linarith)]; exact h
  obtain ⟨W', w1, w2⟩ := C58_gates hH expm (dt * l.2) l.1 hk
  rw [hW] at w1
  cases w1
  have hu : GatesUnitary ds l.1 W.gate := by
    constructor
    · intro p hp
      rw [show W.gate p = _ from w2 p (Or.inl hp)]
      exact he.unitary _ _ (by exact (layerGen_dims hH l.1).1 p hp) (anti_of_herm ((layerGen_hermitian hH hh l.1).1 p hp) (by simp [hl]))
    · intro p hp
      rw [show W.gate p = _ from w2 p (Or.inr hp)]
      exact he.unitary _ _ (by exact (layerGen_dims hH l.1).2 p hp) (anti_of_herm ((layerGen_hermitian hH hh l.1).2 p hp) (by simp [hl]))
  intro y
  set s := (if sense = 0 then 1 else sense) with hs
  have hs0 : s ≠ 0 := by rw [hs]; split <;> omega
  have hst : startAt ds.length sense = startAt ds.length s := by
    unfold startAt; rw [hs]
    by_cases h0 : sense = 0
    · simp [h0]
    · rw [if_neg h0]
  have hy : y = (sweep svd eps dflt W x s tol Dmax, -s) := by
    rw [show y = _ from apply_eq _ _ _ _ _ _ _ _ _]; simp [hs]
  obtain ⟨S, hS, hn⟩ := sweep_near hg eps hd0 hf hu x hpos s hs0 (by rw [← hst]; exact hx) tol ht hD
  rw [hy]
  refine ⟨hn.cent, hn.err, hn.hidden, hn.norm, ?_, hn.small⟩
  have hgo : ∀ t, actOp ds (layerElt ds l.1 W.gate) (amp x.P) t = layerStep expm H ds dt (amp x.P) l t := fun t =>
    actOp_congr (fun s t => layerElt_congr (fun p hp => w2 p hp) s t) (fun _ _ => rfl) t
  have hsees := (sweep_sees hg eps hd0 hf x hpos s hs0 (by rw [← hst]; exact hx) tol ht hD).2
  have hd := proj_dist' hsees
  have hnorm : (sumCfg ds fun s => ‖actOp ds (layerElt ds l.1 W.gate) (amp x.P) s‖ ^ 2) = normSq ds x.P := by
    have := layerSteps_norm he hH hh dt [l] (by simpa using hl) (amp x.P)
    have e : layerSteps expm H ds dt [l] (amp x.P) = actOp ds (layerElt ds l.1 W.gate) (amp x.P) := funext fun t => (hgo t).symm
    rw [e] at this
    exact sumSq_of_inner this
  have hn' := hn.norm
  rw [hnorm] at hd
  rw [← funext hgo, wdist_symm, Nat.cast_one, one_mul]
  unfold wdist wnorm
  refine Real.sqrt_le_sqrt (le_of_eq ?_)
  rw [hd]
  unfold normSq at hn' ⊢
  linarith

theorem calls_done {svd : Tensor ℂ → SvdRes ℂ} (hg : GoodSvd svd) (eps : ℝ) {dflt : ℝ} (hd0 : 0 < dflt)
    (simplifyObc : List (Tensor ℂ) → Int → Nat → Bool → Nat → List (Tensor ℂ) × ℝ)
    {expm : Tensor ℂ → Tensor ℂ} (he : GoodExpm expm)
    {H : Ham ℂ} {ds : List Nat} (hH : HamFits H ds) (hh : HamHermitian H ds) (hpos : 0 < ds.length) (dt : ℂ) (U : List Unitary) :
    ∀ (cs : List (Call × Nat × ℂ)),
    (∀ c ∈ cs, c.1.simplify = false ∧ c.1.normalize = false ∧ c.1.counted = true ∧ c.1.D ≠ 0 ∧ (c.1.tol < 0 ∨ 0 < c.1.tol) ∧ c.2.1 ≤ 1 ∧
      (dt * c.2.2).im = 0 ∧ mkUnitary expm H c.2.1 (dt * c.2.2) = some (U.getD c.1.which ⟨0, 0, []⟩)) →
    ∀ (x : Evo) (sense : Int) (_ : Cent ds x.P (startAt ds.length sense)),
    let y := (cs.map Prod.fst).foldl (runCall svd eps dflt simplifyObc U) (x, sense)
    Done ds (max dflt eps) x (layerSteps expm H ds dt (cs.map Prod.snd) (amp x.P)) y.1 y.2 cs.length (cs.length * ds.length) := by
  intro cs
  induction cs with
  | nil =>
    intro _ x sense hx
    refine ⟨hx, le_rfl, le_rfl, by simp, ?_, by simp⟩
    rw [show layerSteps expm H ds dt (([] : List (Call × Nat × ℂ)).map Prod.snd) (amp x.P) = amp x.P from rfl, show
      ((([] : List (Call × Nat × ℂ)).map Prod.fst).foldl (runCall svd eps dflt simplifyObc U) (x, sense)).1 = x from rfl, wdist_self]
    exact Real.sqrt_nonneg _
  | cons c cs ih =>
    intro hcs x sense hx
    obtain ⟨c1, c2, c3, c4, c5, c6, c7, c8⟩ := hcs c (by simp)
    have a := apply_done hg eps hd0 he hH hh hpos dt c.2 c6 c7 c8 x sense hx c.1.tol c5 c4
    intro y
    set r := runCall svd eps dflt simplifyObc U (x, sense) c.1 with hr
    have hr' : r = apply svd eps dflt (U.getD c.1.which ⟨0, 0, []⟩) x sense c.1.tol c.1.D false := by
      rw [hr]; unfold runCall; simp only [c1, c2, c3]; simp
    rw [← hr'] at a
    have hyr : y = (cs.map Prod.fst).foldl (runCall svd eps dflt simplifyObc U) (r.1, r.2) := rfl
    have b := ih (fun c hc => hcs c (by simp [hc])) r.1 r.2 a.cent
    rw [← hyr] at b
    have hae := a.err
    have hah := a.hidden
    have hbe := b.err
    have hbh := b.hidden
    have t1 : 0 ≤ r.1.tot - x.tot := by unfold Evo.tot; linarith
    have t2 : 0 ≤ y.1.tot - r.1.tot := by unfold Evo.tot; linarith
    refine ⟨b.cent, a.err.trans b.err, a.hidden.trans b.hidden, by rw [b.norm, a.norm]; ring, ?_, ?_⟩
    · have e : layerSteps expm H ds dt ((c :: cs).map Prod.snd) (amp x.P)
          = layerSteps expm H ds dt (cs.map Prod.snd) (layerStep expm H ds dt (amp x.P) c.2) := rfl
      rw [e]
      refine (wdist_tri _ _ (layerSteps expm H ds dt (cs.map Prod.snd) (amp r.1.P)) _).trans ?_
      rw [layerSteps_dist he hH hh dt _ (by
        intro l hl
        obtain ⟨c', m, rfl⟩ := List.mem_map.1 hl
        exact (hcs c' (by simp [m])).2.2.2.2.2.2.1), add_comm]
      refine (sqrt_step (Nat.cast_nonneg _) t1 (Nat.cast_nonneg _) t2 a.dist b.dist).trans (le_of_eq ?_)
      congr 1
      simp only [List.length_cons]; push_cast; ring
    · have hn := a.norm
      have h1 := a.small
      have h2 := b.small
      have h3 := mul_le_mul_of_nonneg_left (show normSq ds r.1.P ≤ normSq ds x.P by linarith) (hd0.le.trans (le_max_left dflt eps))
      have h4 := mul_le_mul_of_nonneg_left h3 (Nat.cast_nonneg (α := ℝ) (cs.length * ds.length))
      simp only [List.length_cons]
      have e : (((cs.length + 1) * ds.length : Nat) : ℝ) * (max dflt eps * normSq ds x.P)
          = (cs.length * ds.length : Nat) * (max dflt eps * normSq ds x.P) + ds.length * (max dflt eps * normSq ds x.P) := by push_cast; ring
      rw [e]
      linarith

end MPS.Trotter
