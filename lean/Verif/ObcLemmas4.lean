import Verif.ObcLemmas3

/-!
# The loop of `simplify_obc`
-/

set_option linter.unusedSectionVars false

namespace MPS.Obc
open MPS Tensor Form Minim
variable {K : Type} [RCLike K]

theorem distTo_nonneg (ds : List Nat) (q : List Nat → K) (ψ : List (Tensor K)) : 0 ≤ distTo ds q ψ :=
  sumCfg_nonneg _ _ fun _ _ => sq_nonneg _

theorem normSqOf_nonneg (ds : List Nat) (q : List Nat → K) : 0 ≤ normSqOf ds q :=
  sumCfg_nonneg _ _ fun _ _ => sq_nonneg _

/-- what the loop guarantees -/
structure Ran (ds : List Nat) (w : List K) (Q : List (List (Tensor K))) (D : Nat) (normalize : Bool) (tolerance : ℝ) (sweeps : Nat) (olderr : ℝ)
    (x : Sim K) (es : List ℝ) (out : Out K) : Prop where
  fin : ∃ y, AtStart ds w Q y ∧ out = finish normalize y out.err out.norm out.errs ∧ Best ds (superpose w Q) y.P y.s.k.toNat ∧
    ∀ j, j + 1 < ds.length → BondOk D (site y.P j)
  norm : out.norm = normSq ds out.P0
  err : out.err = relDist ds (superpose w Q) out.P0
  last : ∃ es', es = es' ++ [out.err]
  count : es.length ≤ sweeps + 1
  dist : distTo ds (superpose w Q) out.P0 + x.lost ≤ distTo ds (superpose w Q) x.P + out.lost
  lost : x.lost ≤ out.lost
  mono : ∀ j, j + 1 < es.length → es.getD (j + 1) 0 ^ 2 ≤ es.getD j 0 ^ 2 + (out.lost - x.lost) / normSqOf ds (superpose w Q)
  first : es.getD 0 0 ^ 2 ≤ relDist ds (superpose w Q) x.P ^ 2 + (out.lost - x.lost) / normSqOf ds (superpose w Q)
  go : ∀ j, j + 1 < es.length → ¬ StopRule tolerance ((olderr :: es).getD j 0) (es.getD j 0)
  stop : es.length < sweeps + 1 → StopRule tolerance ((olderr :: es).getD (es.length - 1) 0) out.err

theorem flip_start {ds : List Nat} {w : List K} {Q : List (List (Tensor K))} {D : Nat} {x y : Sim K} (hx : AtStart ds w Q x) (h : Swept ds w Q D x y) :
    AtStart ds w Q { y with s := y.s.flip } ∧ y.s.flip.k = y.s.k := by
  have h1 := h.s
  have h2 := h.cent
  obtain ⟨hs, hc⟩ | ⟨hs, hc⟩ := hx
  · have hk : y.s = ⟨(ds.length : Int) - 1, 0, (ds.length : Int) - 1, 1⟩ := by rw [h1, hs]
    rw [hk] at h2 ⊢
    have := hc.lt
    refine ⟨Or.inr ⟨rfl, ?_⟩, rfl⟩
    rwa [show (((ds.length : Int) - 1).toNat) = ds.length - 1 by omega] at h2
  · have hk : y.s = ⟨0, (ds.length : Int) - 1, 0, -1⟩ := by rw [h1, hs]
    rw [hk] at h2 ⊢
    exact ⟨Or.inl ⟨rfl, h2⟩, rfl⟩

theorem norm_at_centre {ds : List Nat} {w : List K} {Q : List (List (Tensor K))} {P : List (Tensor K)} {lf : LForm K} {k : Nat}
    (hc : LCent ds w Q P lf k) : ‖tscprod (site P k) (site P k)‖ = normSq ds P := by
  obtain ⟨a, b, w1, w2, w3, p1, p2, p3⟩ := WF.around hc.wf hc.lt
  rw [Props.tscprod_eq rfl, normSq_at hc.wf hc.lt hc.lo hc.hi]
  · have : (sumCfg (site P k).dims fun I => star ((site P k).get I) * (site P k).get I) =
        ((sumCfg (site P k).dims fun I => ‖(site P k).get I‖ ^ 2 : ℝ) : K) := by
      rw [sumCfg_ofReal]
      refine sumCfg_congr fun I _ => ?_
      rw [RCLike.star_def, RCLike.conj_mul]; simp
    rw [this, RCLike.norm_ofReal, abs_of_nonneg (sumCfg_nonneg _ _ fun _ _ => sq_nonneg _)]
  · intro x hx
    rw [w2] at hx
    simp only [List.mem_cons, List.not_mem_nil, or_false] at hx
    obtain rfl | rfl | rfl := hx <;> assumption

theorem err_eq {ds : List Nat} {q : List Nat → K} {P : List (Tensor K)} {k : Nat} (hb : Best ds q P k) (hq : normSqOf ds q ≠ 0) :
    Real.sqrt |1 - normSq ds P / normSqOf ds q| = relDist ds q P := by
  unfold relDist
  have h := hb.dist
  have hpos : 0 < normSqOf ds q := lt_of_le_of_ne (normSqOf_nonneg _ _) (Ne.symm hq)
  rw [h, sub_div, div_self hq, abs_of_nonneg]
  rw [show 1 - normSq ds P / normSqOf ds q = distTo ds q P / normSqOf ds q by rw [h, sub_div, div_self hq]]
  exact div_nonneg (distTo_nonneg _ _ _) hpos.le

theorem relDist_sq {ds : List Nat} {q : List Nat → K} {P : List (Tensor K)} : relDist ds q P ^ 2 = distTo ds q P / normSqOf ds q := by
  unfold relDist
  rw [Real.sq_sqrt]
  exact div_nonneg (distTo_nonneg _ _ _) (normSqOf_nonneg _ _)

theorem loop_spec {ds : List Nat} {w : List K} {Q : List (List (Tensor K))} {D : Nat} {sweep : Sim K → Option (Sim K)}
    (hsw : ∀ x, AtStart ds w Q x → ∃ y, sweep x = some y ∧ Swept ds w Q D x y) (normalize : Bool) (tolerance : ℝ)
    (hq : normSqOf ds (superpose w Q) ≠ 0) (sweeps : Nat) (olderr : ℝ) (x : Sim K) (errs : List ℝ) (hx : AtStart ds w Q x) :
    ∃ out es, loop sweep normalize tolerance (normSqOf ds (superpose w Q)) sweeps olderr x errs = some out ∧ out.errs = errs ++ es ∧
      Ran ds w Q D normalize tolerance sweeps olderr x es out := by
  have hpos : 0 < normSqOf ds (superpose w Q) := lt_of_le_of_ne (normSqOf_nonneg _ _) (Ne.symm hq)
  induction sweeps generalizing olderr x errs with
  | zero =>
    obtain ⟨y, h1, h2⟩ := hsw x hx
    obtain ⟨f1, f2⟩ := flip_start hx h2
    set e := relDist ds (superpose w Q) y.P with he
    have hloop : loop sweep normalize tolerance (normSqOf ds (superpose w Q)) 0 olderr x errs =
        some (finish normalize { y with s := y.s.flip } e (normSq ds y.P) (errs ++ [e])) := by
      rw [loop, h1, Option.bind_some]
      simp only
      rw [norm_at_centre h2.cent, err_eq h2.best hq, ← he, ite_self]
    refine ⟨_, [e], hloop, rfl, ⟨⟨{ y with s := y.s.flip }, f1, rfl, ?_, h2.bonds⟩, rfl, rfl, ⟨[], rfl⟩, by simp, h2.dist, h2.lost, by simp, ?_, by simp, by simp⟩⟩
    · simp only [f2]; exact h2.best
    · simp only [List.getD_cons_zero, finish, he, relDist_sq, ← add_div]
      have := h2.dist
      exact div_le_div_of_nonneg_right (by linarith) hpos.le
  | succ sweeps ih =>
    obtain ⟨y, h1, h2⟩ := hsw x hx
    obtain ⟨f1, f2⟩ := flip_start hx h2
    set e := relDist ds (superpose w Q) y.P with he
    have hloop : loop sweep normalize tolerance (normSqOf ds (superpose w Q)) (sweeps + 1) olderr x errs =
        if olderr - e < 1 / 10 ^ 5 * |olderr| ∨ e < tolerance then some (finish normalize { y with s := y.s.flip } e (normSq ds y.P) (errs ++ [e]))
        else loop sweep normalize tolerance (normSqOf ds (superpose w Q)) sweeps e { y with s := y.s.flip } (errs ++ [e]) := by
      rw [loop, h1, Option.bind_some]
      simp only
      rw [norm_at_centre h2.cent, err_eq h2.best hq, ← he]
    by_cases hst : StopRule tolerance olderr e
    · rw [if_pos (show olderr - e < 1 / 10 ^ 5 * |olderr| ∨ e < tolerance from hst)] at hloop
      refine ⟨_, [e], hloop, rfl, ⟨⟨{ y with s := y.s.flip }, f1, rfl, ?_, h2.bonds⟩, rfl, rfl, ⟨[], rfl⟩, by simp, h2.dist, h2.lost, by simp, ?_, by simp,
        fun _ => by simp only [List.length_singleton, Nat.sub_self, List.getD_cons_zero]; exact hst⟩⟩
      · simp only [f2]; exact h2.best
      · simp only [List.getD_cons_zero, finish, he, relDist_sq, ← add_div]
        have := h2.dist
        exact div_le_div_of_nonneg_right (by linarith) hpos.le
    · rw [if_neg (show ¬ (olderr - e < 1 / 10 ^ 5 * |olderr| ∨ e < tolerance) from hst)] at hloop
      obtain ⟨out, es, r1, r2, r⟩ := ih e { y with s := y.s.flip } (errs ++ [e]) f1
      obtain ⟨es', hes'⟩ := r.last
      have hd := h2.dist
      have hl := h2.lost
      have hd' := r.dist
      have hl' := r.lost
      simp only at hd' hl'
      have hlen : es.length = es'.length + 1 := by rw [hes']; simp
      refine ⟨out, e :: es, by rw [hloop, r1], by rw [r2]; simp, ⟨r.fin, r.norm, r.err, ⟨e :: es', by rw [hes']; simp⟩, ?_, by linarith, by linarith, ?_, ?_, ?_, ?_⟩⟩
      · have := r.count; simp only [List.length_cons]; omega
      · have hle : (out.lost - y.lost) / normSqOf ds (superpose w Q) ≤ (out.lost - x.lost) / normSqOf ds (superpose w Q) :=
          div_le_div_of_nonneg_right (by linarith) hpos.le
        intro j hj
        cases j with
        | zero =>
          have := r.first
          simp only at this
          rw [List.getD_cons_succ, List.getD_cons_zero]
          linarith
        | succ j =>
          have := r.mono j (by simpa using hj)
          simp only at this
          rw [List.getD_cons_succ, List.getD_cons_succ]
          linarith
      · simp only [List.getD_cons_zero, he, relDist_sq, ← add_div]
        exact div_le_div_of_nonneg_right (by linarith) hpos.le
      · intro j hj
        cases j with
        | zero => simpa using hst
        | succ j => rw [List.getD_cons_succ, List.getD_cons_succ]; exact r.go j (by simpa using hj)
      · intro h
        have := r.stop (by simpa using h)
        rw [List.length_cons, show es.length + 1 - 1 = (es.length - 1) + 1 by omega, List.getD_cons_succ]
        exact this

theorem finish_struct {ds : List Nat} {w : List K} {Q : List (List (Tensor K))} {D : Nat} {y : Sim K} (hy : AtStart ds w Q y)
    (hb : ∀ j, j + 1 < ds.length → BondOk D (site y.P j)) (normalize : Bool) (err n : ℝ) (errs : List ℝ) :
    WF 1 (finish normalize y err n errs).P ds 1 ∧ ∀ j, j + 1 < ds.length → BondOk D (site (finish normalize y err n errs).P j) := by
  obtain ⟨k, hkn, hc⟩ : ∃ k, y.s.k.toNat = k ∧ LCent ds w Q y.P y.lf k := by
    obtain ⟨hs, hc⟩ | ⟨hs, hc⟩ := hy
    · exact ⟨0, by rw [hs]; simp, hc⟩
    · exact ⟨_, by rw [hs]; simp, hc⟩
  have hlt := hc.lt
  have hlen := hc.wf.length
  unfold finish
  simp only [hkn]
  cases normalize with
  | false => exact ⟨hc.wf, hb⟩
  | true =>
    simp only [if_true]
    refine ⟨(Props.path_set_smul hc.wf k (by omega) _).1, fun j hj => ?_⟩
    rw [site_set _ _ _ _ (by omega)]
    split_ifs with h
    · have := hb j hj; rw [h] at this; exact this
    · exact hb j hj

/-- the sizes of the result, for any target -/
theorem loop_struct {ds : List Nat} {w : List K} {Q : List (List (Tensor K))} {D : Nat} {sweep : Sim K → Option (Sim K)}
    (hsw : ∀ x, AtStart ds w Q x → ∃ y, sweep x = some y ∧ Swept ds w Q D x y) (normalize : Bool) (tolerance nq : ℝ)
    (sweeps : Nat) (olderr : ℝ) (x : Sim K) (errs : List ℝ) (hx : AtStart ds w Q x) :
    ∃ out, loop sweep normalize tolerance nq sweeps olderr x errs = some out ∧ WF 1 out.P ds 1 ∧
      ∀ j, j + 1 < ds.length → BondOk D (site out.P j) := by
  induction sweeps generalizing olderr x errs with
  | zero =>
    obtain ⟨y, h1, h2⟩ := hsw x hx
    obtain ⟨f1, -⟩ := flip_start hx h2
    rw [loop, h1, Option.bind_some]
    simp only
    rw [ite_self]
    exact ⟨_, rfl, finish_struct f1 h2.bonds _ _ _ _⟩
  | succ sweeps ih =>
    obtain ⟨y, h1, h2⟩ := hsw x hx
    obtain ⟨f1, -⟩ := flip_start hx h2
    rw [loop, h1, Option.bind_some]
    simp only
    split_ifs
    · exact ⟨_, rfl, finish_struct f1 h2.bonds _ _ _ _⟩
    · exact ih _ _ _ f1

end MPS.Obc
