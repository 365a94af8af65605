import Verif.SimplifyLemmas4

set_option linter.unusedSectionVars false
set_option linter.unusedSimpArgs false

namespace MPS.Simp
open MPS Tensor Form Minim Obc
variable {K : Type} [RCLike K]

theorem centre_norm {ds : List Nat} {P : List (Tensor K)} (hP : WF 1 P ds 1) (h1 : 0 < ds.length) {s : Int} (hd : Described ds.length P s) :
    tscprod (site P (centreOf ds.length s)) (site P (centreOf ds.length s)) = ((normSq ds P : ℝ) : K) ∧
    centreOf ds.length s < ds.length ∧ (∀ j < centreOf ds.length s, LeftIso (site P j)) ∧
    ∀ j, centreOf ds.length s < j → j < ds.length → RightIso (site P j) := by
  have hk : centreOf ds.length s < ds.length := by unfold centreOf; split_ifs <;> omega
  have lo : ∀ j < centreOf ds.length s, LeftIso (site P j) := by
    unfold centreOf Described at *
    split_ifs at * with hs
    · omega
    · intro j hj; exact hd j (by omega)
  have hi : ∀ j, centreOf ds.length s < j → j < ds.length → RightIso (site P j) := by
    unfold centreOf Described at *
    split_ifs at * with hs
    · exact hd
    · omega
  refine ⟨?_, hk, lo, hi⟩
  obtain ⟨a, b, w1, w2, w3, p1, p2, p3⟩ := WF.around hP hk
  rw [Props.tscprod_eq rfl, normSq_at hP hk lo hi]
  · rw [sumCfg_ofReal]
    refine sumCfg_congr fun I _ => ?_
    rw [RCLike.star_def, RCLike.conj_mul]; simp
  · rw [w2]
    intro x hx
    simp only [List.mem_cons, List.not_mem_nil, or_false] at hx
    rcases hx with rfl | rfl | rfl <;> assumption

/-- replacing a tensor by a multiple -/
theorem scale_centre {ds : List Nat} {P : List (Tensor K)} (hP : WF 1 P ds 1) {k : Nat} (hk : k < ds.length) (c : K) :
    WF 1 (P.set k (smul c (site P k))) ds 1 ∧ ∀ x, IsCfg ds x → amp (P.set k (smul c (site P k))) x = c * amp P x := by
  have hl := hP.length
  obtain ⟨h1, h2⟩ := Props.path_set_smul hP k (by omega) c
  refine ⟨h1, fun x hx => ?_⟩
  have hne : P ≠ [] := by rintro rfl; simp at hl; omega
  rw [amp_open h1 (by simpa using hne), amp_open hP hne]
  exact h2 x hx 0 one_pos 0

theorem unit_norm {ds : List Nat} {P P' : List (Tensor K)} (h0 : normSq ds P ≠ 0)
    (h : ∀ c, IsCfg ds c → amp P' c = ((1 / Real.sqrt (normSq ds P) : ℝ) : K) * amp P c) : normSq ds P' = 1 := by
  have hn0 := normSq_nonneg ds P
  conv_lhs => unfold normSq
  rw [sumCfg_congr (G := fun s => (1 / normSq ds P) * ‖amp P s‖ ^ 2) fun s hs => ?_, sumCfg_mul_left]
  · have : sumCfg ds (fun s => ‖amp P s‖ ^ 2) = normSq ds P := rfl
    rw [this]; field_simp
  · rw [h s hs, norm_mul, mul_pow, RCLike.norm_ofReal, sq_abs, div_pow, Real.sq_sqrt hn0, one_pow]

theorem lastDir_one (s : Int) : lastDir s 1 = s := by simp [lastDir]
theorem lastDir_succ (s : Int) (n : Nat) : lastDir (-s) n = lastDir s (n + 1) := by
  unfold lastDir
  rcases Nat.mod_two_eq_zero_or_one n with h | h
  · simp [h, show (n + 1) % 2 = 1 by omega]
  · simp [h, show (n + 1) % 2 = 0 by omega]

theorem Described.set_centre {N : Nat} {P : List (Tensor K)} {s : Int} (hP : P.length = N) (h1 : 0 < N) (h : Described N P s) (X : Tensor K) :
    Described N (P.set (centreOf N s) X) s := by
  unfold Described centreOf at *
  split_ifs at * with hs
  · intro j hj hj2; rw [site_set _ _ _ _ (by omega), if_neg (by omega)]; exact h j hj hj2
  · intro j hj; rw [site_set _ _ _ _ (by omega), if_neg (by omega)]; exact h j hj

/-- the last sweep -/
theorem Fitted.one {ds : List Nat} {q : List Nat → K} {P P' : List (Tensor K)} {s : Int} {n : Nat} {normalize : Bool} {Stop : ℝ → ℝ → Prop}
    {E : ℝ → ℝ} (hE : Monotone E) {Dok : Nat → Nat → Prop} {old lost lost' : ℝ} (h1 : 0 < ds.length) (hs : s = 1 ∨ s = -1)
    (h : SweptBy ds q P s Dok (lost' - lost) P') {err : ℝ} (he : err = E (distTo ds q P')) (errs : List ℝ) {stop : Bool}
    (hst : stop = true ↔ Stop old err) (hn : 0 < n) (hn1 : stop = false → n = 1) (hz : normalize = true → stop = true → normSq ds P' ≠ 0) :
    Fitted ds q P s n normalize Stop E Dok old lost [err]
      (leave stop normalize ds.length P' (site P' (centreOf ds.length s)) (normSq ds P') s err errs lost') := by
  have hl := h.wf.length
  have hk : centreOf ds.length s < ds.length := by unfold centreOf; split_ifs <;> omega
  have hcen : (if s > 0 then ds.length - 1 else 0) = centreOf ds.length s := by
    rcases hs with rfl | rfl <;> simp [centreOf]
  set c : K := ((1 / Real.sqrt (normSq ds P') : ℝ) : K) with hc
  obtain ⟨c1, c2⟩ := scale_centre h.wf hk c
  have hD : ∀ j, j + 1 < ds.length → Dok j ((site (P'.set (centreOf ds.length s) (smul c (site P' (centreOf ds.length s)))) j).dim 2) := by
    intro j hj
    rw [site_set _ _ _ _ (by omega)]
    split_ifs with hjk
    · have := h.bond j hj
      rw [hjk] at this ⊢
      exact this
    · exact h.bond j hj
  have hl0 := h.nonneg
  have e0 : (leave stop normalize ds.length P' (site P' (centreOf ds.length s)) (normSq ds P') s err errs lost').P0 = P' := by
    cases stop <;> cases normalize <;> rfl
  have e1 : (leave stop normalize ds.length P' (site P' (centreOf ds.length s)) (normSq ds P') s err errs lost').lost = lost' := by
    cases stop <;> cases normalize <;> rfl
  have e2 : (leave stop normalize ds.length P' (site P' (centreOf ds.length s)) (normSq ds P') s err errs lost').err = err := by
    cases stop <;> cases normalize <;> rfl
  have e3 : (leave stop normalize ds.length P' (site P' (centreOf ds.length s)) (normSq ds P') s err errs lost').P =
      if stop = true ∧ normalize = true then P'.set (centreOf ds.length s) (smul c (site P' (centreOf ds.length s))) else P' := by
    cases stop <;> cases normalize <;> simp [leave, hcen, hc]
  have e4 : (leave stop normalize ds.length P' (site P' (centreOf ds.length s)) (normSq ds P') s err errs lost').sense =
      if stop = true ∧ normalize = false then s else -s := by
    cases stop <;> cases normalize <;> simp [leave]
  refine ⟨?_, ?_, ?_, ?_, ?_, ?_, ?_, ?_, ?_, ?_, ?_, ?_, ?_, ?_, ?_, ?_⟩
  · rw [e0, e3]
    refine ⟨?_, h.wf⟩
    split_ifs
    · exact c1
    · exact h.wf
  · rw [e2]; simp; omega
  · rw [e0, e3]
    simp only [List.length_singleton, lastDir_one]
    refine ⟨?_, h.desc⟩
    split_ifs
    · exact Described.set_centre hl h1 h.desc _
    · exact h.desc
  · rw [e0, e2, he]
  · rw [e0]
    simp only [List.length_singleton, lastDir_one]
    exact h.best
  · rw [e0, e3]
    split_ifs
    · exact fun j hj => ⟨hD j hj, h.bond j hj⟩
    · exact fun j hj => ⟨h.bond j hj, h.bond j hj⟩
  · intro hd
    rw [e0, e1]
    exact h.closer hd
  · rw [e1]; linarith
  · intro j hj; simp at hj
  · intro hj
    simp only [List.length_singleton] at hj
    rw [e2]
    simp only [List.length_singleton, Nat.sub_self, List.getD_cons_zero]
    refine hst.1 ?_
    by_contra hf
    have := hn1 (by simpa using hf)
    omega
  · intro _ j hj; simp at hj
  · intro hl' hd
    rw [e1] at hl'
    simp only [List.getD_cons_zero]
    rw [he]
    refine hE ?_
    have := h.closer hd
    linarith
  · simp only [List.length_singleton, Nat.sub_self, List.getD_cons_zero]
    rw [e0, e2, e3, ← hst]
    intro hh
    rw [if_neg]
    rintro ⟨a1, a2⟩
    rcases hh with hh | hh
    · rw [hh] at a2; exact absurd a2 (by decide)
    · exact hh a1
  · simp only [List.length_singleton, Nat.sub_self, List.getD_cons_zero]
    rw [e0, e2, e3, ← hst]
    intro a1 a2
    rw [if_pos ⟨a2, a1⟩]
    exact ⟨c2, unit_norm (hz a1 a2) c2⟩
  · simp only [List.length_singleton, Nat.sub_self, List.getD_cons_zero, lastDir_one]
    rw [e2, e4, ← hst]
    intro hh
    rw [if_neg]
    rintro ⟨a1, a2⟩
    rcases hh with hh | hh
    · rw [hh] at a2; exact absurd a2 (by decide)
    · exact hh a1
  · simp only [List.length_singleton, Nat.sub_self, List.getD_cons_zero, lastDir_one]
    rw [e2, e4, ← hst]
    intro a1 a2
    rw [if_pos ⟨a2, a1⟩]

/-- one more sweep before -/
theorem Fitted.more {ds : List Nat} {q : List Nat → K} {P P' : List (Tensor K)} {s : Int} {n : Nat} {normalize : Bool} {Stop : ℝ → ℝ → Prop}
    {E : ℝ → ℝ} (hE : Monotone E) {Dok : Nat → Nat → Prop} {old lost lost' : ℝ}
    (h : SweptBy ds q P s Dok (lost' - lost) P') {err : ℝ} (he : err = E (distTo ds q P')) (hst : ¬ Stop old err) {es : List ℝ} {out : Res K}
    (r : Fitted ds q P' (-s) n normalize Stop E Dok err lost' es out) :
    Fitted ds q P s (n + 1) normalize Stop E Dok old lost (err :: es) out := by
  obtain ⟨c1, c2, c3⟩ := r.count
  have hl := h.nonneg
  have hl' := r.spent
  have hlast : (old :: err :: es).getD ((err :: es).length - 1) 0 = (err :: es).getD (es.length - 1) 0 := by
    rw [List.length_cons, show es.length + 1 - 1 = (es.length - 1) + 1 by omega, List.getD_cons_succ]
  have hdir : lastDir s (err :: es).length = lastDir (-s) es.length := by rw [lastDir_succ]; rfl
  refine ⟨r.wf, ⟨by simp, by simpa using c2, ?_⟩, by rw [hdir]; exact r.desc, r.err, by rw [hdir]; exact r.best, r.bond, fun hd => ?_,
    by linarith, ?_, ?_, ?_, ?_, ?_, ?_, ?_, ?_⟩
  · rw [List.length_cons, show es.length + 1 - 1 = (es.length - 1) + 1 by omega, List.getD_cons_succ, c3]
  · have a1 := h.closer hd
    have a2 := r.closer (by rw [neg_neg]; exact h.desc)
    linarith
  · intro j hj
    cases j with
    | zero => simpa using hst
    | succ j => rw [List.getD_cons_succ, List.getD_cons_succ]; exact r.go j (by simpa using hj)
  · intro hj
    rw [hlast]
    exact r.stop (by simpa using hj)
  · intro h0 j hj
    cases j with
    | zero =>
      rw [List.getD_cons_succ, List.getD_cons_zero, he]
      exact r.first (by linarith) (by rw [neg_neg]; exact h.desc)
    | succ j =>
      rw [List.getD_cons_succ, List.getD_cons_succ]
      exact r.mono (by linarith) j (by simpa using hj)
  · intro h0 hd
    rw [List.getD_cons_zero, he]
    refine hE ?_
    have := h.closer hd
    linarith
  · rw [hlast]; exact r.keep
  · rw [hlast]; exact r.unit
  · rw [hlast, hdir]; exact r.sense
  · rw [hlast, hdir]; exact r.sense'

/-! ### the loop of simplify(&P, Q, ...) -/

/-- one minus the fidelity, in terms of the squared distance -/
noncomputable def infid (nq : ℝ) (x : ℝ) : ℝ := 1 - Real.sqrt ((nq - x) / nq)

theorem infid_mono {nq : ℝ} (h : 0 ≤ nq) : Monotone (infid nq) := by
  intro x y hxy
  unfold infid
  have : Real.sqrt ((nq - y) / nq) ≤ Real.sqrt ((nq - x) / nq) := Real.sqrt_le_sqrt (div_le_div_of_nonneg_right (by linarith) h)
  linarith

theorem Swept.by {ds : List Nat} {q : List Nat → K} {P P' : List (Tensor K)} {s : Int} (h : Swept ds q P s P') {D : Nat → Nat}
    (hD : ∀ j, j + 1 < ds.length → (site P j).dim 2 ≤ D j) {l : ℝ} (hl : l = 0) : SweptBy ds q P s (fun j d => d ≤ D j) l P' :=
  ⟨h.wf, h.desc, h.best, fun j hj => (h.bond j hj).trans (hD j hj), fun hd => by rw [hl, add_zero]; exact h.closer hd, hl.ge⟩

/-- the number computed by a sweep -/
theorem sweep_err {ds : List Nat} {q : List Nat → K} {P : List (Tensor K)} {k : Nat} (hb : Best ds q P k) (hq : 0 ≤ normSqOf ds q) :
    1 - normSq ds P / Real.sqrt (normSqOf ds q * normSq ds P) = infid (normSqOf ds q) (distTo ds q P) := by
  unfold infid
  rw [hb.dist, sub_sub_cancel, Real.sqrt_mul hq, Real.sqrt_div' _ hq]
  congr 1
  rcases eq_or_ne (Real.sqrt (normSq ds P)) 0 with h0 | h0
  · have : normSq ds P = 0 := (Real.sqrt_eq_zero (normSq_nonneg _ _)).1 h0
    simp [h0, this]
  · rcases eq_or_ne (Real.sqrt (normSqOf ds q)) 0 with h1 | h1
    · simp [h1]
    · rw [div_eq_div_iff (mul_ne_zero h1 h0) h1]
      nth_rewrite 1 [← Real.mul_self_sqrt (normSq_nonneg ds P)]
      ring

theorem loop_fitted {svd : Tensor K → SvdRes K} (hsvd : GoodSvd svd) {ds : List Nat} {q : List (Tensor K)} (hq : WF 1 q ds 1)
    (h1 : 1 < ds.length) (tolerance : ℝ) (normalize : Bool) {D : Nat → Nat} (sweeps : Nat) : ∀ {s : Int} (_ : s = 1 ∨ s = -1) (old : ℝ)
      {P A : List (Tensor K)} (_ : WF 1 P ds 1) (_ : ∀ j, j + 1 < ds.length → (site P j).dim 2 ≤ D j) (_ : Ready ds q P A s) (errs : List ℝ),
      (∀ out, simplifyLoop svd tolerance (normSqOf ds (amp q)) normalize q sweeps s old P A errs = some out →
        out.lost = 0 ∧ normSqOf ds (amp q) ≠ 0 ∧ normSq ds out.P0 ≠ 0 ∧
        ∃ es, out.errs = errs ++ es ∧ Fitted ds (amp q) P s (sweeps + 1) normalize (StopRule tolerance) (infid (normSqOf ds (amp q)))
          (fun j d => d ≤ D j) old 0 es out) ∧
      (MPS.inner ds (amp P) (amp q) ≠ 0 → normSqOf ds (amp q) ≠ 0 →
        ∃ out, simplifyLoop svd tolerance (normSqOf ds (amp q)) normalize q sweeps s old P A errs = some out) := by
  have hN := normSqOf_nonneg ds (amp q)
  have key : ∀ {s : Int} (_ : s = 1 ∨ s = -1) {P A : List (Tensor K)} (_ : WF 1 P ds 1) (_ : Ready ds q P A s),
      ∃ y, oneSweep svd q P A s = y ∧ Done ds q P s y ∧ RCLike.re (tscprod y.Pk y.Pk) = normSq ds y.P ∧ RCLike.re (y.M.lin 0) = normSq ds y.P := by
    intro s hs P A hP hr
    have hd := oneSweep_spec hsvd hP hq h1 hs hr
    refine ⟨_, rfl, hd, ?_, ?_⟩
    · rw [hd.last, (centre_norm hd.swept.wf (by omega) hd.swept.desc).1, RCLike.ofReal_re]
    · rw [hd.scp, ← Props.inner_star', hd.swept.best.overlap, RCLike.star_def, RCLike.conj_re, RCLike.ofReal_re]
  have step : ∀ (sweeps : Nat) {s : Int} (_ : s = 1 ∨ s = -1) (old : ℝ) {P A : List (Tensor K)} (_ : WF 1 P ds 1) (_ : Ready ds q P A s)
      (errs : List ℝ), ∃ y e, Done ds q P s y ∧ e = infid (normSqOf ds (amp q)) (distTo ds (amp q) y.P) ∧
        (normSqOf ds (amp q) * normSq ds y.P = 0 →
          simplifyLoop svd tolerance (normSqOf ds (amp q)) normalize q sweeps s old P A errs = none) ∧
        (normSqOf ds (amp q) * normSq ds y.P ≠ 0 → StopRule tolerance old e →
          simplifyLoop svd tolerance (normSqOf ds (amp q)) normalize q sweeps s old P A errs =
            some (leave true normalize ds.length y.P y.Pk (normSq ds y.P) s e (errs ++ [e]) 0)) ∧
        (normSqOf ds (amp q) * normSq ds y.P ≠ 0 → ¬ StopRule tolerance old e →
          simplifyLoop svd tolerance (normSqOf ds (amp q)) normalize q sweeps s old P A errs =
            match sweeps with
            | 0 => some (leave false normalize ds.length y.P y.Pk (normSq ds y.P) s e (errs ++ [e]) 0)
            | sweeps + 1 => simplifyLoop svd tolerance (normSqOf ds (amp q)) normalize q sweeps (-s) e y.P y.A (errs ++ [e])) := by
    intro sweeps s hs old P A hP hr errs
    obtain ⟨y, y1, y2, y3, y4⟩ := key hs hP hr
    have hl := hP.length
    have herr := sweep_err y2.swept.best hN
    have y1' : (if s > 0 then sweepRight svd q P.length 0 ⟨P, A, Tensor.empty, Tensor.empty⟩
        else sweepLeft svd q P.length ⟨P, A, Tensor.empty, Tensor.empty⟩) = y := y1
    refine ⟨y, _, y2, rfl, ?_, ?_, ?_⟩
    · intro h0
      rw [simplifyLoop.eq_def]
      simp only [y1', y3, y4]
      rw [if_pos h0]
    · intro h0 hst
      unfold StopRule at hst
      rw [simplifyLoop.eq_def]
      simp only [y1', y3, y4, herr]
      rw [if_neg h0, if_pos hst, hl]
    · intro h0 hst
      unfold StopRule at hst
      rw [simplifyLoop.eq_def]
      simp only [y1', y3, y4, herr]
      rw [if_neg h0, if_neg hst, hl]
      cases sweeps <;> rfl
  have nzero : ∀ {P P' : List (Tensor K)} {s : Int}, Swept ds (amp q) P s P' → MPS.inner ds (amp P) (amp q) ≠ 0 →
      MPS.inner ds (amp P') (amp q) ≠ 0 := by
    intro P P' s hsw hz h0
    refine hsw.nz hz ?_
    have := hsw.best.overlap
    rw [← Props.inner_star', h0, star_zero] at this
    exact_mod_cast this.symm
  induction sweeps with
  | zero =>
    intro s hs old P A hP hD hr errs
    obtain ⟨y, e, y1, y2, y3, y4, y5⟩ := step 0 hs old hP hr errs
    by_cases h0 : normSqOf ds (amp q) * normSq ds y.P = 0
    · refine ⟨fun out ho => by rw [y3 h0] at ho; exact absurd ho (by simp), fun hz hz' => ?_⟩
      exact absurd h0 (mul_ne_zero hz' (y1.swept.nz hz))
    · obtain ⟨z1, z2⟩ := mul_ne_zero_iff.1 h0
      by_cases hst : StopRule tolerance old e
      · refine ⟨fun out ho => ?_, fun _ _ => ⟨_, y4 h0 hst⟩⟩
        rw [y4 h0 hst, Option.some.injEq] at ho
        have hf := Fitted.one (infid_mono hN) (by omega) hs (y1.swept.by hD (l := (0 : ℝ) - 0) (by simp)) y2 (errs ++ [e]) (stop := true) (n := 0 + 1)
          (normalize := normalize) (Stop := StopRule tolerance) (old := old) (by simpa using hst) (by omega) (by simp) (fun _ _ => z2)
        rw [← y1.last, ho] at hf
        have e0 : out.P0 = y.P ∧ out.lost = 0 ∧ out.errs = errs ++ [e] := by rw [← ho]; cases normalize <;> exact ⟨rfl, rfl, rfl⟩
        exact ⟨e0.2.1, z1, by rw [e0.1]; exact z2, [e], e0.2.2, hf⟩
      · refine ⟨fun out ho => ?_, fun _ _ => ⟨_, y5 h0 hst⟩⟩
        rw [y5 h0 hst] at ho
        have ho := Option.some.inj ho
        have hf := Fitted.one (infid_mono hN) (by omega) hs (y1.swept.by hD (l := (0 : ℝ) - 0) (by simp)) y2 (errs ++ [e]) (stop := false) (n := 0 + 1)
          (normalize := normalize) (Stop := StopRule tolerance) (old := old) (by simpa using hst) (by omega) (by simp) (fun _ _ => z2)
        rw [← y1.last, ho] at hf
        have e0 : out.P0 = y.P ∧ out.lost = 0 ∧ out.errs = errs ++ [e] := by rw [← ho]; cases normalize <;> exact ⟨rfl, rfl, rfl⟩
        exact ⟨e0.2.1, z1, by rw [e0.1]; exact z2, [e], e0.2.2, hf⟩
  | succ sweeps ih =>
    intro s hs old P A hP hD hr errs
    obtain ⟨y, e, y1, y2, y3, y4, y5⟩ := step (sweeps + 1) hs old hP hr errs
    by_cases h0 : normSqOf ds (amp q) * normSq ds y.P = 0
    · refine ⟨fun out ho => by rw [y3 h0] at ho; exact absurd ho (by simp), fun hz hz' => ?_⟩
      exact absurd h0 (mul_ne_zero hz' (y1.swept.nz hz))
    · obtain ⟨z1, z2⟩ := mul_ne_zero_iff.1 h0
      by_cases hst : StopRule tolerance old e
      · refine ⟨fun out ho => ?_, fun _ _ => ⟨_, y4 h0 hst⟩⟩
        rw [y4 h0 hst, Option.some.injEq] at ho
        have hf := Fitted.one (infid_mono hN) (by omega) hs (y1.swept.by hD (l := (0 : ℝ) - 0) (by simp)) y2 (errs ++ [e]) (stop := true) (n := sweeps + 1 + 1)
          (normalize := normalize) (Stop := StopRule tolerance) (old := old) (by simpa using hst) (by omega) (by simp) (fun _ _ => z2)
        rw [← y1.last, ho] at hf
        have e0 : out.P0 = y.P ∧ out.lost = 0 ∧ out.errs = errs ++ [e] := by rw [← ho]; cases normalize <;> exact ⟨rfl, rfl, rfl⟩
        exact ⟨e0.2.1, z1, by rw [e0.1]; exact z2, [e], e0.2.2, hf⟩
      · obtain ⟨i1, i2⟩ := ih (s := -s) (by rcases hs with rfl | rfl <;> simp) e y1.swept.wf
          (fun j hj => (y1.swept.bond j hj).trans (hD j hj)) (y1.ready hs) (errs ++ [e])
        have y5' := y5 h0 hst
        refine ⟨fun out ho => ?_, fun hz hz' => ?_⟩
        · rw [y5'] at ho
          obtain ⟨j1, j2, j3, es, j4, j5⟩ := i1 out ho
          exact ⟨j1, j2, j3, e :: es, by rw [j4]; simp, Fitted.more (infid_mono hN) (y1.swept.by hD (l := (0 : ℝ) - 0) (by simp)) y2 hst j5⟩
        · obtain ⟨out, ho⟩ := i2 (nzero y1.swept hz) hz'
          exact ⟨out, by rw [y5']; exact ho⟩

end MPS.Simp
