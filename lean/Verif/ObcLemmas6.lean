import Verif.ObcLemmas5
import Verif.Props.ObcProps

/-!
# `simplify_obc` started from a state in any form: the loop
-/

set_option linter.unusedSectionVars false
set_option linter.unusedSimpArgs false

namespace MPS.Obc
open MPS Tensor Form Minim
variable {K : Type} [RCLike K]

/-- the sweeper at the start of a sweep -/
def Ends (ds : List Nat) (s : Sweeper) : Prop :=
  s = ⟨0, 0, (ds.length : Int) - 1, 1⟩ ∨ s = ⟨(ds.length : Int) - 1, (ds.length : Int) - 1, 0, -1⟩

theorem AtStart.ends {ds : List Nat} {w : List K} {Q : List (List (Tensor K))} {x : Sim K} (h : AtStart ds w Q x) : Ends ds x.s := by
  obtain ⟨h, -⟩ | ⟨h, -⟩ := h
  · exact Or.inl h
  · exact Or.inr h

theorem flip_ends {ds : List Nat} (hN : 0 < ds.length) {w : List K} {Q : List (List (Tensor K))} {D : Nat} {x y : Sim K} (hx : Ends ds x.s) (h : Swept0 ds w Q D x y) :
    AtStart ds w Q { y with s := y.s.flip } ∧ y.s.flip.k = y.s.k := by
  have h1 := h.s
  have h2 := h.cent
  obtain hs | hs := hx
  · have hk : y.s = ⟨(ds.length : Int) - 1, 0, (ds.length : Int) - 1, 1⟩ := by rw [h1, hs]
    rw [hk] at h2 ⊢
    refine ⟨Or.inr ⟨rfl, ?_⟩, rfl⟩
    rwa [show (((ds.length : Int) - 1).toNat) = ds.length - 1 by omega] at h2
  · have hk : y.s = ⟨0, (ds.length : Int) - 1, 0, -1⟩ := by rw [h1, hs]
    rw [hk] at h2 ⊢
    exact ⟨Or.inl ⟨rfl, h2⟩, rfl⟩

/-- what the loop guarantees, without reference to the initial state -/
structure Ran0 (ds : List Nat) (w : List K) (Q : List (List (Tensor K))) (D : Nat) (normalize : Bool) (tolerance : ℝ) (sweeps : Nat) (olderr : ℝ)
    (x : Sim K) (es : List ℝ) (out : Out K) : Prop where
  fin : ∃ y, AtStart ds w Q y ∧ out = finish normalize y out.err out.norm out.errs ∧ Best ds (superpose w Q) y.P y.s.k.toNat ∧
    ∀ j, j + 1 < ds.length → BondOk D (site y.P j)
  norm : out.norm = normSq ds out.P0
  err : normSqOf ds (superpose w Q) ≠ 0 → out.err = relDist ds (superpose w Q) out.P0
  last : ∃ es', es = es' ++ [out.err]
  count : es.length ≤ sweeps + 1
  lost : x.lost ≤ out.lost
  go : ∀ j, j + 1 < es.length → ¬ StopRule tolerance ((olderr :: es).getD j 0) (es.getD j 0)
  stop : es.length < sweeps + 1 → StopRule tolerance ((olderr :: es).getD (es.length - 1) 0) out.err

theorem loop_any {ds : List Nat} (hN : 0 < ds.length) {w : List K} {Q : List (List (Tensor K))} {D : Nat} {sweep : Sim K → Option (Sim K)}
    (hsw : ∀ x, AtStart ds w Q x → ∃ y, sweep x = some y ∧ Swept ds w Q D x y) (normalize : Bool) (tolerance : ℝ)
    (sweeps : Nat) (olderr : ℝ) (x : Sim K) (errs : List ℝ) (hx : Ends ds x.s) (h0 : ∃ y, sweep x = some y ∧ Swept0 ds w Q D x y) :
    ∃ out es, loop sweep normalize tolerance (normSqOf ds (superpose w Q)) sweeps olderr x errs = some out ∧ out.errs = errs ++ es ∧
      Ran0 ds w Q D normalize tolerance sweeps olderr x es out := by
  have hsw0 : ∀ x, AtStart ds w Q x → ∃ y, sweep x = some y ∧ Swept0 ds w Q D x y := fun x hx => by
    obtain ⟨y, h1, h2⟩ := hsw x hx
    exact ⟨y, h1, h2.weak⟩
  induction sweeps generalizing olderr x errs with
  | zero =>
    obtain ⟨y, h1, h2⟩ := h0
    obtain ⟨f1, f2⟩ := flip_ends hN hx h2
    set e := Real.sqrt |1 - normSq ds y.P / normSqOf ds (superpose w Q)| with he
    have hloop : loop sweep normalize tolerance (normSqOf ds (superpose w Q)) 0 olderr x errs =
        some (finish normalize { y with s := y.s.flip } e (normSq ds y.P) (errs ++ [e])) := by
      rw [loop, h1, Option.bind_some]
      simp only
      rw [norm_at_centre h2.cent, ← he, ite_self]
    refine ⟨_, [e], hloop, rfl, ⟨⟨{ y with s := y.s.flip }, f1, rfl, ?_, h2.bonds⟩, rfl, fun hq => err_eq h2.best hq, ⟨[], rfl⟩, by simp, h2.lost, by simp, by simp⟩⟩
    simp only [f2]; exact h2.best
  | succ sweeps ih =>
    obtain ⟨y, h1, h2⟩ := h0
    obtain ⟨f1, f2⟩ := flip_ends hN hx h2
    set e := Real.sqrt |1 - normSq ds y.P / normSqOf ds (superpose w Q)| with he
    have hloop : loop sweep normalize tolerance (normSqOf ds (superpose w Q)) (sweeps + 1) olderr x errs =
        if olderr - e < 1 / 10 ^ 5 * |olderr| ∨ e < tolerance then some (finish normalize { y with s := y.s.flip } e (normSq ds y.P) (errs ++ [e]))
        else loop sweep normalize tolerance (normSqOf ds (superpose w Q)) sweeps e { y with s := y.s.flip } (errs ++ [e]) := by
      rw [loop, h1, Option.bind_some]
      simp only
      rw [norm_at_centre h2.cent, ← he]
    by_cases hst : StopRule tolerance olderr e
    · rw [if_pos (show olderr - e < 1 / 10 ^ 5 * |olderr| ∨ e < tolerance from hst)] at hloop
      refine ⟨_, [e], hloop, rfl, ⟨⟨{ y with s := y.s.flip }, f1, rfl, ?_, h2.bonds⟩, rfl, fun hq => err_eq h2.best hq, ⟨[], rfl⟩, by simp, h2.lost, by simp,
        fun _ => by simp only [List.length_singleton, Nat.sub_self, List.getD_cons_zero]; exact hst⟩⟩
      simp only [f2]; exact h2.best
    · rw [if_neg (show ¬ (olderr - e < 1 / 10 ^ 5 * |olderr| ∨ e < tolerance) from hst)] at hloop
      obtain ⟨out, es, r1, r2, r⟩ := ih e { y with s := y.s.flip } (errs ++ [e]) f1.ends (hsw0 _ f1)
      obtain ⟨es', hes'⟩ := r.last
      have hl := h2.lost
      have hl' := r.lost
      simp only at hl'
      have hlen : es.length = es'.length + 1 := by rw [hes']; simp
      refine ⟨out, e :: es, by rw [hloop, r1], by rw [r2]; simp, ⟨r.fin, r.norm, r.err, ⟨e :: es', by rw [hes']; simp⟩, ?_, by linarith, ?_, ?_⟩⟩
      · have := r.count; simp only [List.length_cons]; omega
      · intro j hj
        cases j with
        | zero => simpa using hst
        | succ j => rw [List.getD_cons_succ, List.getD_cons_succ]; exact r.go j (by simpa using hj)
      · intro h
        have := r.stop (by simpa using h)
        rw [List.length_cons, show es.length + 1 - 1 = (es.length - 1) + 1 by omega, List.getD_cons_succ]
        exact this

theorem reached_core {ds : List Nat} {w : List K} {Q : List (List (Tensor K))} {D : Nat} {normalize : Bool} {tolerance : ℝ} {n : Nat}
    {x : Sim K} {out : Out K} (hx : x.lost = 0) (r : Ran0 ds w Q D normalize tolerance n 1 x out.errs out) :
    Reached ds w Q (n + 1) normalize D tolerance out := by
  obtain ⟨y, f1, f2, f3, f4⟩ := r.fin
  have e0 : out.P0 = y.P := by rw [f2]; rfl
  obtain ⟨k, hk, hkn, hc, hs, hcen⟩ : ∃ k, k < ds.length ∧ y.s.k.toNat = k ∧ LCent ds w Q y.P y.lf k ∧ (out.sense = 1 ∨ out.sense = -1) ∧
      centreOf ds.length out.sense = k := by
    obtain ⟨hs, hc⟩ | ⟨hs, hc⟩ := f1
    · have : out.sense = -1 := by rw [f2]; simp [finish, hs]
      exact ⟨0, hc.lt, by rw [hs]; simp, hc, Or.inr this, by simp [centreOf, this]⟩
    · have : out.sense = 1 := by rw [f2]; simp [finish, hs]
      exact ⟨_, hc.lt, by rw [hs]; simp, hc, Or.inl this, by simp [centreOf, this]⟩
  have hlen := hc.wf.length
  have hP : out.P = if normalize then y.P.set k (smul ((1 / Real.sqrt out.norm : ℝ) : K) (site y.P k)) else y.P := by
    conv_lhs => rw [f2]
    simp only [finish, hkn]
  have hsm := Props.path_set_smul hc.wf k (by omega) ((1 / Real.sqrt out.norm : ℝ) : K)
  have hsite : ∀ j, j ≠ k → site out.P j = site y.P j := by
    intro j hj
    rw [hP]; split_ifs
    · rw [site_set _ _ _ _ (by omega), if_neg (by omega)]
    · rfl
  have hdim : ∀ j, (site out.P j).dims = (site y.P j).dims := by
    intro j
    by_cases hj : j = k
    · rw [hP]; split_ifs
      · rw [site_set _ _ _ _ (by omega), if_pos hj, hj]; rfl
      · rfl
    · rw [hsite j hj]
  rw [hkn] at f3
  have hlost := r.lost
  rw [hx] at hlost
  refine ⟨⟨?_, by rw [e0]; exact hc.wf⟩, ⟨hs, ?_⟩, r.norm, r.err, by rw [e0, hcen]; exact f3, hlost, ?_, ?_, ?_, ⟨r.count, r.last⟩, r.go, r.stop⟩
  · rw [hP]; split_ifs
    · exact hsm.1
    · exact hc.wf
  · unfold Described
    unfold centreOf at hcen
    split_ifs at hcen ⊢ with h
    · intro j h0 h1; rw [hsite j (by omega)]; exact hc.hi j (by omega) h1
    · intro j h0; rw [hsite j (by omega)]; exact hc.lo j (by omega)
  · intro hn; rw [hP, hn, e0]; rfl
  · intro hn
    rw [hn, if_pos rfl] at hP
    have hamp : ∀ s, IsCfg ds s → amp out.P s = ((1 / Real.sqrt out.norm : ℝ) : K) * amp out.P0 s := by
      intro s hs
      rw [amp_of_WF (by rw [hP]; exact hsm.1) (by rintro h; rw [hP] at h; have := congrArg List.length h; simp only [List.length_set, List.length_nil] at this; omega),
        amp_of_WF (by rw [e0]; exact hc.wf) (by rintro h; rw [e0] at h; have := congrArg List.length h; simp only [List.length_nil] at this; omega),
        Finset.mul_sum, hP, e0]
      exact Finset.sum_congr rfl fun u hu => hsm.2 s hs u (Finset.mem_range.1 hu) u
    refine ⟨hamp, fun h0 => ?_⟩
    unfold normSq
    rw [sumCfg_congr (G := fun s => (1 / out.norm) * ‖amp out.P0 s‖ ^ 2) fun s hs => ?_, sumCfg_mul_left]
    · have : sumCfg ds (fun s => ‖amp out.P0 s‖ ^ 2) = out.norm := r.norm.symm
      rw [this]; field_simp
    · have hn0 : 0 ≤ out.norm := by rw [r.norm]; exact normSq_nonneg _ _
      rw [hamp s hs, norm_mul, mul_pow, RCLike.norm_ofReal, sq_abs, div_pow, Real.sq_sqrt hn0, one_pow]
  · intro hD j hj
    have := f4 j hj hD
    unfold Tensor.dim at this ⊢
    rw [hdim]; exact this

end MPS.Obc

namespace MPS.Props
open MPS Tensor Form Minim Obc
variable {K : Type} [RCLike K]

/-- **C80**, for an initial guess in any form, whatever the value of `sense`, and for any target -/
theorem C80_any_form {svd : Tensor K → SvdRes K} (hg : GoodSvd svd) (eps : ℝ) {dflt : ℝ} (hd0 : 0 < dflt) (single : Bool) (tolerance : ℝ)
    {ds : List Nat} {w : List K} {Q : List (List (Tensor K))} (hne : Q ≠ []) (hQ : ∀ b ∈ Q, WF 1 b ds 1)
    {P : List (Tensor K)} (hP : WF 1 P ds 1) (hN : 0 < ds.length) (sense : Int)
    {sweeps : Nat} (hsw : 0 < sweeps) (normalize : Bool) (Dmax : Nat) {tol : ℝ} (htol : tol ≠ 0)
    (halg : (single = true ∧ Dmax = 0) ∨ 2 ≤ ds.length) :
    ∃ out, simplifyObc svd eps dflt single tolerance P w Q sense sweeps normalize Dmax tol = some out ∧
      Reached ds w Q sweeps normalize Dmax tolerance out := by
  have hlen := hP.length
  obtain ⟨n, rfl⟩ : ∃ n, sweeps = n + 1 := ⟨sweeps - 1, by omega⟩
  unfold simplifyObc
  rw [if_neg (by omega), hlen]
  have hm : ∀ b ∈ Q, IsMPS ds b := fun b hb => ⟨by
    rintro rfl
    have := (hQ _ hb).length
    simp at this; omega, 1, hQ b hb⟩
  have hnorm : ∀ k, k < ds.length → (LForm.new w Q P k).norm2 = some (Real.sqrt (normSqOf ds (superpose w Q))) := by
    intro k hk
    obtain ⟨h1, -⟩ := LInv.new (weight := w) (fun b hb => (hQ b hb).length) hne hlen hk
    have := C50_norm (f := LForm.new w Q P k) (ds := ds) (by rw [h1.brasEq]; exact hm)
    rw [h1.weightEq, h1.brasEq] at this
    exact this
  set sweep := (if Dmax = 0 ∧ single = true then singleSweep svd eps dflt ds.length
      else twoSweep svd eps dflt Dmax tol ds.length) with hsweepdef
  have hsweep : ∀ x, AtStart ds w Q x → ∃ y, sweep x = some y ∧ Swept ds w Q Dmax x y := by
    by_cases h : Dmax = 0 ∧ single = true
    · intro x hx
      rw [hsweepdef, if_pos h, h.1]; exact single_sweep hg eps hd0 hne hQ hx
    · intro x hx
      rw [hsweepdef, if_neg h]
      exact two_sweep hg eps hd0 hne hQ Dmax htol (halg.resolve_left fun hh => h ⟨hh.2, hh.1⟩) hx
  have hform : ∀ k, k < ds.length → LWeak ds w Q P (LForm.new w Q P k) k := fun k hk =>
    ⟨hk, hP, LGood.new (fun b hb => (hQ b hb).length) hne hlen hk⟩
  have key : ∀ s : Sweeper, Ends ds s → ∃ out, ((LForm.new w Q P s.k.toNat).norm2.bind fun nq => loop sweep normalize tolerance (nq ^ 2) (n + 1 - 1) 1
      ⟨P, LForm.new w Q P s.k.toNat, s, 0⟩ []) = some out ∧ Reached ds w Q (n + 1) normalize Dmax tolerance out := by
    intro s hs
    have hk : s.k.toNat < ds.length := by
      obtain rfl | rfl := hs
      · simpa using hN
      · simp; omega
    rw [hnorm _ hk, Option.bind_some, Real.sq_sqrt (normSqOf_nonneg _ _), Nat.add_sub_cancel]
    obtain ⟨out, es, r1, r2, r⟩ := loop_any hN hsweep normalize tolerance n 1 ⟨P, LForm.new w Q P s.k.toNat, s, 0⟩ [] hs (by
      by_cases h : Dmax = 0 ∧ single = true
      · rw [hsweepdef, if_pos h, h.1]
        obtain rfl | rfl := hs
        · obtain ⟨m, hm⟩ : ∃ m, ds.length = m + 1 := ⟨ds.length - 1, by omega⟩
          have := single_right0 hg eps hd0 hne hQ m (k := 0) (by omega) (x := ⟨P, LForm.new w Q P 0, ⟨0, 0, (ds.length : Int) - 1, 1⟩, 0⟩) rfl
            (hform 0 hN) (fun j hj => by omega)
          rw [← hm] at this
          exact this
        · have := single_left0 hg eps hd0 hne hQ (k := ds.length - 1)
            (x := ⟨P, LForm.new w Q P (ds.length - 1), ⟨(ds.length : Int) - 1, (ds.length : Int) - 1, 0, -1⟩, 0⟩) (by simp; omega)
            (hform _ (by omega)) (fun j hj hj2 => by omega)
          rw [show ds.length - 1 + 1 = ds.length by omega] at this
          simp only [show (((ds.length : Int) - 1).toNat) = ds.length - 1 by omega]
          exact this
      · rw [hsweepdef, if_neg h]
        have h2 := halg.resolve_left fun hh => h ⟨hh.2, hh.1⟩
        obtain ⟨m, hm⟩ : ∃ m, ds.length = m + 2 := ⟨ds.length - 2, by omega⟩
        obtain rfl | rfl := hs
        · have := two_right0 hg eps hd0 hne hQ Dmax htol m (k := 0) (by omega) (x := ⟨P, LForm.new w Q P 0, ⟨0, 0, (ds.length : Int) - 1, 1⟩, 0⟩) rfl
            (hform 0 hN) (fun j hj => by omega) (fun j hj => by omega)
          rw [← hm] at this
          exact this
        · have := two_left0 hg eps hd0 hne hQ Dmax htol (k := m)
            (x := ⟨P, LForm.new w Q P (m + 1), ⟨(ds.length : Int) - 1, (ds.length : Int) - 1, 0, -1⟩, 0⟩) (by simp; omega)
            (hform _ (by omega)) (fun j hj hj2 => by omega) (fun j hj hj2 => by omega)
          rw [← hm] at this
          simp only [show (((ds.length : Int) - 1).toNat) = m + 1 by omega]
          exact this)
    refine ⟨out, r1, reached_core (x := ⟨P, LForm.new w Q P s.k.toNat, s, 0⟩) rfl ?_⟩
    rw [List.nil_append] at r2
    rw [← r2] at r
    exact r
  unfold Sweeper.new
  rw [if_pos (by omega)]
  by_cases h : -sense > 0
  · rw [if_pos h, Option.bind_some]
    exact key _ (Or.inl rfl)
  · rw [if_neg h, Option.bind_some]
    exact key _ (Or.inr rfl)

end MPS.Props
