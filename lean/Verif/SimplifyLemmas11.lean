import Verif.SimplifyLemmas10

/-!
# Sweeps and loops of `simplify(&P, {Q}, weights, ...)`
-/

set_option linter.unusedSectionVars false
set_option linter.unusedSimpArgs false

namespace MPS.Simp
open MPS Tensor Form Minim Obc
variable {K : Type} [RCLike K]

theorem manyRight2_spec {svd : Tensor K → SvdRes K} (hsvd : GoodSvd svd) (eps : ℝ) {dflt : ℝ} (hd0 : 0 < dflt) (Dmax : Nat) {tol : ℝ} (htol : tol ≠ 0)
    {ds : List Nat} {P0 : List (Tensor K)} (h0 : WF 1 P0 ds 1) {m : Many K} (hne : m.Q ≠ []) (hQ : ∀ q ∈ m.Q, WF 1 q ds 1) (lost0 : ℝ) (n : Nat) :
    ∀ (k a b : Nat) (x : MSweep K), k + n + 2 = ds.length → SameTarget m x.m → AllCaches ds m.Q x.P x.m.mat k (k + 2) →
      R2Inv ds (superpose m.weights m.Q) P0 x.P Dmax lost0 x.lost k a b (x.m.next2 k) →
      ∃ y, manyRight2 svd eps dflt Dmax tol (n + 1) k x = some y ∧ MDone ds m P0 1 y ∧
        SweptBy ds (superpose m.weights m.Q) P0 1 (fun _ d => 0 < Dmax → d ≤ Dmax) (y.lost - lost0) y.P := by
  induction n with
  | zero =>
    intro k a b x hk hs hc hi
    have hl := hi.wf.length
    obtain ⟨Q, R, l, l2, g, r1, r2⟩ := stored hsvd eps hd0 hi.wf (by omega) hi.gap hi.proj.dims Dmax htol (k : Int) 1 (by simp [Props.firstSite])
    obtain ⟨rfl, hf⟩ := hi.finish (by omega) r2
    have hRl := r2.wfR.length
    have sR := r2.site hl (by omega)
    obtain ⟨s1, s2, s3⟩ := hs
    have hQ' : ∀ q ∈ x.m.Q, WF 1 q ds 1 := by rw [s1]; exact hQ
    rw [← s1] at hc
    have hc1 := hc.pushRight (P' := R) (hi' := ds.length) (by omega) (by omega) (by omega) hQ' hRl
      (site_take_eq (by omega) (by omega) fun j hj => sR j (by omega) (by omega)) (by rw [List.drop_eq_nil_of_le (by omega), List.drop_eq_nil_of_le (by omega)])
    have hc2 := AllCaches.pushRight (m := x.m.update k (site R k) 1) (P' := R) (hi' := ds.length) hc1 (by omega) (by omega) le_rfl hQ' hRl rfl rfl
    refine ⟨_, by rw [manyRight2, r1, Option.bind_some, manyRight2], ⟨?_, ?_, ?_⟩, hf⟩
    · exact ⟨s1, s2, s3⟩
    · simp only [show ¬ (1 : Int) < 0 by decide, if_false]
      rw [← s1]
      exact hc2.mono (by omega) le_rfl
    · simp only [centreOf, show ¬ (1 : Int) < 0 by decide, if_false]
      rw [show ds.length - 1 = k + 1 by omega]
  | succ n ih =>
    intro k a b x hk hs hc hi
    have hl := hi.wf.length
    obtain ⟨Q, R, l, l2, g, r1, r2⟩ := stored hsvd eps hd0 hi.wf (by omega) hi.gap hi.proj.dims Dmax htol (k : Int) 1 (by simp [Props.firstSite])
    have hRl := r2.wfR.length
    have hQl := r2.wfQ.length
    have sQ := r2.site hl (by omega)
    have sR : ∀ j, j ≠ k + 1 → j ≠ k + 2 → site R j = site Q j := by have := r2.after; rw [if_pos (by decide)] at this; exact this.1
    obtain ⟨s1, s2, s3⟩ := hs
    have hQ' : ∀ q ∈ x.m.Q, WF 1 q ds 1 := by rw [s1]; exact hQ
    rw [← s1] at hc
    have hc1 := hc.pushRight (P' := R) (hi' := k + 3) (by omega) (by omega) (by omega) hQ' hRl
      (site_take_eq (by omega) (by omega) fun j hj => by rw [sR j (by omega) (by omega), sQ j (by omega) (by omega)])
      (site_drop_eq (by omega) fun j h1 h2 => by rw [sR j (by omega) (by omega), sQ j (by omega) (by omega)])
    obtain ⟨a', b', c, hg, -, -, -⟩ := Gap2.of_WF r2.wfR (k := k + 1) (by omega)
    have hp : Proj2 ds (superpose m.weights m.Q) R (k + 1) a' b' ((x.m.update k (site R k) 1).next2 (k + 1)) := by
      have := proj_pair_many (m := x.m.update k (site R k) 1) hg (by show x.m.Q ≠ []; rw [s1]; exact hne) hQ' hc1
      rwa [show (x.m.update k (site R k) 1).Q = m.Q from s1, show (x.m.update k (site R k) 1).weights = m.weights from s2] at this
    obtain ⟨y, y1, y2⟩ := ih (k + 1) a' b' ⟨R, x.m.update k (site R k) 1, x.Pk, x.lost + l⟩ (by omega) ⟨s1, s2, s3⟩ (by rw [← s1]; exact hc1)
      (hi.step h0 (by omega) r2 hg hp)
    refine ⟨y, ?_, y2⟩
    rw [manyRight2, r1, Option.bind_some]
    exact y1

theorem manyLeft2_spec {svd : Tensor K → SvdRes K} (hsvd : GoodSvd svd) (eps : ℝ) {dflt : ℝ} (hd0 : 0 < dflt) (Dmax : Nat) {tol : ℝ} (htol : tol ≠ 0)
    {ds : List Nat} {P0 : List (Tensor K)} (h0 : WF 1 P0 ds 1) {m : Many K} (hne : m.Q ≠ []) (hQ : ∀ q ∈ m.Q, WF 1 q ds 1) (lost0 : ℝ) (k : Nat) :
    ∀ (a b : Nat) (x : MSweep K), k + 1 < ds.length → SameTarget m x.m → AllCaches ds m.Q x.P x.m.mat k (k + 2) →
      L2Inv ds (superpose m.weights m.Q) P0 x.P Dmax lost0 x.lost k a b (x.m.next2 k) →
      ∃ y, manyLeft2 svd eps dflt Dmax tol (k + 1) x = some y ∧ MDone ds m P0 (-1) y ∧
        SweptBy ds (superpose m.weights m.Q) P0 (-1) (fun _ d => 0 < Dmax → d ≤ Dmax) (y.lost - lost0) y.P := by
  induction k with
  | zero =>
    intro a b x hk hs hc hi
    have hl := hi.wf.length
    obtain ⟨Q, R, l, l2, g, r1, r2⟩ := stored hsvd eps hd0 hi.wf (by omega) hi.gap hi.proj.dims Dmax htol ((0 + 1 : Nat) : Int) (-1) (by simp [Props.firstSite])
    obtain ⟨rfl, hf⟩ := hi.finish r2
    have hRl := r2.wfR.length
    have sR := r2.site hl (by omega)
    obtain ⟨s1, s2, s3⟩ := hs
    have hQ' : ∀ q ∈ x.m.Q, WF 1 q ds 1 := by rw [s1]; exact hQ
    rw [← s1] at hc
    have hc1 := AllCaches.pushLeft (k := 0 + 1) (P' := R) (lo' := 0) hc (by omega) (by omega) (by omega) hQ' hRl (by simp)
      (site_drop_eq (by omega) fun j hj _ => sR j (by omega) (by omega))
    have hc2 := AllCaches.pushLeft (m := x.m.update (0 + 1) (site R (0 + 1)) (-1)) (P' := R) (lo' := 0) hc1 (by omega) (by omega) le_rfl hQ' hRl rfl rfl
    refine ⟨_, by rw [manyLeft2, r1, Option.bind_some, manyLeft2], ⟨?_, ?_, ?_⟩, hf⟩
    · exact ⟨s1, s2, s3⟩
    · simp only [show (-1 : Int) < 0 by decide, if_true]
      rw [← s1]
      exact hc2
    · simp only [centreOf, show (-1 : Int) < 0 by decide, if_true]
  | succ k ih =>
    intro a b x hk hs hc hi
    have hl := hi.wf.length
    obtain ⟨Q, R, l, l2, g, r1, r2⟩ := stored hsvd eps hd0 hi.wf (by omega) hi.gap hi.proj.dims Dmax htol ((k + 1 + 1 : Nat) : Int) (-1) (by simp [Props.firstSite])
    have hRl := r2.wfR.length
    have hQl := r2.wfQ.length
    have sQ := r2.site hl (by omega)
    have sR : ∀ j, j ≠ k + 1 → j ≠ k → site R j = site Q j := by
      have := r2.after
      rw [if_neg (by decide)] at this
      exact fun j h1 h2 => this.1 j h1 (by omega)
    obtain ⟨s1, s2, s3⟩ := hs
    have hQ' : ∀ q ∈ x.m.Q, WF 1 q ds 1 := by rw [s1]; exact hQ
    rw [← s1] at hc
    have hc1 := AllCaches.pushLeft (k := k + 2) (P' := R) (lo' := k) hc (by omega) (by omega) (by omega) hQ' hRl
      (site_take_eq (by omega) (by omega) fun j hj => by rw [sR j (by omega) (by omega), sQ j (by omega) (by omega)])
      (site_drop_eq (by omega) fun j h1 h2 => by rw [sR j (by omega) (by omega), sQ j (by omega) (by omega)])
    obtain ⟨a', b', c, hg, -, -, -⟩ := Gap2.of_WF r2.wfR (k := k) (by omega)
    have hp : Proj2 ds (superpose m.weights m.Q) R k a' b' ((x.m.update (k + 2) (site R (k + 2)) (-1)).next2 k) := by
      have := proj_pair_many (m := x.m.update (k + 2) (site R (k + 2)) (-1)) hg (by show x.m.Q ≠ []; rw [s1]; exact hne) hQ' hc1
      rwa [show (x.m.update (k + 2) (site R (k + 2)) (-1)).Q = m.Q from s1,
        show (x.m.update (k + 2) (site R (k + 2)) (-1)).weights = m.weights from s2] at this
    obtain ⟨y, y1, y2⟩ := ih a' b' ⟨R, x.m.update (k + 2) (site R (k + 2)) (-1), x.Pk, x.lost + l⟩ (by omega) ⟨s1, s2, s3⟩ (by rw [← s1]; exact hc1)
      (hi.step h0 r2 hg hp)
    refine ⟨y, ?_, y2⟩
    rw [manyLeft2, r1, Option.bind_some]
    exact y1

/-! ### the loop -/

/-- the caches needed to start a sweep in the direction `s` -/
def MReady (ds : List Nat) (m : Many K) (s : Int) (x : MSweep K) : Prop :=
  SameTarget m x.m ∧ AllCaches ds m.Q x.P x.m.mat (if s > 0 then 0 else ds.length) (if s > 0 then 0 else ds.length)

theorem MDone.ready {ds : List Nat} {m : Many K} {P : List (Tensor K)} {s : Int} {y : MSweep K} (h : MDone ds m P s y) (hs : s = 1 ∨ s = -1) :
    MReady ds m (-s) y := by
  refine ⟨h.same, ?_⟩
  have := h.caches
  rcases hs with rfl | rfl
  · simpa using this
  · simpa using this

/-- the rule that ends the iteration of `simplify(&P, {Q}, weights, ...)`, /repo/src/mps/mps_simplify_many.cc:326-327 -/
def ManyStop (tolerance normQ2 : ℝ) (old new : ℝ) : Prop :=
  |old - new| < 1 / 10 ^ 5 * |normQ2| ∨ new < tolerance * normQ2 ∨ new < 1 / 10 ^ 14

/-- a sweep that works from all states with the property `I` -/
def SweepOk (ds : List Nat) (m : Many K) (Dok : Nat → Nat → Prop) (I : List (Tensor K) → ℝ → Prop) (sweep : Int → MSweep K → Option (MSweep K)) : Prop :=
  ∀ (s : Int) (x : MSweep K), s = 1 ∨ s = -1 → WF 1 x.P ds 1 → I x.P x.lost → MReady ds m s x →
    ∃ y, sweep s x = some y ∧ MDone ds m x.P s y ∧ SweptBy ds (superpose m.weights m.Q) x.P s Dok (y.lost - x.lost) y.P ∧ I y.P y.lost

theorem manyLoop_spec {ds : List Nat} {m : Many K} (hL : m.L = ds.length) (hQ : ∀ q ∈ m.Q, WF 1 q ds 1) (h1 : 0 < ds.length) {Dok : Nat → Nat → Prop}
    {I : List (Tensor K) → ℝ → Prop} {sweep : Int → MSweep K → Option (MSweep K)} (hsw : SweepOk ds m Dok I sweep) (tolerance : ℝ) (normalize : Bool)
    (sweeps : Nat) : ∀ {s : Int} (_ : s = 1 ∨ s = -1) (old : ℝ) {x : MSweep K} (_ : WF 1 x.P ds 1) (_ : I x.P x.lost) (_ : MReady ds m s x) (errs : List ℝ),
      (∀ out, manyLoop sweep tolerance (normSqOf ds (superpose m.weights m.Q)) normalize sweeps s old x errs = some out →
        I out.P0 out.lost ∧ ∃ es, out.errs = errs ++ es ∧ Fitted ds (superpose m.weights m.Q) x.P s (sweeps + 1) normalize
          (ManyStop tolerance (normSqOf ds (superpose m.weights m.Q))) (fun e => e) Dok old x.lost es out) ∧
      ((normalize = false ∨ ∀ P l, I P l → normSq ds P ≠ 0) →
        ∃ out, manyLoop sweep tolerance (normSqOf ds (superpose m.weights m.Q)) normalize sweeps s old x errs = some out) := by
  set q := superpose m.weights m.Q with hq
  have step : ∀ (sweeps : Nat) {s : Int} (_ : s = 1 ∨ s = -1) (old : ℝ) {x : MSweep K} (_ : WF 1 x.P ds 1) (_ : I x.P x.lost) (_ : MReady ds m s x)
      (errs : List ℝ), ∃ y e, MDone ds m x.P s y ∧ SweptBy ds q x.P s Dok (y.lost - x.lost) y.P ∧ I y.P y.lost ∧ e = distTo ds q y.P ∧
        (ManyStop tolerance (normSqOf ds q) old e →
          manyLoop sweep tolerance (normSqOf ds q) normalize sweeps s old x errs =
            if normalize = true ∧ normSq ds y.P = 0 then none
            else some (leave true normalize ds.length y.P y.Pk (normSq ds y.P) s e (errs ++ [e]) y.lost)) ∧
        (¬ ManyStop tolerance (normSqOf ds q) old e →
          manyLoop sweep tolerance (normSqOf ds q) normalize sweeps s old x errs =
            match sweeps with
            | 0 => some (leave false normalize ds.length y.P y.Pk (normSq ds y.P) s e (errs ++ [e]) y.lost)
            | sweeps + 1 => manyLoop sweep tolerance (normSqOf ds q) normalize sweeps (-s) e y (errs ++ [e])) := by
    intro sweeps s hs old x hP hI hr errs
    obtain ⟨y, y1, y2, y3, y4⟩ := hsw s x hs hP hI hr
    have hyL : y.m.L = ds.length := y2.same.2.2.trans hL
    have hyQ : ∀ q ∈ y.m.Q, WF 1 q ds 1 := by rw [y2.same.1]; exact hQ
    have hscp : y.m.scalarProduct (if s > 0 then y.m.L - 1 else 0) = MPS.inner ds (amp y.P) q := by
      have hc := y2.caches
      rw [← y2.same.1] at hc
      rw [hq, ← y2.same.1, ← y2.same.2.1, hyL]
      rcases hs with rfl | rfl
      · simp only [show ¬ (1 : Int) < 0 by decide, if_false] at hc
        rw [if_pos (by decide)]
        exact scalarProduct_right hc le_rfl h1 y3.wf hyQ
      · simp only [show (-1 : Int) < 0 by decide, if_true] at hc
        rw [if_neg (by decide)]
        exact scalarProduct_left hc h1 y3.wf hyQ
    have hnorm : RCLike.re (tscprod y.Pk y.Pk) = normSq ds y.P := by
      rw [y2.last, (centre_norm y3.wf h1 y3.desc).1, RCLike.ofReal_re]
    have hre : RCLike.re (MPS.inner ds (amp y.P) q) = normSq ds y.P := by
      rw [← Props.inner_star', y3.best.overlap, RCLike.star_def, RCLike.conj_re, RCLike.ofReal_re]
    have herr : |normSqOf ds q + normSq ds y.P - 2 * normSq ds y.P| = distTo ds q y.P := by
      rw [show normSqOf ds q + normSq ds y.P - 2 * normSq ds y.P = distTo ds q y.P by rw [y3.best.dist]; ring]
      exact abs_of_nonneg (distTo_nonneg _ _ _)
    refine ⟨y, _, y2, y3, y4, rfl, ?_, ?_⟩
    · intro hst
      unfold ManyStop at hst
      cases sweeps <;> (rw [manyLoop, y1, Option.bind_some, manyTurn]; simp only [hscp, hnorm, hre, herr]; rw [if_pos hst, hyL])
    · intro hst
      unfold ManyStop at hst
      cases sweeps <;> (rw [manyLoop, y1, Option.bind_some, manyTurn]; simp only [hscp, hnorm, hre, herr]; rw [if_neg hst])
      rw [hyL]
  have leaveP : ∀ (st : Bool) (y : MSweep K) (s : Int) (e : ℝ) (errs : List ℝ), (leave st normalize ds.length y.P y.Pk (normSq ds y.P) s e errs y.lost).P0 = y.P ∧
      (leave st normalize ds.length y.P y.Pk (normSq ds y.P) s e errs y.lost).lost = y.lost ∧
      (leave st normalize ds.length y.P y.Pk (normSq ds y.P) s e errs y.lost).errs = errs := by
    intro st y s e errs
    cases st <;> cases normalize <;> exact ⟨rfl, rfl, rfl⟩
  -- the last sweep, left by the stopping rule
  have stopped : ∀ (sweeps : Nat) {s : Int} (_ : s = 1 ∨ s = -1) (old : ℝ) {x y : MSweep K} (_ : MDone ds m x.P s y)
      (_ : SweptBy ds q x.P s Dok (y.lost - x.lost) y.P) (_ : I y.P y.lost) (errs : List ℝ) {e : ℝ} (_ : e = distTo ds q y.P)
      (_ : ManyStop tolerance (normSqOf ds q) old e) (_ : ¬ (normalize = true ∧ normSq ds y.P = 0)) {out : Res K}
      (_ : leave true normalize ds.length y.P y.Pk (normSq ds y.P) s e (errs ++ [e]) y.lost = out),
      I out.P0 out.lost ∧ ∃ es, out.errs = errs ++ es ∧ Fitted ds q x.P s (sweeps + 1) normalize (ManyStop tolerance (normSqOf ds q)) (fun e => e) Dok old x.lost es out := by
    intro sweeps s hs old x y y1 y2 y3 errs e he hst hz out ho
    have hf := Fitted.one monotone_id h1 hs y2 (he : e = id (distTo ds q y.P)) (errs ++ [e]) (stop := true) (n := sweeps + 1) (normalize := normalize)
      (Stop := ManyStop tolerance (normSqOf ds q)) (old := old) (by simpa using hst) (by omega) (by simp) (fun h _ h0 => hz ⟨h, h0⟩)
    rw [← y1.last, ho] at hf
    obtain ⟨p1, p0, p2⟩ := leaveP true y s e (errs ++ [e])
    rw [ho] at p1 p0 p2
    exact ⟨by rw [p1, p0]; exact y3, [e], p2, hf⟩
  induction sweeps with
  | zero =>
    intro s hs old x hP hI hr errs
    obtain ⟨y, e, y1, y2, y3, y4, y5, y6⟩ := step 0 hs old hP hI hr errs
    by_cases hst : ManyStop tolerance (normSqOf ds q) old e
    · have e5 := y5 hst
      by_cases hz : normalize = true ∧ normSq ds y.P = 0
      · rw [if_pos hz] at e5
        refine ⟨fun out ho => by rw [e5] at ho; exact absurd ho (by simp), fun h => ?_⟩
        rcases h with h | h
        · rw [h] at hz; exact absurd hz.1 (by decide)
        · exact absurd hz.2 (h _ _ y3)
      · rw [if_neg hz] at e5
        refine ⟨fun out ho => ?_, fun _ => ⟨_, e5⟩⟩
        rw [e5, Option.some.injEq] at ho
        exact stopped 0 hs old y1 y2 y3 errs y4 hst hz ho
    · have e6 := y6 hst
      refine ⟨fun out ho => ?_, fun _ => ⟨_, e6⟩⟩
      rw [e6] at ho
      have ho := Option.some.inj ho
      have hf := Fitted.one monotone_id h1 hs y2 (y4 : e = id (distTo ds q y.P)) (errs ++ [e]) (stop := false) (n := 0 + 1) (normalize := normalize)
        (Stop := ManyStop tolerance (normSqOf ds q)) (old := old) (by simpa using hst) (by omega) (by simp) (fun _ h => absurd h (by decide))
      rw [← y1.last, ho] at hf
      obtain ⟨p1, p0, p2⟩ := leaveP false y s e (errs ++ [e])
      rw [ho] at p1 p0 p2
      exact ⟨by rw [p1, p0]; exact y3, [e], p2, hf⟩
  | succ sweeps ih =>
    intro s hs old x hP hI hr errs
    obtain ⟨y, e, y1, y2, y3, y4, y5, y6⟩ := step (sweeps + 1) hs old hP hI hr errs
    by_cases hst : ManyStop tolerance (normSqOf ds q) old e
    · have e5 := y5 hst
      by_cases hz : normalize = true ∧ normSq ds y.P = 0
      · rw [if_pos hz] at e5
        refine ⟨fun out ho => by rw [e5] at ho; exact absurd ho (by simp), fun h => ?_⟩
        rcases h with h | h
        · rw [h] at hz; exact absurd hz.1 (by decide)
        · exact absurd hz.2 (h _ _ y3)
      · rw [if_neg hz] at e5
        refine ⟨fun out ho => ?_, fun _ => ⟨_, e5⟩⟩
        rw [e5, Option.some.injEq] at ho
        exact stopped (sweeps + 1) hs old y1 y2 y3 errs y4 hst hz ho
    · have e6 := y6 hst
      obtain ⟨i1, i2⟩ := ih (s := -s) (by rcases hs with rfl | rfl <;> simp) e y2.wf y3 (y1.ready hs) (errs ++ [e])
      refine ⟨fun out ho => ?_, fun h => ?_⟩
      · rw [e6] at ho
        obtain ⟨j1, es, j2, j3⟩ := i1 out ho
        exact ⟨j1, e :: es, by rw [j2]; simp, Fitted.more monotone_id y2 y4 hst j3⟩
      · obtain ⟨out, ho⟩ := i2 h
        exact ⟨out, by rw [e6]; exact ho⟩

/-! ### the sweeps satisfy what the loop needs -/

theorem oneSite_ok {svd : Tensor K → SvdRes K} (hsvd : GoodSvd svd) (eps : ℝ) {dflt : ℝ} (hd0 : 0 ≤ dflt) {ds : List Nat} {m : Many K} (hL : m.L = ds.length)
    (hne : m.Q ≠ []) (hQ : ∀ q ∈ m.Q, WF 1 q ds 1) (h1 : 0 < ds.length) (D : Nat → Nat) :
    SweepOk ds m (fun j d => d ≤ D j) (fun P l => l = 0 ∧ MPS.inner ds (amp P) (superpose m.weights m.Q) ≠ 0 ∧ ∀ j, j + 1 < ds.length → (site P j).dim 2 ≤ D j)
      (fun s x => some (if s > 0 then manyRight svd eps dflt x.m.L 0 x else manyLeft svd eps dflt x.m.L x)) := by
  intro s x hs hP hI hr
  obtain ⟨hl0, hz, hD⟩ := hI
  obtain ⟨hst, hc⟩ := hr
  have hxL : x.m.L = ds.length := hst.2.2.trans hL
  have fin : ∀ {s : Int} {y : MSweep K}, MDone ds m x.P s y → y.lost = x.lost → Swept ds (superpose m.weights m.Q) x.P s y.P →
      MDone ds m x.P s y ∧ SweptBy ds (superpose m.weights m.Q) x.P s (fun j d => d ≤ D j) (y.lost - x.lost) y.P ∧
        y.lost = 0 ∧ MPS.inner ds (amp y.P) (superpose m.weights m.Q) ≠ 0 ∧ ∀ j, j + 1 < ds.length → (site y.P j).dim 2 ≤ D j := by
    intro s y a1 a2 a3
    refine ⟨a1, a3.by hD (by rw [a2, sub_self]), by rw [a2, hl0], ?_, fun j hj => (a3.bond j hj).trans (hD j hj)⟩
    intro h0
    refine a3.nz hz ?_
    have := a3.best.overlap
    rw [← Props.inner_star', h0, star_zero] at this
    exact_mod_cast this.symm
  rcases hs with rfl | rfl
  · simp only [gt_iff_lt, show (0 : Int) < 1 by decide, if_true] at hc
    have hc1 : AllCaches ds m.Q x.P x.m.mat 0 (0 + 1) := hc.mono le_rfl (by omega)
    obtain ⟨a, b, g, d⟩ := Gap.of_WF hP (k := 0) (by omega)
    have hp : Proj ds (superpose m.weights m.Q) x.P 0 a b (x.m.next 0) := by
      have := proj_many (m := x.m) g (by rw [hst.1]; exact hne) (by rw [hst.1]; exact hQ) (by rw [hst.1]; exact hc1)
      rwa [hst.1, hst.2.1] at this
    obtain ⟨a1, a2, a3⟩ := manyRight_spec hsvd eps hd0 hP hne hQ hz (ds.length - 1) 0 a b x (by omega) hst hc1 (RInv.start g d hp)
    rw [show ds.length - 1 + 1 = ds.length by omega] at a1 a2 a3
    refine ⟨_, rfl, ?_⟩
    simp only [gt_iff_lt, show (0 : Int) < 1 by decide, if_true, hxL]
    exact fin a1 a2 a3
  · simp only [gt_iff_lt, show ¬ (0 : Int) < -1 by decide, if_false] at hc
    have hc1 : AllCaches ds m.Q x.P x.m.mat (ds.length - 1) (ds.length - 1 + 1) := hc.mono (by omega) (by omega)
    obtain ⟨a, b, g, d⟩ := Gap.of_WF hP (k := ds.length - 1) (by omega)
    have hp : Proj ds (superpose m.weights m.Q) x.P (ds.length - 1) a b (x.m.next (ds.length - 1)) := by
      have := proj_many (m := x.m) g (by rw [hst.1]; exact hne) (by rw [hst.1]; exact hQ) (by rw [hst.1]; exact hc1)
      rwa [hst.1, hst.2.1] at this
    obtain ⟨a1, a2, a3⟩ := manyLeft_spec hsvd eps hd0 hP hne hQ hz (ds.length - 1) a b x (by omega) hst hc1 (LSInv.start (by omega) g d hp)
    rw [show ds.length - 1 + 1 = ds.length by omega] at a1 a2 a3
    refine ⟨_, rfl, ?_⟩
    simp only [gt_iff_lt, show ¬ (0 : Int) < -1 by decide, if_false, hxL]
    exact fin a1 a2 a3

theorem twoSite_ok {svd : Tensor K → SvdRes K} (hsvd : GoodSvd svd) (eps : ℝ) {dflt : ℝ} (hd0 : 0 < dflt) (Dmax : Nat) {tol : ℝ} (htol : tol ≠ 0)
    {ds : List Nat} {m : Many K} (hL : m.L = ds.length) (hne : m.Q ≠ []) (hQ : ∀ q ∈ m.Q, WF 1 q ds 1) (h1 : 1 < ds.length) :
    SweepOk ds m (fun _ d => 0 < Dmax → d ≤ Dmax) (fun _ _ => True)
      (fun s x => if s > 0 then manyRight2 svd eps dflt Dmax tol (x.m.L - 1) 0 x else manyLeft2 svd eps dflt Dmax tol (x.m.L - 1) x) := by
  intro s x hs hP _ hr
  obtain ⟨hst, hc⟩ := hr
  have hxL : x.m.L = ds.length := hst.2.2.trans hL
  rcases hs with rfl | rfl
  · simp only [gt_iff_lt, show (0 : Int) < 1 by decide, if_true] at hc
    have hc1 : AllCaches ds m.Q x.P x.m.mat 0 (0 + 2) := hc.mono le_rfl (by omega)
    obtain ⟨a, b, c, g, hc0, d1, d2⟩ := Gap2.of_WF hP (k := 0) (by omega)
    have hp : Proj2 ds (superpose m.weights m.Q) x.P 0 a b (x.m.next2 0) := by
      have := proj_pair_many (m := x.m) g (by rw [hst.1]; exact hne) (by rw [hst.1]; exact hQ) (by rw [hst.1]; exact hc1)
      rwa [hst.1, hst.2.1] at this
    obtain ⟨y, y1, y2, y3⟩ := manyRight2_spec hsvd eps hd0 Dmax htol hP hne hQ x.lost (ds.length - 2) 0 a b x (by omega) hst hc1
      (R2Inv.start Dmax x.lost hP g hc0 d1 d2 hp)
    refine ⟨y, ?_, y2, y3, trivial⟩
    simp only [gt_iff_lt, show (0 : Int) < 1 by decide, if_true, hxL]
    rw [show ds.length - 1 = ds.length - 2 + 1 by omega]
    exact y1
  · simp only [gt_iff_lt, show ¬ (0 : Int) < -1 by decide, if_false] at hc
    have hc1 : AllCaches ds m.Q x.P x.m.mat (ds.length - 2) (ds.length - 2 + 2) := hc.mono (by omega) (by omega)
    obtain ⟨a, b, c, g, hc0, d1, d2⟩ := Gap2.of_WF hP (k := ds.length - 2) (by omega)
    have hp : Proj2 ds (superpose m.weights m.Q) x.P (ds.length - 2) a b (x.m.next2 (ds.length - 2)) := by
      have := proj_pair_many (m := x.m) g (by rw [hst.1]; exact hne) (by rw [hst.1]; exact hQ) (by rw [hst.1]; exact hc1)
      rwa [hst.1, hst.2.1] at this
    obtain ⟨y, y1, y2, y3⟩ := manyLeft2_spec hsvd eps hd0 Dmax htol hP hne hQ x.lost (ds.length - 2) a b x (by omega) hst hc1
      (L2Inv.start Dmax x.lost hP (by omega) g hc0 d1 d2 hp)
    refine ⟨y, ?_, y2, y3, trivial⟩
    simp only [gt_iff_lt, show ¬ (0 : Int) < -1 by decide, if_false, hxL]
    rw [show ds.length - 1 = ds.length - 2 + 1 by omega]
    exact y1

end MPS.Simp
