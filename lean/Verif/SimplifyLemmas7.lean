import Verif.SimplifyLemmas6

set_option linter.unusedSectionVars false
set_option linter.unusedSimpArgs false

namespace MPS.Simp
open MPS Tensor Form Minim Obc
variable {K : Type} [RCLike K]

theorem exists_ne_zero {X : Tensor K} {a d b : Nat} (hX : X.dims = [a, d, b]) (h : (sumCfg X.dims fun I => ‖X.get I‖ ^ 2) ≠ 0) :
    ∃ x i y, x < a ∧ i < d ∧ y < b ∧ X.get [x, i, y] ≠ 0 := by
  by_contra hcon
  push Not at hcon
  apply h
  rw [sumCfg_congr (G := fun _ => 0) fun I hI => ?_, sumCfg_zero]
  rw [hX] at hI
  match I, hI with
  | [x, i, y], hI =>
    obtain ⟨hx, hI⟩ := isCfg_cons.1 hI
    obtain ⟨hi, hI⟩ := isCfg_cons.1 hI
    obtain ⟨hy, -⟩ := isCfg_cons.1 hI
    rw [hcon x i y hx hi hy]; simp

/-- the sweep keeps the targets -/
def SameTarget (m m' : Many K) : Prop := m'.Q = m.Q ∧ m'.weights = m.weights ∧ m'.L = m.L

theorem SameTarget.refl (m : Many K) : SameTarget m m := ⟨rfl, rfl, rfl⟩
theorem SameTarget.update {m m' : Many K} (h : SameTarget m m') (k : Nat) (X : Tensor K) (s : Int) : SameTarget m (m'.update k X s) := h

/-- what a sweep leaves behind -/
structure MDone (ds : List Nat) (m : Many K) (P : List (Tensor K)) (s : Int) (y : MSweep K) : Prop where
  same : SameTarget m y.m
  caches : AllCaches ds m.Q y.P y.m.mat (if s < 0 then 0 else ds.length) (if s < 0 then 0 else ds.length)
  last : y.Pk = site y.P (centreOf ds.length s)

theorem AllCaches.turnLeft {ds : List Nat} {Q : List (List (Tensor K))} {P : List (Tensor K)} {mat : List (List (Tensor K))} {lo hi : Nat}
    (h : AllCaches ds Q P mat lo hi) (hP : P.length = ds.length) (hQ : ∀ q ∈ Q, WF 1 q ds 1) : AllCaches ds Q P mat lo ds.length :=
  ⟨h.1, fun n hn => (h.2 n hn).turnLeft hP (hQ _ (Props.getD_mem hn [])).length⟩

theorem manyRight_spec {svd : Tensor K → SvdRes K} (hsvd : GoodSvd svd) (eps : ℝ) {dflt : ℝ} (hd0 : 0 ≤ dflt) {ds : List Nat} {P0 : List (Tensor K)}
    (h0 : WF 1 P0 ds 1) {m : Many K} (hne : m.Q ≠ []) (hQ : ∀ q ∈ m.Q, WF 1 q ds 1) (hz : MPS.inner ds (amp P0) (superpose m.weights m.Q) ≠ 0) (n : Nat) :
    ∀ (k a b : Nat) (x : MSweep K), k + n + 1 = ds.length → SameTarget m x.m → AllCaches ds m.Q x.P x.m.mat k (k + 1) →
      RInv ds (superpose m.weights m.Q) P0 x.P k a b (x.m.next k) →
      MDone ds m P0 1 (manyRight svd eps dflt (n + 1) k x) ∧ (manyRight svd eps dflt (n + 1) k x).lost = x.lost ∧
        Swept ds (superpose m.weights m.Q) P0 1 (manyRight svd eps dflt (n + 1) k x).P := by
  induction n with
  | zero =>
    intro k a b x hk hs hc hi
    have hl := hi.gap.len
    have hf := hi.finish (by omega)
    have hset : setCanonical svd eps dflt x.P k (x.m.next k) 1 false = (x.P.set k (x.m.next k), 0) := by
      simp only [setCanonical, show (1 : Int) > 0 by decide, if_true]
      rw [if_pos (by omega)]
    simp only [manyRight]
    rw [hset]
    simp only
    have hs' := hs
    obtain ⟨s1, s2, s3⟩ := hs
    rw [← s1] at hc hQ
    have hc' := hc.stepRight (P' := x.P.set k (x.m.next k)) (by omega) hQ (by simpa using hl) (take_set_ge _ _ le_rfl) (drop_set_lt _ _ (by omega))
    refine ⟨⟨hs'.update _ _ _, ?_, ?_⟩, by simp, hf⟩
    · simp only [show ¬ (1 : Int) < 0 by decide, if_false]
      rw [← s1]
      exact (hc'.mono (by omega) le_rfl).turnLeft (by simpa using hl) hQ
    · simp only [centreOf, show ¬ (1 : Int) < 0 by decide, if_false]
      rw [show ds.length - 1 = k by omega]
  | succ n ih =>
    intro k a b x hk hs hc hi
    have hl := hi.gap.len
    obtain ⟨l, l0, l1, U1, V1, U2, -, -, e1, e2⟩ := splitRight_spec hsvd eps hd0 hi.proj.dims hi.gap.pa hi.gap.pd hi.gap.pb false
      (Or.inr (exists_ne_zero hi.proj.dims (hi.nz hz)))
    set r := splitRight svd eps dflt (x.m.next k) false with hr
    have hlost : r.lost = 0 := e2 (Or.inl (effTol_zeros _))
    obtain ⟨c, gap', Y, Y1, Y2⟩ := absorb_right hi.gap (by omega) hi.proj.dims U1 l0 V1
      (fun x' i y hx hi hy => (e1 hlost x' i y hx hi hy).symm)
    set W := fold r.V (-1) (site x.P (k + 1)) 0 with hW
    have hset : setCanonical svd eps dflt x.P k (x.m.next k) 1 false = ((x.P.set k r.U).set (k + 1) W, 0) := by
      simp only [setCanonical, show (1 : Int) > 0 by decide, if_true]
      rw [if_neg (by omega)]
      simp only [splitT, show (1 : Int) > 0 by decide, if_true]
      rw [← hlost]
    have hs' := hs
    obtain ⟨s1, s2, s3⟩ := hs
    rw [manyRight, hset]
    simp only
    set P' := (x.P.set k r.U).set (k + 1) W with hP'
    have hl' : P'.length = ds.length := by simp [hP', hl]
    have ht : P'.take k = x.P.take k := by rw [hP', take_set_ge _ _ (by omega), take_set_ge _ _ le_rfl]
    have hd : P'.drop (k + 2) = x.P.drop (k + 2) := by rw [hP', drop_set_lt _ _ (by omega), drop_set_lt _ _ (by omega)]
    have hU : site P' k = r.U := by
      rw [hP', site_set _ _ _ _ (by simp; omega), if_neg (by omega), site_set_self (by omega)]
    have gap2 : Gap ds P' (k + 1) l c := by
      refine ⟨gap'.lt, hl', gap'.pos, ?_, ?_⟩
      · rw [hP', take_set_ge _ _ le_rfl]; exact gap'.wl
      · rw [hP', drop_set_lt _ _ (by omega)]; exact gap'.wr
    have hc1 : AllCaches ds x.m.Q x.P x.m.mat k (k + 1) := by rw [s1]; exact hc
    have hQ1 : ∀ q ∈ x.m.Q, WF 1 q ds 1 := by rw [s1]; exact hQ
    have hc' := hc1.stepRight (P' := P') (by omega) hQ1 hl' ht hd
    have hp : Proj ds (superpose m.weights m.Q) P' (k + 1) l c ((x.m.update k (site P' k) 1).next (k + 1)) := by
      have := proj_many (m := x.m.update k (site P' k) 1) gap2 (by rw [(hs'.update _ _ _).1]; exact hne) hQ1 hc'
      rwa [(hs'.update _ _ _).1, (hs'.update _ _ _).2.1] at this
    obtain ⟨r1, r2, r3⟩ := ih (k + 1) l c ⟨P', x.m.update k (site P' k) 1, site P' k, x.lost + 0⟩ (by omega) (hs'.update _ _ _) (by rw [← s1]; exact hc')
      (hi.step h0 (by omega) ht hd (by rw [hU]; exact U2) (by omega) gap2 Y1 (by rw [hP', List.set_set]; exact Y2) hp)
    exact ⟨r1, by rw [r2, add_zero], r3⟩

theorem manyLeft_spec {svd : Tensor K → SvdRes K} (hsvd : GoodSvd svd) (eps : ℝ) {dflt : ℝ} (hd0 : 0 ≤ dflt) {ds : List Nat} {P0 : List (Tensor K)}
    (h0 : WF 1 P0 ds 1) {m : Many K} (hne : m.Q ≠ []) (hQ : ∀ q ∈ m.Q, WF 1 q ds 1) (hz : MPS.inner ds (amp P0) (superpose m.weights m.Q) ≠ 0) (k : Nat) :
    ∀ (a b : Nat) (x : MSweep K), k < ds.length → SameTarget m x.m → AllCaches ds m.Q x.P x.m.mat k (k + 1) →
      LSInv ds (superpose m.weights m.Q) P0 x.P k a b (x.m.next k) →
      MDone ds m P0 (-1) (manyLeft svd eps dflt (k + 1) x) ∧ (manyLeft svd eps dflt (k + 1) x).lost = x.lost ∧
        Swept ds (superpose m.weights m.Q) P0 (-1) (manyLeft svd eps dflt (k + 1) x).P := by
  induction k with
  | zero =>
    intro a b x hk hs hc hi
    have hl := hi.gap.len
    have hf := hi.finish
    have hset : setCanonical svd eps dflt x.P 0 (x.m.next 0) (-1) false = (x.P.set 0 (x.m.next 0), 0) := by
      simp [setCanonical]
    simp only [manyLeft]
    rw [hset]
    simp only
    have hs' := hs
    obtain ⟨s1, s2, s3⟩ := hs
    rw [← s1] at hc hQ
    have hc' := hc.stepLeft (P' := x.P.set 0 (x.m.next 0)) (by omega) hQ (by simpa using hl) (by simp) (drop_set_lt _ _ (by omega))
    refine ⟨⟨hs'.update _ _ _, ?_, ?_⟩, by simp, hf⟩
    · simp only [show (-1 : Int) < 0 by decide, if_true]
      rw [← s1]
      exact hc'
    · simp only [centreOf, show (-1 : Int) < 0 by decide, if_true]
  | succ k ih =>
    intro a b x hk hs hc hi
    have hl := hi.gap.len
    obtain ⟨l, l0, l1, U1, V1, U2, -, -, e1, e2⟩ := splitLeft_spec hsvd eps hd0 hi.proj.dims hi.gap.pa hi.gap.pd hi.gap.pb false
      (Or.inr (exists_ne_zero hi.proj.dims (hi.nz hz)))
    set r := splitLeft svd eps dflt (x.m.next (k + 1)) false with hr
    have hlost : r.lost = 0 := e2 (Or.inl (effTol_zeros _))
    obtain ⟨c, gap', Y, Y1, Y2⟩ := absorb_left hi.gap hi.proj.dims U1 l0 V1
      (fun x' i y hx hi hy => (e1 hlost x' i y hx hi hy).symm)
    set W := fold (site x.P k) (-1) r.V 0 with hW
    have hset : setCanonical svd eps dflt x.P (k + 1) (x.m.next (k + 1)) (-1) false = ((x.P.set (k + 1) r.U).set k W, 0) := by
      simp only [setCanonical, show ¬ (-1 : Int) > 0 by decide, if_false]
      rw [if_neg (by omega)]
      simp only [splitT, show ¬ (-1 : Int) > 0 by decide, if_false]
      rw [← hlost]
      rfl
    have hs' := hs
    obtain ⟨s1, s2, s3⟩ := hs
    rw [manyLeft, hset]
    simp only
    set P' := (x.P.set (k + 1) r.U).set k W with hP'
    have hl' : P'.length = ds.length := by simp [hP', hl]
    have ht : P'.take k = x.P.take k := by rw [hP', take_set_ge _ _ le_rfl, take_set_ge _ _ (by omega)]
    have hd : P'.drop (k + 2) = x.P.drop (k + 2) := by rw [hP', drop_set_lt _ _ (by omega), drop_set_lt _ _ (by omega)]
    have hU : site P' (k + 1) = r.U := by
      rw [hP', site_set _ _ _ _ (by simp; omega), if_neg (by omega), site_set_self (by omega)]
    have gap2 : Gap ds P' k c l := by
      refine ⟨gap'.lt, hl', gap'.pos, ?_, ?_⟩
      · rw [hP', take_set_ge _ _ le_rfl]; exact gap'.wl
      · rw [hP', drop_set_lt _ _ (by omega)]; exact gap'.wr
    have hc1 : AllCaches ds x.m.Q x.P x.m.mat (k + 1) (k + 1 + 1) := by rw [s1]; exact hc
    have hQ1 : ∀ q ∈ x.m.Q, WF 1 q ds 1 := by rw [s1]; exact hQ
    have hc' := hc1.stepLeft (P' := P') (by omega) hQ1 hl' ht hd
    rw [Nat.add_sub_cancel] at hc'
    have hp : Proj ds (superpose m.weights m.Q) P' k c l ((x.m.update (k + 1) (site P' (k + 1)) (-1)).next k) := by
      have := proj_many (m := x.m.update (k + 1) (site P' (k + 1)) (-1)) gap2 (by rw [(hs'.update _ _ _).1]; exact hne) hQ1 hc'
      rwa [(hs'.update _ _ _).1, (hs'.update _ _ _).2.1] at this
    obtain ⟨r1, r2, r3⟩ := ih c l ⟨P', x.m.update (k + 1) (site P' (k + 1)) (-1), site P' (k + 1), x.lost + 0⟩ (by omega) (hs'.update _ _ _)
      (by rw [← s1]; exact hc')
      (hi.step h0 ht hd (by rw [hU]; exact U2) (by omega) gap2 Y1 (by rw [hP', List.set_set]; exact Y2) hp)
    exact ⟨r1, by rw [r2, add_zero], r3⟩

end MPS.Simp
