import Verif.LayerErr5
import Verif.TrotterTrunc5

/-! # The invariant of a sweep without maximal dimension: two-site gates -/

set_option linter.unusedSectionVars false
set_option linter.unusedSimpArgs false

namespace MPS.Trotter
open MPS Tensor Minim Order

theorem wf_inj {a b c : Nat} {ψ : List (Tensor ℂ)} {ds es : List Nat} (h : WF a ψ ds b) (h' : WF a ψ es c) : ds = es ∧ b = c := by
  induction h generalizing es with
  | nil => cases h'; exact ⟨rfl, rfl⟩
  | cons h1 _ _ _ _ ih =>
    cases h' with
    | cons g1 _ _ _ g5 =>
      rw [h1] at g1
      simp only [List.cons.injEq, and_true, true_and] at g1
      obtain ⟨rfl, rfl⟩ := g1
      obtain ⟨rfl, rfl⟩ := ih g5
      exact ⟨rfl, rfl⟩

/-- the decomposition of a bond on the left of `post` -/
theorem Bal.mid {ds1 ds3 : List Nat} {pre post : List (Tensor ℂ)} {v : ℝ} {j c : Nat} (h : Bal (ds1 ++ ds3) (pre ++ post) j v)
    (w1 : WF 1 pre ds1 c) (hj : j ≤ pre.length) :
    ∃ p1 mid e1 e2 a C, pre = p1 ++ mid ∧ p1.length = j ∧ ds1 = e1 ++ e2 ∧ WF 1 p1 e1 a ∧ WF a mid e2 c ∧ 0 ≤ C ∧ LBound e1 a p1 C ∧
      C * rNorm a (e2 ++ ds3) (mid ++ post) ≤ v := by
  obtain ⟨p1, q, e1, e3, a, C, hP, rfl, hds, v1, v2, hC, hL, hv⟩ := h
  have hmid : ∃ mid, pre = p1 ++ mid ∧ q = mid ++ post := by
    rcases List.append_eq_append_iff.1 hP with ⟨m, rfl, h2⟩ | ⟨m, h1, h2⟩
    · have : m = [] := by
        have := hj; simp at this
        exact this
      subst this
      exact ⟨[], by simp, by simpa using h2.symm⟩
    · exact ⟨m, h1, h2⟩
  obtain ⟨mid, rfl, rfl⟩ := hmid
  obtain ⟨f1, f2, a', rfl, u1, u2⟩ := w1.split
  have hl1 := v1.length
  have hl3 := u1.length
  have he1 : f1 = e1 ∧ f2 ++ ds3 = e3 := by
    rw [List.append_assoc] at hds
    exact List.append_inj hds (by omega)
  obtain ⟨rfl, rfl⟩ := he1
  obtain rfl : a' = a := (wf_inj u1 v1).2
  exact ⟨p1, mid, f1, f2, a', C, rfl, rfl, rfl, v1, u2, hC, hL, hv⟩

theorem lay_two {svd : Tensor ℂ → SvdRes ℂ} (hg : GoodSvd svd) (eps : ℝ) {dflt : ℝ} (hd0 : 0 < dflt) (x : Evo) {ds : List Nat} {D k : Nat} {n0 : ℝ}
    (h : Lay ds D n0 x.P k) (hk : k + 1 < ds.length) {U : Tensor ℂ}
    (hUd : U.dims = [ds.getD k 0 * ds.getD (k + 1) 0, ds.getD k 0 * ds.getD (k + 1) 0]) (hU : IsUnitary (ds.getD k 0 * ds.getD (k + 1) 0) U)
    (dk : Int) (hdk : dk > 0) (tol : ℝ) (htol : 0 < effTol dflt tol) :
    let y := applyTwo svd eps dflt x U k dk tol 0
    Lay ds D n0 y.P (k + 2) ∧ normSq ds y.P ≤ normSq ds x.P ∧
      wdist ds (amp y.P) (actPair (ds.getD k 0) (ds.getD (k + 1) 0) U k (amp x.P)) ≤ Real.sqrt (1 * (normSq ds x.P - normSq ds y.P)) ∧
      normSq ds x.P - normSq ds y.P ≤ max (effTol dflt tol) eps * (D * n0) := by
  intro y
  have hlen := h.wf.length
  obtain ⟨pre, X, Y, post, hP, hlp⟩ := split_at2 x.P k (by omega)
  have hw := h.wf
  rw [hP] at hw
  obtain ⟨ds1, dsr, c, hds, w1, w2⟩ := hw.split
  cases w2 with
  | @cons _ d e _ _ _ dsr' hX p1 p2 p3 w3 =>
  cases w3 with
  | @cons _ d2 f _ _ _ ds3 hY p4 p5 p6 w4 =>
  have hl1 := w1.length
  have hg1 : ds.getD k 0 = d := by rw [hds, ← hlp, hl1]; simp
  have hg2 : ds.getD (k + 1) 0 = d2 := by rw [hds, ← hlp, hl1]; simp
  rw [hg1, hg2] at hUd hU ⊢
  obtain ⟨B1, B2, g, hB1, hB2, hg0, hiso, hloss, hproj, -, hy⟩ := applyTwo_zero hg eps hd0 x hP hX hY ⟨p1, p2, p3, p5, p6⟩ U hUd dk hdk tol htol
  rw [hlp] at hy
  have hpost : ∀ A ∈ post, RightIso A := by
    have := mem_drop_iso (j := k + 2) hlen fun i h1 h2 => h.hi i (by omega) h2
    rw [hP, ← hlp] at this
    simpa using this
  have hS : PairStep U X Y B1 B2 c d e d2 f g := ⟨hX, hY, hB1, hB2, ⟨p1, p2, p3, p5, p6, hg0⟩, hU, hproj⟩
  have wB : WF 1 (pre ++ B1 :: B2 :: post) ds 1 := by
    rw [hds]; exact w1.append (WF.cons hB1 p1 p2 hg0 (WF.cons hB2 hg0 p5 p6 w4))
  have hwy : WF 1 y.P ds 1 := by rw [show y.P = _ from hy]; exact wB
  have ax : ∀ s, amp x.P s = path (pre ++ X :: Y :: post) s 0 0 := fun s => by
    rw [hP, amp_of_WF hw (by simp), Finset.sum_range_one]
  have ay : ∀ s, amp y.P s = path (pre ++ B1 :: B2 :: post) s 0 0 := fun s => by
    rw [show y.P = _ from hy, amp_of_WF wB (by simp), Finset.sum_range_one]
  have hn := hS.norms w1 w4 hpost Nat.one_pos
  rw [← hds] at hn
  have nx : normSq ds x.P = sumCfg ds fun s => ‖path (pre ++ X :: Y :: post) s 0 0‖ ^ 2 := sumCfg_congr fun s _ => by rw [ax]
  have ny : normSq ds y.P = sumCfg ds fun s => ‖path (pre ++ B1 :: B2 :: post) s 0 0‖ ^ 2 := sumCfg_congr fun s _ => by rw [ay]
  rw [← nx, ← ny] at hn
  set E := sumCfg ds (fun s => ‖path (pre ++ B1 :: B2 :: post) s 0 0 -
        actPair d d2 U pre.length (fun s => path (pre ++ X :: Y :: post) s 0 0) s‖ ^ 2) with hE
  have hE0 : 0 ≤ E := sumCfg_nonneg _ _ fun _ _ => by positivity
  have hle : normSq ds y.P ≤ normSq ds x.P := by linarith
  have tau0 : 0 ≤ max (effTol dflt tol) eps := htol.le.trans (le_max_left _ _)
  have hbalk := h.bal k (by omega)
  rw [hP, hds] at hbalk
  obtain ⟨q1, mid, e1, e2, a, C, hq, hqj, he, v1, v2, hC, hL, hv⟩ := hbalk.mid w1 (by omega)
  have hmid : mid = [] := by
    have := congrArg List.length hq; simp at this
    exact List.eq_nil_of_length_eq_zero (by omega)
  subst hmid
  cases v2
  rw [List.append_nil] at hq he
  subst hq he
  simp only [List.nil_append] at hv
  have hrN := hS.rNorm_le (WF.nil c) w4 hpost
  simp only [List.nil_append] at hrN
  refine ⟨⟨hwy, fun j h1 h2 => ?_, fun j h1 h2 => ?_, hle.trans h.norm, fun j hj => ?_⟩, hle, ?_, ?_⟩
  · have : site y.P j = site x.P j := by
      rw [show y.P = _ from hy, hP]
      simp only [site, List.getD_eq_getElem?_getD]
      rw [List.getElem?_append_right (by omega), List.getElem?_append_right (by omega)]
      obtain ⟨m, hm⟩ : ∃ m, j - pre.length = m + 2 := ⟨j - pre.length - 2, by omega⟩
      rw [hm]; rfl
    rw [this]; exact h.hi j (by omega) h2
  · have : site y.P j = site x.P j := by
      rw [show y.P = _ from hy, hP]
      simp only [site, List.getD_eq_getElem?_getD]
      rw [List.getElem?_append_right (by omega), List.getElem?_append_right (by omega)]
      obtain ⟨m, hm⟩ : ∃ m, j - pre.length = m + 2 := ⟨j - pre.length - 2, by omega⟩
      rw [hm]; rfl
    rw [this]; exact h.bonds j (by omega) h2
  · rcases Nat.lt_trichotomy j (k + 1) with hj1 | hj1 | hj1
    · have hb := h.bal j hj
      rw [hP, hds] at hb
      obtain ⟨q1, mid, e1, e2, a, C, rfl, hqj, rfl, v1, v2, hC, hL, hv⟩ := hb.mid w1 (by omega)
      rw [show y.P = _ from hy, hds]
      refine ⟨q1, mid ++ B1 :: B2 :: post, e1, e2 ++ d :: d2 :: ds3, a, C, by simp, hqj, by simp, v1,
        v2.append (WF.cons hB1 p1 p2 hg0 (WF.cons hB2 hg0 p5 p6 w4)), hC, hL, le_trans ?_ hv⟩
      exact mul_le_mul_of_nonneg_left (hS.rNorm_le v2 w4 hpost) hC
    · rw [show y.P = _ from hy, hds]
      refine ⟨pre ++ [B1], B2 :: post, ds1 ++ [d], d2 :: ds3, g, C, by simp, by simp; omega, by simp,
        w1.append (WF.cons hB1 p1 p2 hg0 (WF.nil g)), WF.cons hB2 hg0 p5 p6 w4, hC, hL.snoc w1 hB1 hiso, le_trans ?_ hv⟩
      rw [← rNorm_cons hB1 hiso]
      exact mul_le_mul_of_nonneg_left hrN hC
    · have hst : ∀ i, k + 2 ≤ i → site y.P i = site x.P i := by
        intro i hi
        rw [show y.P = _ from hy, hP]
        simp only [site, List.getD_eq_getElem?_getD]
        rw [List.getElem?_append_right (by omega), List.getElem?_append_right (by omega)]
        obtain ⟨m, hm⟩ : ∃ m, i - pre.length = m + 2 := ⟨i - pre.length - 2, by omega⟩
        rw [hm]; rfl
      exact bal_iso hwy hj (fun i h1 h2 => by rw [hst i (by omega)]; exact h.hi i (by omega) h2)
        (by rw [hst j (by omega)]; exact h.bonds j (by omega) hj) (hle.trans h.norm)
  · rw [one_mul]
    have : normSq ds x.P - normSq ds y.P = E := by linarith
    rw [this, hE]
    refine le_of_eq ?_
    unfold wdist wnorm
    congr 1
    refine sumCfg_congr fun s _ => ?_
    beta_reduce
    rw [ay, hlp]
    congr 3
    unfold actPair
    exact Finset.sum_congr rfl fun i _ => Finset.sum_congr rfl fun j _ => by rw [ax]
  · have h1 := hS.dist w1 w4 hpost hL
    have h2 : E ≤ C * (max (effTol dflt tol) eps * rNorm c (d :: d2 :: ds3) (X :: Y :: post)) := by
      rw [hE, hds]
      refine h1.trans (mul_le_mul_of_nonneg_left ?_ hC)
      rw [← hS.total w4 hpost]
      exact hloss
    have h3 := mul_le_mul_of_nonneg_left hv tau0
    have : normSq ds x.P - normSq ds y.P = E := by linarith
    rw [this]
    refine h2.trans (le_trans (le_of_eq (by ring)) h3)

end MPS.Trotter
