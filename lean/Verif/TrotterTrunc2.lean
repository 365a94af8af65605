import Verif.TrotterTrunc
import Verif.DmrgLemmas6

/-! # `set_canonical` and gates on a state in canonical form: weight lost and distance -/

set_option linter.unusedSectionVars false
set_option linter.unusedSimpArgs false

namespace MPS.Trotter
open MPS Tensor Minim
variable {K : Type} [RCLike K]

/-- all sites before `c` are left isometries, all sites after it are right isometries -/
structure Cent (ds : List Nat) (P : List (Tensor K)) (c : Nat) : Prop where
  wf : WF 1 P ds 1
  lo : ∀ j < c, LeftIso (site P j)
  hi : ∀ j, c < j → j < ds.length → RightIso (site P j)

theorem dist_set {ds : List Nat} {φ : List (Tensor K)} {k : Nat} (h : Cent ds φ k) (hk : k < ds.length) {Z : Tensor K}
    (hZ : Z.dims = (site φ k).dims) :
    distSq ds φ (φ.set k Z) = sumCfg Z.dims (fun I => ‖(site φ k).get I - Z.get I‖ ^ 2) := by
  have hlen := h.wf.length
  obtain ⟨a, b, w1, w2, w3, p1, p2, p3⟩ := WF.around h.wf hk
  let W : Tensor K := ⟨[a, ds.getD k 0, b], fun I => (site φ k).get I - Z.get I⟩
  have hz : Z.dims = [a, ds.getD k 0, b] := by rw [hZ, w2]
  have hW : WF 1 (φ.set k W) ds 1 := WF.replace hk hlen w1 w3 rfl p1 p2 p3
  have e : distSq ds φ (φ.set k Z) = normSq ds (φ.set k W) := by
    unfold distSq normSq
    refine sumCfg_congr fun s hs => ?_
    rw [Dmrg.amp_set_sub hlen hk w1 w3 p1 p2 p3 w2 hz (W := W) rfl (fun _ _ => rfl) hs, Props.set_site_self φ k (by omega)]
  rw [e, normSq_at hW hk, Form.site_set_self (by omega), hz]
  · intro j hj; rw [site_set _ _ _ _ (by omega), if_neg (by omega)]; exact h.lo j hj
  · intro j hj hj2; rw [site_set _ _ _ _ (by omega), if_neg (by omega)]; exact h.hi j hj hj2

/-- `set_canonical` with truncation on a state which is canonical around `k` -/
theorem store {svd : Tensor K → SvdRes K} (hg : GoodSvd svd) (eps : ℝ) {dflt : ℝ} (hd0 : 0 < dflt) {φ : List (Tensor K)}
    {ds : List Nat} {k : Nat} (h : Cent ds φ k) (hk : k < ds.length) (step : Int) :
    let r := setCanonical svd eps dflt φ k (site φ k) step true
    Cent ds r.1 (nextCentre ds.length step k) ∧ distSq ds φ r.1 = r.2 ∧ normSq ds r.1 = normSq ds φ - r.2 ∧ 0 ≤ r.2 ∧
      r.2 ≤ max dflt eps * normSq ds φ := by
  intro r
  have hlen := h.wf.length
  obtain ⟨c1, ⟨Z, z1, z2, z3⟩, c3, c4, c5, c6⟩ := Obc.store_trunc hg eps hd0 h.wf hk step h.lo h.hi
  have hdist : distSq ds φ r.1 = r.2 := by
    rw [← z2, ← dist_set h hk z1]
    unfold distSq
    exact sumCfg_congr fun s hs => by rw [z3 s hs]
  have hpos : 0 ≤ r.2 := by rw [← hdist]; exact sumCfg_nonneg _ _ fun _ _ => by positivity
  have hN : 0 ≤ normSq ds φ := sumCfg_nonneg _ _ fun _ _ => by positivity
  have hcent : Cent ds r.1 (nextCentre ds.length step k) := ⟨c1, c3, c4⟩
  refine ⟨hcent, hdist, ?_, hpos, ?_⟩
  all_goals by_cases hn : nextCentre ds.length step k = k
  · have := c6 hn
    rw [show r = (φ, 0) from this]; simp
  · by_cases hs : step > 0
    · have hk1 : k + 1 ≠ ds.length := by
        intro hh; exact hn (by simp [nextCentre, hs, hh])
      have e : nextCentre ds.length step k = k + 1 := by simp [nextCentre, hs, hk1]
      obtain ⟨a, b, w1, w2, w3, p1, p2, p3⟩ := WF.around h.wf hk
      obtain ⟨a', b', -, v2, -, -, -, -⟩ := WF.around h.wf (show k + 1 < ds.length by omega)
      obtain ⟨l, l1, l2, -⟩ := splitRight_norm hg eps hd0 w2 p1 p2 p3
      have hbb : a' = b := by
        obtain ⟨c, d, e, d2, f, q1, q2, -⟩ := pair_dims h.wf k (by omega)
        rw [w2] at q1; rw [v2] at q2
        simp only [List.cons.injEq] at q1 q2
        rw [q2.1, q1.2.2.1]
      have er : r = ((φ.set k (splitRight svd eps dflt (site φ k) true).U).set (k + 1)
          (fold (splitRight svd eps dflt (site φ k) true).V (-1) (site φ (k + 1)) 0), (splitRight svd eps dflt (site φ k) true).lost) := by
        simp only [r, setCanonical, hs, if_true, hlen, hk1, if_false, splitT, show (1 : Int) > 0 by decide]
      have es : site r.1 (k + 1) = fold (splitRight svd eps dflt (site φ k) true).V (-1) (site φ (k + 1)) 0 := by
        rw [er, Form.site_set_self (by simp; omega)]
      subst hbb
      obtain ⟨f1, f2⟩ := fold_VB l1 v2
      rw [normSq_at c1 (show k + 1 < ds.length by omega) (by rw [← e]; exact c3) (by rw [← e]; exact c4), es, f1,
        normSq_at h.wf hk h.lo h.hi]
      simp only [sumCfg_cons, sumCfg_nil, f2]
      rw [norm_fold_right v2 (h.hi _ (by omega) (by omega)), l2, er]
    · have hk0 : k ≠ 0 := by
        intro hh; exact hn (by simp [nextCentre, hs, hh])
      obtain ⟨k, rfl⟩ : ∃ k', k = k' + 1 := ⟨k - 1, by omega⟩
      have e : nextCentre ds.length step (k + 1) = k := by simp [nextCentre, hs]
      obtain ⟨a, b, w1, w2, w3, p1, p2, p3⟩ := WF.around h.wf hk
      obtain ⟨a', b', -, v2, -, -, -, -⟩ := WF.around h.wf (show k < ds.length by omega)
      obtain ⟨l, l1, l2, -⟩ := splitLeft_norm hg eps hd0 w2 p1 p2 p3
      have hbb : b' = a := by
        obtain ⟨c, d, e, d2, f, q1, q2, -⟩ := pair_dims h.wf k (by omega)
        rw [v2] at q1; rw [w2] at q2
        simp only [List.cons.injEq] at q1 q2
        rw [q2.1, q1.2.2.1]
      have er : r = ((φ.set (k + 1) (splitLeft svd eps dflt (site φ (k + 1)) true).U).set k
          (fold (site φ k) (-1) (splitLeft svd eps dflt (site φ (k + 1)) true).V 0), (splitLeft svd eps dflt (site φ (k + 1)) true).lost) := by
        simp only [r, setCanonical, hs, if_false, Nat.add_one_ne_zero, splitT, show ¬ (-1 : Int) > 0 by decide, Nat.add_sub_cancel]
      have es : site r.1 k = fold (site φ k) (-1) (splitLeft svd eps dflt (site φ (k + 1)) true).V 0 := by
        rw [er, Form.site_set_self (by simp; omega)]
      subst hbb
      obtain ⟨f1, f2⟩ := fold_BV l1 v2
      rw [normSq_at c1 (show k < ds.length by omega) (fun j hj => c3 j (by omega)) (fun j hj hj2 => c4 j (by omega) hj2), es, f1,
        normSq_at h.wf hk h.lo h.hi]
      simp only [sumCfg_cons, sumCfg_nil, f2]
      rw [norm_fold_left v2 (h.lo _ (by omega)), l2, er]
  · have := c6 hn
    rw [show r = (φ, 0) from this]
    exact mul_nonneg (hd0.le.trans (le_max_left _ _)) hN
  · rw [normSq_at h.wf hk h.lo h.hi]
    obtain ⟨a, b, w1, w2, w3, p1, p2, p3⟩ := WF.around h.wf hk
    by_cases hs : step > 0
    · obtain ⟨l, l1, l2, l3⟩ := splitRight_norm hg eps hd0 w2 p1 p2 p3
      have hk1 : k + 1 ≠ ds.length := by
        intro hh; exact hn (by simp [nextCentre, hs, hh])
      simp only [r, setCanonical, hs, if_true, hlen, hk1, if_false, splitT, show (1 : Int) > 0 by decide]
      exact l3
    · obtain ⟨l, l1, l2, l3⟩ := splitLeft_norm hg eps hd0 w2 p1 p2 p3
      have hk0 : k ≠ 0 := by
        intro hh; exact hn (by simp [nextCentre, hs, hh])
      simp only [r, setCanonical, hs, hk0, if_false, splitT, show ¬ (-1 : Int) > 0 by decide]
      exact l3

end MPS.Trotter
