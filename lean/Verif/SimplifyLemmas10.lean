import Verif.SimplifyLemmas9

/-!
# Two-site sweeps of `simplify(&P, {Q}, weights, Dmax, tol, ...)`
-/

set_option linter.unusedSectionVars false
set_option linter.unusedSimpArgs false

namespace MPS.Simp
open MPS Tensor Form Minim Obc
variable {K : Type} [RCLike K]

/-! ### caches -/

theorem Caches.pushRight {ds : List Nat} {q P P' m : List (Tensor K)} {k hi hi' : Nat} (h : Caches ds q P m k hi) (hk : k < ds.length) (hki : k < hi)
    (hii : hi ≤ hi') (hq : q.length = ds.length) (hP' : P'.length = ds.length) (ht : P'.take k = P.take k) (hd : P'.drop hi' = P.drop hi') :
    Caches ds q P' (m.set (k + 1) (propMatrix (m.getD k Tensor.empty) 1 (site P' k) (site q k) none)) (k + 1) hi' := by
  have hlen := h.len
  refine ⟨by simpa using hlen, ?_, ?_, ?_, ?_⟩
  · rw [getD_set_ne _ (by omega)]; exact h.start
  · rw [getD_set_ne _ (by omega)]; exact h.last
  · intro j hj hjN
    by_cases hjk : j = k + 1
    · subst hjk
      rw [getD_set_eq _ (by omega), take_succ_site (by omega), take_succ_site (by omega), ht,
        List.take_succ_eq_append_getElem hk]
      exact (h.lefts k (by omega) (by omega)).step
    · rw [getD_set_ne _ (by omega), take_of_eq ht (by omega)]
      exact h.lefts j (by omega) hjN
  · intro j hj hjN
    rw [getD_set_ne _ (by omega), drop_of_eq hd (by omega)]
    exact h.rights j (by omega) hjN

theorem Caches.pushLeft {ds : List Nat} {q P P' m : List (Tensor K)} {k lo lo' : Nat} (h : Caches ds q P m lo (k + 1)) (hk : k < ds.length) (hlk : lo' ≤ k)
    (hll : lo' ≤ lo) (hq : q.length = ds.length) (hP' : P'.length = ds.length) (ht : P'.take lo' = P.take lo') (hd : P'.drop (k + 1) = P.drop (k + 1)) :
    Caches ds q P' (m.set (k + 1) (propMatrix (m.getD (k + 2) Tensor.empty) (-1) (site P' k) (site q k) none)) lo' k := by
  have hlen := h.len
  refine ⟨by simpa using hlen, ?_, ?_, ?_, ?_⟩
  · rw [getD_set_ne _ (by omega)]; exact h.start
  · rw [getD_set_ne _ (by omega)]; exact h.last
  · intro j hj hjN
    rw [getD_set_ne _ (by omega), take_of_eq ht (by omega)]
    exact h.lefts j (by omega) hjN
  · intro j hj hjN
    by_cases hjk : j = k
    · subst hjk
      rw [getD_set_eq _ (by omega), drop_site (K := P') (by omega), drop_site (K := q) (by omega), hd,
        List.drop_eq_getElem_cons hk]
      exact (h.rights (j + 1) (by omega) (by omega)).step
    · rw [getD_set_ne _ (by omega), drop_of_eq hd (by omega)]
      exact h.rights j (by omega) hjN

theorem AllCaches.pushRight {ds : List Nat} {P P' : List (Tensor K)} {m : Many K} {k hi hi' : Nat} (h : AllCaches ds m.Q P m.mat k hi)
    (hk : k < ds.length) (hki : k < hi) (hii : hi ≤ hi') (hQ : ∀ q ∈ m.Q, WF 1 q ds 1) (hP' : P'.length = ds.length) (ht : P'.take k = P.take k)
    (hd : P'.drop hi' = P.drop hi') : AllCaches ds m.Q P' (m.update k (site P' k) 1).mat (k + 1) hi' := by
  refine ⟨update_length h.1 _ _ _, fun n hn => ?_⟩
  rw [update_get h.1 _ _ _ hn, if_pos (by decide)]
  exact (h.2 n hn).pushRight hk hki hii (hQ _ (Props.getD_mem hn [])).length hP' ht hd

theorem AllCaches.pushLeft {ds : List Nat} {P P' : List (Tensor K)} {m : Many K} {k lo lo' : Nat} (h : AllCaches ds m.Q P m.mat lo (k + 1))
    (hk : k < ds.length) (hlk : lo' ≤ k) (hll : lo' ≤ lo) (hQ : ∀ q ∈ m.Q, WF 1 q ds 1) (hP' : P'.length = ds.length) (ht : P'.take lo' = P.take lo')
    (hd : P'.drop (k + 1) = P.drop (k + 1)) : AllCaches ds m.Q P' (m.update k (site P' k) (-1)).mat lo' k := by
  refine ⟨update_length h.1 _ _ _, fun n hn => ?_⟩
  rw [update_get h.1 _ _ _ hn, if_neg (by decide)]
  exact (h.2 n hn).pushLeft hk hlk hll (hQ _ (Props.getD_mem hn [])).length hP' ht hd

/-! ### invariants -/

/-- in the middle of a sweep to the right: `X` is about to be stored at the pair `(k, k+1)` -/
structure R2Inv (ds : List Nat) (q : List Nat → K) (P0 P : List (Tensor K)) (Dmax : Nat) (lost0 lost : ℝ) (k a b : Nat) (X : Tensor K) : Prop where
  wf : WF 1 P ds 1
  gap : Gap2 ds P k a b
  proj : Proj2 ds q P k a b X
  lo : ∀ j < k, LeftIso (site P j)
  rest : P.drop (k + 2) = P0.drop (k + 2)
  bond : ∀ j < k, 0 < Dmax → (site P j).dim 2 ≤ Dmax
  closer : (∀ j, 0 < j → j < ds.length → RightIso (site P0 j)) → gapDist ds q X ≤ distTo ds q P0 + (lost - lost0)
  spent : lost0 ≤ lost

/-- in the middle of a sweep to the left: `X` is about to be stored at the pair `(k, k+1)` -/
structure L2Inv (ds : List Nat) (q : List Nat → K) (P0 P : List (Tensor K)) (Dmax : Nat) (lost0 lost : ℝ) (k a b : Nat) (X : Tensor K) : Prop where
  wf : WF 1 P ds 1
  gap : Gap2 ds P k a b
  proj : Proj2 ds q P k a b X
  hi : ∀ j, k + 1 < j → j < ds.length → RightIso (site P j)
  rest : P.take k = P0.take k
  bond : ∀ j, k < j → j + 1 < ds.length → 0 < Dmax → (site P (j + 1)).dim 0 ≤ Dmax
  closer : (∀ j, j + 1 < ds.length → LeftIso (site P0 j)) → gapDist ds q X ≤ distTo ds q P0 + (lost - lost0)
  spent : lost0 ≤ lost

theorem R2Inv.start {ds : List Nat} {q : List Nat → K} {P : List (Tensor K)} (Dmax : Nat) (lost : ℝ) {a b c : Nat} {X : Tensor K} (hw : WF 1 P ds 1)
    (hg : Gap2 ds P 0 a b) (hc : 0 < c) (h1 : (site P 0).dims = [a, ds.getD 0 0, c]) (h2 : (site P 1).dims = [c, ds.getD 1 0, b])
    (hp : Proj2 ds q P 0 a b X) : R2Inv ds q P P Dmax lost lost 0 a b X := by
  have hl := hg.len
  have hk := hg.lt
  refine ⟨hw, hg, hp, by omega, rfl, by omega, fun hi => ?_, le_rfl⟩
  have := hp.le_dist hg (by omega) (fun j h1 h2 => hi j (by omega) h2) hc h1 h2
  rw [sub_self, add_zero]
  rwa [setPair_self (by omega)] at this

theorem L2Inv.start {ds : List Nat} {q : List Nat → K} {P : List (Tensor K)} (Dmax : Nat) (lost : ℝ) {k a b c : Nat} {X : Tensor K} (hw : WF 1 P ds 1)
    (hk : k + 2 = ds.length) (hg : Gap2 ds P k a b) (hc : 0 < c) (h1 : (site P k).dims = [a, ds.getD k 0, c]) (h2 : (site P (k + 1)).dims = [c, ds.getD (k + 1) 0, b])
    (hp : Proj2 ds q P k a b X) : L2Inv ds q P P Dmax lost lost k a b X := by
  have hl := hg.len
  refine ⟨hw, hg, hp, by omega, rfl, by omega, fun lo => ?_, le_rfl⟩
  have := hp.le_dist hg (fun j hj => lo j (by omega)) (by omega) hc h1 h2
  rw [sub_self, add_zero]
  rwa [setPair_self (by omega)] at this

theorem site_drop_eq {P P' : List (Tensor K)} {k : Nat} (hl : P'.length = P.length) (h : ∀ j, k ≤ j → j < P.length → site P' j = site P j) :
    P'.drop k = P.drop k := drop_ext hl fun j h1 h2 => h j h1 (by omega)

theorem site_take_eq {P P' : List (Tensor K)} {k : Nat} (hk : k ≤ P.length) (hl : P'.length = P.length) (h : ∀ j < k, site P' j = site P j) :
    P'.take k = P.take k := take_ext (by omega) (by omega) h

theorem R2Inv.step {ds : List Nat} {q : List Nat → K} {P0 P : List (Tensor K)} {Dmax : Nat} {lost0 lost : ℝ} {k a b : Nat} {X : Tensor K}
    (h : R2Inv ds q P0 P Dmax lost0 lost k a b X) (h0 : WF 1 P0 ds 1) (hk : k + 2 < ds.length) {Q R : List (Tensor K)} {l : ℝ} {g : Nat}
    (hs : Stored ds P k a b X 1 Dmax Q R l g) {a' b' : Nat} {X' : Tensor K} (hg : Gap2 ds R (k + 1) a' b') (hp : Proj2 ds q R (k + 1) a' b' X') :
    R2Inv ds q P0 R Dmax lost0 (lost + l) (k + 1) a' b' X' := by
  have hl0 := h0.length
  have hPl := h.wf.length
  have hQl := hs.wfQ.length
  have hRl := hs.wfR.length
  have sQ := hs.site hPl (by omega)
  have sR : ∀ j, j ≠ k + 1 → j ≠ k + 2 → site R j = site Q j := by have := hs.after; rw [if_pos (by decide)] at this; exact this.1
  have iso : LeftIso (site Q k) := by have := hs.iso; rwa [if_pos (by decide)] at this
  have hln := hs.lost_nonneg
  have lo' : ∀ j < k + 1, LeftIso (site R j) := by
    intro j hj
    rw [sR j (by omega) (by omega)]
    by_cases hjk : j = k
    · rw [hjk]; exact iso
    · rw [sQ j hjk (by omega)]; exact h.lo j (by omega)
  have rest' : R.drop (k + 3) = P0.drop (k + 3) := by
    rw [site_drop_eq (P := P) (by omega) fun j h1 _ => ?_]
    · exact drop_of_eq h.rest (by omega)
    · rw [sR j (by omega) (by omega), sQ j (by omega) (by omega)]
  refine ⟨hs.wfR, hg, hp, lo', rest', ?_, fun hi => ?_, by linarith [h.spent]⟩
  · intro j hj hD
    rw [sR j (by omega) (by omega)]
    by_cases hjk : j = k
    · rw [hjk, dim2_of hs.first]; exact hs.bond hD
    · rw [sQ j hjk (by omega)]; exact h.bond j (by omega) hD
  · have hiP : ∀ j, k + 1 < j → j < ds.length → RightIso (site P j) := fun j h1 h2 => by
      rw [site_of_drop h.rest (by omega)]; exact hi j (by omega) h2
    have hd := hs.dist h.proj h.gap h.lo hiP
    -- the state after the truncation is of the form of the next step
    obtain ⟨x, y, c, w1, w2, w3, w4⟩ := Gap2.of_WF hs.wfQ (k := k + 1) hk
    have ea : x = a' := by
      have t1 := w1.wl
      have t2 := hg.wl
      rw [site_take_eq (P := Q) (by omega) (by omega) (fun j hj => sR j (by omega) (by omega))] at t2
      exact WF_right t1 t2
    have ed : R.drop (k + 3) = Q.drop (k + 3) := site_drop_eq (by omega) fun j h1 _ => sR j (by omega) (by omega)
    have eb : y = b' := by
      obtain ⟨x2, y2, c2, v1, v2, v3, v4⟩ := Gap2.of_WF hs.wfR (k := k + 1) hk
      have r1 := v1.wr
      have r2 := hg.wr
      have r3 := w1.wr
      rw [ed] at r2
      by_cases hN : k + 3 = ds.length
      · have e : Q.drop (k + 1 + 2) = [] := List.drop_eq_nil_of_le (by omega)
        have e' : ds.drop (k + 1 + 2) = [] := List.drop_eq_nil_of_le (by omega)
        rw [show k + 3 = k + 1 + 2 by omega] at r2
        rw [e, e'] at r2 r3
        cases r2; cases r3; rfl
      · have e : Q.drop (k + 1 + 2) = site Q (k + 3) :: Q.drop (k + 4) := drop_site (by omega)
        rw [show k + 3 = k + 1 + 2 by omega] at r2
        rw [e] at r2 r3
        generalize ds.drop (k + 1 + 2) = dd at r2 r3
        cases r2 with
        | cons e1 => cases r3 with
          | cons e2 => rw [e1] at e2; exact (List.cons.inj e2).1.symm
    subst ea eb
    have key := hp.le_dist hg lo' (fun j h1 h2 => by rw [site_of_drop rest' (by omega)]; exact hi j (by omega) h2) w2 w3 w4
    have e : setPair R (k + 1) (site Q (k + 1)) (site Q (k + 2)) = Q := by
      rw [setPair_eq (by omega), site_take_eq (P := Q) (by omega) (by omega) (fun j hj => sR j (by omega) (by omega)),
        show k + 1 + 2 = k + 3 by omega, ed]
      conv_rhs => rw [← List.take_append_drop (k + 1) Q, drop_site (by omega), drop_site (by omega)]
    rw [show k + 1 + 1 = k + 2 by omega] at key
    rw [e, hd] at key
    have := h.closer hi
    linarith

theorem L2Inv.step {ds : List Nat} {q : List Nat → K} {P0 P : List (Tensor K)} {Dmax : Nat} {lost0 lost : ℝ} {k a b : Nat} {X : Tensor K}
    (h : L2Inv ds q P0 P Dmax lost0 lost (k + 1) a b X) (h0 : WF 1 P0 ds 1) {Q R : List (Tensor K)} {l : ℝ} {g : Nat}
    (hs : Stored ds P (k + 1) a b X (-1) Dmax Q R l g) {a' b' : Nat} {X' : Tensor K} (hg : Gap2 ds R k a' b') (hp : Proj2 ds q R k a' b' X') :
    L2Inv ds q P0 R Dmax lost0 (lost + l) k a' b' X' := by
  have hk := h.gap.lt
  have hl0 := h0.length
  have hPl := h.wf.length
  have hQl := hs.wfQ.length
  have hRl := hs.wfR.length
  have sQ := hs.site hPl (by omega)
  have sR : ∀ j, j ≠ k + 1 → j ≠ k → site R j = site Q j := by
    have := hs.after
    rw [if_neg (by decide)] at this
    exact fun j h1 h2 => this.1 j h1 (by omega)
  have iso : RightIso (site Q (k + 2)) := by have := hs.iso; rwa [if_neg (by decide)] at this
  have hln := hs.lost_nonneg
  have hi' : ∀ j, k + 1 < j → j < ds.length → RightIso (site R j) := by
    intro j hj hj2
    rw [sR j (by omega) (by omega)]
    by_cases hjk : j = k + 2
    · rw [hjk]; exact iso
    · rw [sQ j (by omega) hjk]; exact h.hi j (by omega) hj2
  have rest' : R.take k = P0.take k := by
    rw [site_take_eq (P := P) (by omega) (by omega) fun j h1 => ?_]
    · exact take_of_eq h.rest (by omega)
    · rw [sR j (by omega) (by omega), sQ j (by omega) (by omega)]
  refine ⟨hs.wfR, hg, hp, hi', rest', ?_, fun lo => ?_, by linarith [h.spent]⟩
  · intro j hj hj2 hD
    rw [sR (j + 1) (by omega) (by omega)]
    by_cases hjk : j = k + 1
    · rw [hjk, dim0_of hs.second]; exact hs.bond hD
    · rw [sQ (j + 1) (by omega) (by omega)]; exact h.bond j (by omega) hj2 hD
  · have loP : ∀ j < k + 1, LeftIso (site P j) := fun j h1 => by
      rw [site_of_take h.rest (by omega)]; exact lo j (by omega)
    have hd := hs.dist h.proj h.gap loP h.hi
    obtain ⟨x, y, c, w1, w2, w3, w4⟩ := Gap2.of_WF hs.wfQ (k := k) (by omega)
    have et : R.take k = Q.take k := site_take_eq (by omega) (by omega) (fun j hj => sR j (by omega) (by omega))
    have ed : R.drop (k + 2) = Q.drop (k + 2) := site_drop_eq (by omega) fun j h1 _ => sR j (by omega) (by omega)
    have ea : x = a' := by
      have t1 := w1.wl
      have t2 := hg.wl
      rw [et] at t2
      exact WF_right t1 t2
    have eb : y = b' := by
      have r2 := hg.wr
      have r3 := w1.wr
      rw [ed] at r2
      have e : Q.drop (k + 2) = site Q (k + 2) :: Q.drop (k + 3) := drop_site (by omega)
      rw [e] at r2 r3
      generalize ds.drop (k + 2) = dd at r2 r3
      cases r2 with
      | cons e1 => cases r3 with
        | cons e2 => rw [e1] at e2; exact (List.cons.inj e2).1.symm
    subst ea eb
    have key := hp.le_dist hg (fun j h1 => by rw [site_of_take rest' h1]; exact lo j (by omega)) hi' w2 w3 w4
    have e : setPair R k (site Q k) (site Q (k + 1)) = Q := by
      rw [setPair_eq (by omega), et, ed]
      conv_rhs => rw [← List.take_append_drop k Q, drop_site (by omega), drop_site (by omega)]
    rw [e, hd] at key
    have := h.closer lo
    linarith

theorem R2Inv.finish {ds : List Nat} {q : List Nat → K} {P0 P : List (Tensor K)} {Dmax : Nat} {lost0 lost : ℝ} {k a b : Nat} {X : Tensor K}
    (h : R2Inv ds q P0 P Dmax lost0 lost k a b X) (hk : k + 2 = ds.length) {Q R : List (Tensor K)} {l : ℝ} {g : Nat}
    (hs : Stored ds P k a b X 1 Dmax Q R l g) : R = Q ∧ SweptBy ds q P0 1 (fun _ d => 0 < Dmax → d ≤ Dmax) (lost + l - lost0) Q := by
  have hPl := h.wf.length
  have sQ := hs.site hPl (by omega)
  have iso : LeftIso (site Q k) := by have := hs.iso; rwa [if_pos (by decide)] at this
  have hb := hs.best h.proj (by omega) h.lo (by omega)
  rw [if_pos (by decide)] at hb
  have hd := hs.dist h.proj h.gap h.lo (by omega)
  have hln := hs.lost_nonneg
  have e : R = Q := by have := hs.after; rw [if_pos (by decide)] at this; exact this.2 hk
  refine ⟨e, hs.wfQ, ?_, ?_, ?_, fun hdesc => ?_, by linarith [h.spent]⟩
  · simp only [Described, show ¬ (1 : Int) < 0 by decide, if_false]
    intro j hj
    by_cases hjk : j = k
    · rw [hjk]; exact iso
    · rw [sQ j hjk (by omega)]; exact h.lo j (by omega)
  · simp only [centreOf, show ¬ (1 : Int) < 0 by decide, if_false]
    rwa [show ds.length - 1 = k + 1 by omega]
  · intro j hj hD
    by_cases hjk : j = k
    · rw [hjk, dim2_of hs.first]; exact hs.bond hD
    · rw [sQ j hjk (by omega)]; exact h.bond j (by omega) hD
  · have := h.closer (by simpa [Described] using hdesc)
    rw [hd]; linarith

theorem L2Inv.finish {ds : List Nat} {q : List Nat → K} {P0 P : List (Tensor K)} {Dmax : Nat} {lost0 lost : ℝ} {a b : Nat} {X : Tensor K}
    (h : L2Inv ds q P0 P Dmax lost0 lost 0 a b X) {Q R : List (Tensor K)} {l : ℝ} {g : Nat}
    (hs : Stored ds P 0 a b X (-1) Dmax Q R l g) : R = Q ∧ SweptBy ds q P0 (-1) (fun _ d => 0 < Dmax → d ≤ Dmax) (lost + l - lost0) Q := by
  have hk := h.gap.lt
  have hPl := h.wf.length
  have sQ := hs.site hPl (by omega)
  have iso : RightIso (site Q 1) := by have := hs.iso; rwa [if_neg (by decide)] at this
  have hb := hs.best h.proj (by omega) (by omega) h.hi
  rw [if_neg (by decide)] at hb
  have hd := hs.dist h.proj h.gap (by omega) h.hi
  have hln := hs.lost_nonneg
  have e : R = Q := by have := hs.after; rw [if_neg (by decide)] at this; exact this.2 rfl
  refine ⟨e, hs.wfQ, ?_, ?_, ?_, fun hdesc => ?_, by linarith [h.spent]⟩
  · simp only [Described, show (-1 : Int) < 0 by decide, if_true]
    intro j hj hj2
    by_cases hjk : j = 1
    · rw [hjk]; exact iso
    · rw [sQ j (by omega) (by omega)]; exact h.hi j (by omega) hj2
  · simpa only [centreOf, show (-1 : Int) < 0 by decide, if_true] using hb
  · intro j hj hD
    obtain ⟨a0, b0, g0, d0⟩ := Gap.of_WF hs.wfQ (k := j) (by omega)
    obtain ⟨c0, h2, -⟩ := g0.next hj
    rw [dim2_of d0, ← dim0_of h2]
    by_cases hjk : j = 0
    · rw [hjk, dim0_of hs.second]; exact hs.bond hD
    · rw [sQ (j + 1) (by omega) (by omega)]; exact h.bond j (by omega) hj hD
  · have := h.closer (by simpa [Described] using hdesc)
    rw [hd]; linarith

end MPS.Simp
