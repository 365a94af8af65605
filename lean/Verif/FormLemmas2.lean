import Verif.FormLemmas

set_option linter.unusedSectionVars false
set_option linter.unusedSimpArgs false

/-! # Helper lemmas for linear forms: the vectors -/

namespace MPS.Form
open MPS Tensor
variable {R : Type} [CommRing R] [StarRing R]

theorem WF.cut {a b : Nat} {Q : List (Tensor R)} {ds : List Nat} (h : WF a Q ds b) {j : Nat} (hj : j ≤ ds.length) :
    ∃ c, WF a (Q.take j) (ds.take j) c ∧ WF c (Q.drop j) (ds.drop j) b := by
  have h' := h
  rw [← List.take_append_drop j Q] at h'
  obtain ⟨d1, d2, c, e, h1, h2⟩ := h'.split
  have hl := h.length
  have l1 := h1.length
  have : d1.length = j := by rw [← l1, List.length_take]; omega
  refine ⟨c, ?_, ?_⟩
  · rw [e, List.take_left' this]; exact h1
  · rw [e, List.drop_left' this]; exact h2

theorem lfCompose_dims {L P Rt : Tensor R} {a b a' b' : Nat} {dm : List Nat} (hL : (envT L).dims = [1, 1, a, b])
    (hP : P.dims = a :: (dm ++ [a'])) (hR : (envT Rt).dims = [a', b', 1, 1]) :
    (lfCompose L P Rt).dims = b :: (dm ++ [b']) := by
  unfold lfCompose
  change (fold (fold (reshape (envT L) [(envT L).dim 2, (envT L).dim 3]) 0 P 0) (-1) (reshape (envT Rt) [(envT Rt).dim 0, (envT Rt).dim 1]) 0).dims = _
  simp only [fold, reshape_dims, hP, hL, hR, dim]
  simp [nrm, List.eraseIdx_append_of_length_le]

theorem lfCompose_get {L P Rt : Tensor R} {a b a' b' : Nat} {dm : List Nat} (hL : (envT L).dims = [1, 1, a, b])
    (hP : P.dims = a :: (dm ++ [a'])) (hR : (envT Rt).dims = [a', b', 1, 1]) {y y' : Nat} {m : List Nat} (hm : m.length = dm.length)
    (hy : y < b) (hy' : y' < b') :
    (lfCompose L P Rt).get (y :: (m ++ [y'])) = ∑ x' ∈ Finset.range a', (∑ x ∈ Finset.range a,
      (envT L).get [0, 0, x, y] * P.get (x :: (m ++ [x']))) * (envT Rt).get [x', y', 0, 0] := by
  unfold lfCompose
  change (fold (fold (reshape (envT L) [(envT L).dim 2, (envT L).dim 3]) 0 P 0) (-1) (reshape (envT Rt) [(envT Rt).dim 0, (envT Rt).dim 1]) 0).get _ = _
  have eL : ∀ x, x < a → (reshape (envT L) [a, b]).get [x, y] = (envT L).get [0, 0, x, y] := by
    intro x hx
    apply reshape_get
    · rw [hL]; simp [hx, hy]
    · rw [hL]; simp [flat]
  have eR : ∀ x, x < a' → (reshape (envT Rt) [a', b']).get [x, y'] = (envT Rt).get [x, y', 0, 0] := by
    intro x hx
    apply reshape_get
    · rw [hR]; simp [hx, hy']
    · rw [hR]; simp [flat]
  simp only [fold, reshape_dims, hP, hL, hR, dim]
  have t1 : List.take (dm.length + 1) (m ++ [y']) = m ++ [y'] := List.take_of_length_le (by simp [hm])
  have t2 : (m ++ [y']).take dm.length = m := by rw [← hm]; simp
  have t3 : (m ++ [y']).drop dm.length = [y'] := by rw [← hm]; simp
  simp [nrm, List.eraseIdx_append_of_length_le, t1, t2, t3]
  refine Finset.sum_congr rfl fun x' hx' => ?_
  rw [← eR x' (Finset.mem_range.1 hx')]
  congr 1
  refine Finset.sum_congr rfl fun x hx => ?_
  rw [← eL x (Finset.mem_range.1 hx)]
  have t4 : (m).insertIdx dm.length x' = m ++ [x'] := by rw [← hm]; simp
  rw [t4]

/-- the composed tensor, contracted with the middle part of a ket, gives the scalar product with the whole ket -/
theorem sandwich {Ql Qm Qr Pl Pm Pr : List (Tensor R)} {dl dm dr : List Nat} {a b a' b' : Nat} {ML MR P : Tensor R}
    (hL : IsTransfer (envT ML) Ql Pl dl 1 1 a b) (hR : IsTransfer (envT MR) Qr Pr dr a' b' 1 1)
    (q1 : WF 1 Ql dl a) (q2 : WF a Qm dm a') (q3 : WF a' Qr dr 1)
    (p1 : WF 1 Pl dl b) (p2 : WF b Pm dm b') (p3 : WF b' Pr dr 1) (hne : dm ≠ []) (w : R)
    (hP : P.dims = a :: (dm ++ [a'])) (hget : ∀ x m x', x < a → IsCfg dm m → x' < a' →
      P.get (x :: (m ++ [x'])) = star w * star (path Qm m x x')) :
    (∑ y ∈ Finset.range b, sumCfg dm fun m => ∑ y' ∈ Finset.range b', (lfCompose ML P MR).get (y :: (m ++ [y'])) * path Pm m y y') =
      star w * MPS.inner (dl ++ (dm ++ dr)) (amp (Ql ++ (Qm ++ Qr))) (amp (Pl ++ (Pm ++ Pr))) := by
  rw [inner_blocks hL hR q1 q2 q3 p1 p2 p3 hne]
  have e1 : ∀ y ∈ Finset.range b, (sumCfg dm fun m => ∑ y' ∈ Finset.range b', (lfCompose ML P MR).get (y :: (m ++ [y'])) * path Pm m y y') =
      ∑ x ∈ Finset.range a, ∑ x' ∈ Finset.range a', ∑ y' ∈ Finset.range b', star w * ((envT ML).get [0, 0, x, y] *
        sumCfg dm (fun s => star (path Qm s x x') * path Pm s y y') * (envT MR).get [x', y', 0, 0]) := by
    intro y hy
    have : ∀ m, IsCfg dm m → (∑ y' ∈ Finset.range b', (lfCompose ML P MR).get (y :: (m ++ [y'])) * path Pm m y y') =
        ∑ x ∈ Finset.range a, ∑ x' ∈ Finset.range a', ∑ y' ∈ Finset.range b', star w * ((envT ML).get [0, 0, x, y] *
          (star (path Qm m x x') * path Pm m y y') * (envT MR).get [x', y', 0, 0]) := by
      intro m hm
      rw [Finset.sum_comm]
      conv_rhs => arg 2; ext x'; rw [Finset.sum_comm]
      rw [Finset.sum_comm]
      refine Finset.sum_congr rfl fun y' hy' => ?_
      rw [lfCompose_get hL.1 hP hR.1 hm.length (Finset.mem_range.1 hy) (Finset.mem_range.1 hy'), Finset.sum_mul]
      refine Finset.sum_congr rfl fun x' hx' => ?_
      rw [Finset.sum_mul, Finset.sum_mul]
      refine Finset.sum_congr rfl fun x hx => ?_
      rw [hget x m x' (Finset.mem_range.1 hx) hm (Finset.mem_range.1 hx')]
      ring
    rw [sumCfg_congr this]
    simp only [sumCfg_sum, sumCfg_mul_left, sumCfg_mul_right]
  rw [Finset.sum_congr rfl e1, Finset.sum_comm, Finset.mul_sum]
  refine Finset.sum_congr rfl fun x _ => ?_
  rw [Finset.mul_sum]
  refine Finset.sum_congr rfl fun y _ => ?_
  simp only [Finset.mul_sum]

/-- sum of a list of tensors of equal dimensions, starting from the empty one -/
theorem maybeAdd_fold (F : Nat → Tensor R) (dm : List Nat) (n : Nat) (hn : 0 < n) (hd : ∀ k, k < n → (F k).dims = dm) (hne : dm.prod ≠ 0) :
    ((List.range n).foldl (fun out k => maybeAdd out (F k)) Tensor.empty).dims = dm ∧
    ∀ i, ((List.range n).foldl (fun out k => maybeAdd out (F k)) Tensor.empty).get i = ∑ k ∈ Finset.range n, (F k).get i := by
  induction n with
  | zero => omega
  | succ n ih =>
    rw [List.range_succ, List.foldl_append]
    simp only [List.foldl_cons, List.foldl_nil]
    rcases Nat.eq_zero_or_pos n with rfl | hp
    · simp [maybeAdd, empty_isEmpty, hd]
    · obtain ⟨i1, i2⟩ := ih hp fun k hk => hd k (by omega)
      have : ((List.range n).foldl (fun out k => maybeAdd out (F k)) Tensor.empty).isEmpty = false := by
        simp only [isEmpty, size, i1]; simpa using hne
      unfold maybeAdd at this ⊢
      rw [this]
      simp only [add, Bool.false_eq_true, if_false]
      refine ⟨i1, fun i => ?_⟩
      rw [Finset.sum_range_succ]
      congr 1
      exact i2 i

end MPS.Form
