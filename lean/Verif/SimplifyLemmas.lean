import Verif.SimplifyModel
import Verif.FormLemmas2
import Verif.ObcLemmas

set_option linter.unusedSectionVars false
set_option linter.unusedSimpArgs false

namespace MPS.Simp
open MPS Tensor Form Minim Obc

section entries
variable {R : Type} [CommRing R] [StarRing R]

theorem swapIdx_03 (a b c d : Nat) : swapIdx [a, b, c, d] 0 3 = [d, b, c, a] := by simp [swapIdx]
theorem swapIdx_23 (a b c d : Nat) : swapIdx [a, b, c, d] 2 3 = [a, b, d, c] := by simp [swapIdx]
theorem swapIdx_02 (a b c d : Nat) : swapIdx [a, b, c, d] 0 2 = [c, b, a, d] := by simp [swapIdx]
theorem swapIdx_12 (a b c : Nat) : swapIdx [a, b, c] 1 2 = [a, c, b] := by simp [swapIdx]
theorem swapIdx_01 (a b c : Nat) : swapIdx [a, b, c] 0 1 = [b, a, c] := by simp [swapIdx]

/-- the contraction at the last site -/
theorem edge_left {M Q : Tensor R} {a u d : Nat} (hM : M.dims = [1, 1, a, u]) (hQ : Q.dims = [u, d, 1]) :
    (edgeProjector M Q).dims = [a, d, 1] ∧ ∀ x i, x < a → i < d →
      (edgeProjector M Q).get [x, i, 0] = ∑ n ∈ Finset.range u, M.get [0, 0, x, n] * Q.get [n, i, 0] := by
  have e0 : M.dim 0 = 1 := by simp [dim, hM]
  have e1 : M.dim 1 = 1 := by simp [dim, hM]
  have e2 : M.dim 2 = a := by simp [dim, hM]
  have e3 : M.dim 3 = u := by simp [dim, hM]
  have f1 : Q.dim 1 = d := by simp [dim, hQ]
  have pd : (permute M 0 3).dims = [u, 1, a, 1] := by simp [permute, hM, nrm, swapIdx]
  have qd : (permute Q 1 2).dims = [u, 1, d] := by simp [permute, hQ, nrm, swapIdx]
  have g1 : ∀ x n, x < a → n < u → (reshape (permute M 0 3) [u * 1, a, 1]).get [n, x, 0] = M.get [0, 0, x, n] := by
    intro x n hx hn
    rw [reshape_get (idx := [n, 0, x, 0]) (by rw [pd]; exact .cons hn (.cons one_pos (.cons hx (.cons one_pos .nil))))
      (by rw [pd]; simp only [flat]; ring)]
    simp [permute, hM, nrm, swapIdx]
  have g2 : ∀ i n, i < d → n < u → (reshape (permute Q 1 2) [u * 1, d]).get [n, i] = Q.get [n, i, 0] := by
    intro i n hi hn
    rw [reshape_get (idx := [n, 0, i]) (by rw [qd]; exact .cons hn (.cons one_pos (.cons hi .nil)))
      (by rw [qd]; simp only [flat]; ring)]
    simp [permute, hQ, nrm, swapIdx]
  unfold edgeProjector
  simp only [e0, e1, e2, e3, f1]
  refine ⟨by simp [permute, nrm, swapIdx], fun x i hx hi => ?_⟩
  set F := fold (reshape (permute M 0 3) [u * 1, a, 1]) 0 (reshape (permute Q 1 2) [u * 1, d]) 0 with hF
  have fd : F.dims = [a, 1, d] := by simp [hF, fold]
  have e : (permute (reshape F [a, 1, d]) 1 2).get [x, i, 0] = (reshape F [a, 1, d]).get [x, 0, i] := by
    simp [permute, nrm, swapIdx]
  rw [e, reshape_get (idx := [x, 0, i]) (by rw [fd]; exact .cons hx (.cons one_pos (.cons hi .nil))) (by rw [fd])]
  simp only [hF, fold, reshape_dims, nrm_zero]
  simp only [List.length_cons, List.length_nil, List.getD_cons_zero, mul_one]
  refine Finset.sum_congr rfl fun n hn => ?_
  have := g1 x n hx (Finset.mem_range.1 hn)
  have := g2 i n hi (Finset.mem_range.1 hn)
  simp only [mul_one] at *
  simp [*]

/-- the contraction at the first site -/
theorem edge_right {M Q : Tensor R} {b v d : Nat} (hM : M.dims = [b, v, 1, 1]) (hQ : Q.dims = [1, d, v]) :
    (edgeProjector M Q).dims = [1, d, b] ∧ ∀ i y, i < d → y < b →
      (edgeProjector M Q).get [0, i, y] = ∑ n ∈ Finset.range v, M.get [y, n, 0, 0] * Q.get [0, i, n] := by
  have e0 : M.dim 0 = b := by simp [dim, hM]
  have e1 : M.dim 1 = v := by simp [dim, hM]
  have e2 : M.dim 2 = 1 := by simp [dim, hM]
  have e3 : M.dim 3 = 1 := by simp [dim, hM]
  have f1 : Q.dim 1 = d := by simp [dim, hQ]
  have pd : (permute M 0 3).dims = [1, v, 1, b] := by simp [permute, hM, nrm, swapIdx]
  have qd : (permute Q 1 2).dims = [1, v, d] := by simp [permute, hQ, nrm, swapIdx]
  have g1 : ∀ y n, y < b → n < v → (reshape (permute M 0 3) [1 * v, 1, b]).get [n, 0, y] = M.get [y, n, 0, 0] := by
    intro y n hy hn
    rw [reshape_get (idx := [0, n, 0, y]) (by rw [pd]; exact .cons one_pos (.cons hn (.cons one_pos (.cons hy .nil))))
      (by rw [pd]; simp only [flat]; ring)]
    simp [permute, hM, nrm, swapIdx]
  have g2 : ∀ i n, i < d → n < v → (reshape (permute Q 1 2) [1 * v, d]).get [n, i] = Q.get [0, i, n] := by
    intro i n hi hn
    rw [reshape_get (idx := [0, n, i]) (by rw [qd]; exact .cons one_pos (.cons hn (.cons hi .nil)))
      (by rw [qd]; simp only [flat]; ring)]
    simp [permute, hQ, nrm, swapIdx]
  unfold edgeProjector
  simp only [e0, e1, e2, e3, f1]
  refine ⟨by simp [permute, nrm, swapIdx], fun i y hi hy => ?_⟩
  set F := fold (reshape (permute M 0 3) [1 * v, 1, b]) 0 (reshape (permute Q 1 2) [1 * v, d]) 0 with hF
  have fd : F.dims = [1, b, d] := by simp [hF, fold]
  have e : (permute (reshape F [1, b, d]) 1 2).get [0, i, y] = (reshape F [1, b, d]).get [0, y, i] := by
    simp [permute, nrm, swapIdx]
  rw [e, reshape_get (idx := [0, y, i]) (by rw [fd]; exact .cons one_pos (.cons hy (.cons hi .nil))) (by rw [fd])]
  simp only [hF, fold, reshape_dims, nrm_zero]
  simp only [List.length_cons, List.length_nil, List.getD_cons_zero, one_mul]
  refine Finset.sum_congr rfl fun n hn => ?_
  have := g1 y n hy (Finset.mem_range.1 hn)
  have := g2 i n hi (Finset.mem_range.1 hn)
  simp only [one_mul] at *
  simp [*]

/-- the contraction in the middle -/
theorem middle_get {Ml Mr Q : Tensor R} {a u d v b : Nat} (hL : Ml.dims = [1, 1, a, u]) (hQ : Q.dims = [u, d, v])
    (hR : Mr.dims = [b, v, 1, 1]) :
    (middleProjector Ml Mr Q).dims = [a, d, b] ∧ ∀ x i y, x < a → i < d → y < b →
      (middleProjector Ml Mr Q).get [x, i, y] =
        ∑ n ∈ Finset.range v, (∑ m ∈ Finset.range u, Q.get [m, i, n] * Ml.get [0, 0, x, m]) * Mr.get [y, n, 0, 0] := by
  have e0 : Ml.dim 0 = 1 := by simp [dim, hL]
  have e1 : Ml.dim 1 = 1 := by simp [dim, hL]
  have e2 : Ml.dim 2 = a := by simp [dim, hL]
  have f1 : Q.dim 1 = d := by simp [dim, hQ]
  have f2 : Q.dim 2 = v := by simp [dim, hQ]
  have g0 : Mr.dim 0 = b := by simp [dim, hR]
  unfold middleProjector
  simp only [e0, e1, e2, f1, f2, g0, mul_one]
  refine ⟨by simp [permute, nrm, swapIdx], fun x i y hx hi hy => ?_⟩
  set F := fold Q 0 Ml 3 with hF
  have fd : F.dims = [d, v, 1, 1, a] := by simp [hF, fold, hQ, hL, nrm]
  have fg : ∀ n, n < v → (reshape F [d, v, a]).get [i, n, x] = ∑ m ∈ Finset.range u, Q.get [m, i, n] * Ml.get [0, 0, x, m] := by
    intro n hn
    rw [reshape_get (idx := [i, n, 0, 0, x])
      (by rw [fd]; exact .cons hi (.cons hn (.cons one_pos (.cons one_pos (.cons hx .nil))))) (by rw [fd]; simp only [flat]; ring)]
    simp [hF, fold, hQ, hL, nrm]
  have pd : (permute (permute Mr 2 3) 0 2).dims = [1, v, b, 1] := by
    simp [permute, hR, nrm, swapIdx]
  have pg : ∀ n, n < v → (reshape (permute (permute Mr 2 3) 0 2) [v, b]).get [n, y] = Mr.get [y, n, 0, 0] := by
    intro n hn
    rw [reshape_get (idx := [0, n, y, 0]) (by rw [pd]; exact .cons one_pos (.cons hn (.cons hy (.cons one_pos .nil))))
      (by rw [pd]; simp only [flat]; ring)]
    simp [permute, hR, nrm, swapIdx]
  set G := fold (reshape F [d, v, a]) 1 (reshape (permute (permute Mr 2 3) 0 2) [v, b]) 0 with hG
  have gd : G.dims = [d, a, b] := by simp [hG, fold, nrm]
  have e : (permute (reshape G [d, a, b]) 0 1).get [x, i, y] = (reshape G [d, a, b]).get [i, x, y] := by
    simp [permute, nrm, swapIdx]
  rw [e, reshape_get (idx := [i, x, y]) (by rw [gd]; exact .cons hi (.cons hx (.cons hy .nil))) (by rw [gd])]
  have ge : G.get [i, x, y] = ∑ n ∈ Finset.range v, (reshape F [d, v, a]).get [i, n, x] *
      (reshape (permute (permute Mr 2 3) 0 2) [v, b]).get [n, y] := by
    simp [hG, fold, nrm]
  rw [ge]
  refine Finset.sum_congr rfl fun n hn => ?_
  rw [fg n (Finset.mem_range.1 hn), pg n (Finset.mem_range.1 hn)]

/-- `M` is empty exactly if there is nothing to the left (right) -/
theorem leftOk_cases {M : Tensor R} {Q P : List (Tensor R)} {ds : List Nat} (h : LeftOk M Q P ds) {a b : Nat}
    (hQ : WF 1 Q ds a) (hP : WF 1 P ds b) :
    (M.isEmpty = true ∧ a = 1 ∧ b = 1 ∧ ds = [] ∧ envT M = ones4) ∨ (M.isEmpty = false ∧ envT M = M) := by
  rcases h with ⟨rfl, rfl⟩ | ⟨_, h⟩
  · left
    obtain ⟨-, rfl⟩ := WF.nil_iff hQ
    obtain ⟨-, rfl⟩ := WF.nil_iff hP
    exact ⟨empty_isEmpty, rfl, rfl, rfl, by unfold envT; rw [empty_isEmpty, if_pos rfl]⟩
  · right
    have h1 := (h a b hQ hP).notEmpty (by omega) (by omega) (hQ.pos_right (by omega)) (hP.pos_right (by omega))
    exact ⟨h1, by unfold envT; rw [h1, if_neg (by simp)]⟩

theorem rightOk_cases {M : Tensor R} {Q P : List (Tensor R)} {ds : List Nat} (h : RightOk M Q P ds) {a b : Nat}
    (hQ : WF a Q ds 1) (hP : WF b P ds 1) :
    (M.isEmpty = true ∧ a = 1 ∧ b = 1 ∧ ds = [] ∧ envT M = ones4) ∨ (M.isEmpty = false ∧ envT M = M) := by
  rcases h with ⟨rfl, rfl⟩ | ⟨_, h⟩
  · left
    obtain ⟨-, rfl⟩ := WF.nil_iff hQ
    obtain ⟨-, rfl⟩ := WF.nil_iff hP
    exact ⟨empty_isEmpty, rfl, rfl, rfl, by unfold envT; rw [empty_isEmpty, if_pos rfl]⟩
  · right
    have h1 := (h a b hQ hP).notEmpty (WF.pos_left hQ (by omega)) (WF.pos_left hP (by omega)) (by omega) (by omega)
    exact ⟨h1, by unfold envT; rw [h1, if_neg (by simp)]⟩

/-- the new tensor of a site, in terms of the contractions to the left and to the right -/
theorem next_get {Ml Mr Qk : Tensor R} {l ql r qr : List (Tensor R)} {dl dr : List Nat} {a u d v b : Nat}
    (hL : LeftOk Ml l ql dl) (hR : RightOk Mr r qr dr) (w1 : WF 1 l dl a) (w2 : WF 1 ql dl u) (w3 : WF b r dr 1) (w4 : WF v qr dr 1)
    (hQ : Qk.dims = [u, d, v]) :
    (nextProjector Ml Mr Qk).dims = [a, d, b] ∧
    (∀ x i y, x < a → i < d → y < b → (nextProjector Ml Mr Qk).get [x, i, y] =
      ∑ m ∈ Finset.range u, ∑ n ∈ Finset.range v, (envT Ml).get [0, 0, x, m] * Qk.get [m, i, n] * (envT Mr).get [y, n, 0, 0]) ∧
    (dl ≠ [] ∨ dr ≠ [] → buildNextProjector Ml Mr Qk = nextProjector Ml Mr Qk) := by
  have tL := hL.env w1 w2
  have tR := hR.env w3 w4
  have o1 : ∀ x, x < 1 → ∀ m, m < 1 → (ones4 : Tensor R).get [0, 0, x, m] = 1 := fun _ _ _ _ => rfl
  rcases leftOk_cases hL w1 w2 with ⟨m1, rfl, rfl, d1, E1⟩ | ⟨m1, E1⟩ <;> rcases rightOk_cases hR w3 w4 with ⟨m2, rfl, rfl, d2, E2⟩ | ⟨m2, E2⟩
  · refine ⟨by simp [nextProjector, m1, m2, hQ], fun x i y hx hi hy => ?_, fun h => by simp [d1, d2] at h⟩
    obtain rfl : x = 0 := by omega
    obtain rfl : y = 0 := by omega
    simp [nextProjector, m1, m2, E1, E2, ones4]
  · rw [E2] at tR
    obtain ⟨e1, e2⟩ := edge_right tR.1 hQ
    have e : nextProjector Ml Mr Qk = edgeProjector Mr Qk := by simp [nextProjector, m1, m2]
    refine ⟨by rw [e, e1], fun x i y hx hi hy => ?_, fun _ => by simp [nextProjector, buildNextProjector, m1, m2]⟩
    obtain rfl : x = 0 := by omega
    rw [e, e2 i y hi hy, E1, E2, Finset.sum_range_one]
    refine Finset.sum_congr rfl fun n _ => ?_
    simp only [ones4]; ring
  · rw [E1] at tL
    obtain ⟨e1, e2⟩ := edge_left tL.1 hQ
    have e : nextProjector Ml Mr Qk = edgeProjector Ml Qk := by simp [nextProjector, m1, m2]
    refine ⟨by rw [e, e1], fun x i y hx hi hy => ?_, fun _ => by simp [nextProjector, buildNextProjector, m1, m2]⟩
    obtain rfl : y = 0 := by omega
    rw [e, e2 x i hx hi, E1, E2]
    refine Finset.sum_congr rfl fun n _ => ?_
    simp only [Finset.sum_range_one, ones4]; ring
  · rw [E1] at tL
    rw [E2] at tR
    obtain ⟨e1, e2⟩ := middle_get tL.1 hQ tR.1
    have e : nextProjector Ml Mr Qk = middleProjector Ml Mr Qk := by simp [nextProjector, m1, m2]
    refine ⟨by rw [e, e1], fun x i y hx hi hy => ?_, fun _ => by simp [nextProjector, buildNextProjector, m1, m2]⟩
    rw [e, e2 x i y hx hi hy, E1, E2, Finset.sum_comm]
    refine Finset.sum_congr rfl fun n _ => ?_
    rw [Finset.sum_mul]
    exact Finset.sum_congr rfl fun m _ => by ring

/-- ... and the scalar product with a state that has another tensor there -/
theorem next_inner {Ml Mr Qk Y : Tensor R} {l ql r qr : List (Tensor R)} {dl dr : List Nat} {a u d v b : Nat}
    (hL : LeftOk Ml l ql dl) (hR : RightOk Mr r qr dr) (w1 : WF 1 l dl a) (w2 : WF 1 ql dl u) (w3 : WF b r dr 1) (w4 : WF v qr dr 1)
    (hQ : Qk.dims = [u, d, v]) (hY : Y.dims = [a, d, b]) (hd : 0 < d) :
    MPS.inner (dl ++ d :: dr) (amp (l ++ Y :: r)) (amp (ql ++ Qk :: qr)) =
      sumCfg [a, d, b] (fun I => star (Y.get I) * (nextProjector Ml Mr Qk).get I) := by
  have p1 := w1.pos_right one_pos
  have p2 := w2.pos_right one_pos
  have p3 := Form.WF.pos_left w3 one_pos
  have p4 := Form.WF.pos_left w4 one_pos
  have := inner_blocks (hL.env w1 w2) (hR.env w3 w4) w1 (WF.cons hY p1 hd p3 (WF.nil _)) w3 w2 (WF.cons hQ p2 hd p4 (WF.nil _)) w4 (by simp)
  simp only [List.singleton_append] at this
  rw [this]
  simp only [sumCfg_cons, sumCfg_nil]
  have e : ∀ x ∈ Finset.range a, ∀ i ∈ Finset.range d, ∀ y ∈ Finset.range b,
      star (Y.get [x, i, y]) * (nextProjector Ml Mr Qk).get [x, i, y] =
      ∑ m ∈ Finset.range u, ∑ n ∈ Finset.range v, star (Y.get [x, i, y]) *
        ((envT Ml).get [0, 0, x, m] * Qk.get [m, i, n] * (envT Mr).get [y, n, 0, 0]) := by
    intro x hx i hi y hy
    rw [(next_get hL hR w1 w2 w3 w4 hQ).2.1 x i y (Finset.mem_range.1 hx) (Finset.mem_range.1 hi) (Finset.mem_range.1 hy), Finset.mul_sum]
    exact Finset.sum_congr rfl fun m _ => Finset.mul_sum _ _ _
  rw [Finset.sum_congr rfl fun x hx => Finset.sum_congr rfl fun i hi => Finset.sum_congr rfl fun y hy => e x hx i hi y hy]
  have e2 : ∀ x ∈ Finset.range a, ∀ m ∈ Finset.range u, ∀ y ∈ Finset.range b, ∀ n ∈ Finset.range v,
      (envT Ml).get [0, 0, x, m] * (∑ i ∈ Finset.range d, star (path [Y] [i] x y) * path [Qk] [i] m n) * (envT Mr).get [y, n, 0, 0] =
      ∑ i ∈ Finset.range d, star (Y.get [x, i, y]) * ((envT Ml).get [0, 0, x, m] * Qk.get [m, i, n] * (envT Mr).get [y, n, 0, 0]) := by
    intro x hx m hm y hy n hn
    rw [Finset.mul_sum, Finset.sum_mul]
    refine Finset.sum_congr rfl fun i _ => ?_
    rw [path_single hY (Finset.mem_range.1 hy), path_single hQ (Finset.mem_range.1 hn)]
    ring
  rw [Finset.sum_congr rfl fun x hx => Finset.sum_congr rfl fun m hm => Finset.sum_congr rfl fun y hy => Finset.sum_congr rfl fun n hn => e2 x hx m hm y hy n hn]
  refine Finset.sum_congr rfl fun x _ => ?_
  simp only [← Finset.sum_product']
  refine Finset.sum_nbij' (fun z => (z.2.2.2, z.2.1, z.1, z.2.2.1)) (fun z => (z.2.2.1, z.2.1, z.2.2.2, z.1)) ?_ ?_ ?_ ?_ ?_
  · intro z hz; simp only [Finset.mem_product] at hz ⊢; tauto
  · intro z hz; simp only [Finset.mem_product] at hz ⊢; tauto
  · intro z _; rfl
  · intro z _; rfl
  · intro z _; rfl

end entries
end MPS.Simp
