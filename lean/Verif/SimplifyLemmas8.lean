import Verif.SimplifyLemmas7
import Verif.Props.CanonProps2

/-!
# Two-site steps of `simplify(&P, {Q}, weights, Dmax, tol, ...)`
-/

set_option linter.unusedSectionVars false
set_option linter.unusedSimpArgs false

namespace MPS.Simp
open MPS Tensor Form Minim Obc
variable {K : Type} [RCLike K]

/-! ### the new pair -/

theorem fold_pair {C D : Tensor K} {u d w d' v : Nat} (hC : C.dims = [u, d, w]) (hD : D.dims = [w, d', v]) :
    (fold C (-1) D 0).dims = [u, d, d', v] ∧
    ∀ x i j y, (fold C (-1) D 0).get [x, i, j, y] = ∑ m ∈ Finset.range w, C.get [x, i, m] * D.get [m, j, y] := by
  constructor
  · simp [fold, hC, hD]
  · intro x i j y
    simp [fold, hC, hD, nrm]

/-- one vector -/
theorem next_pair {Ml Mr A B C D : Tensor K} {l ql r qr : List (Tensor K)} {dl dr : List Nat} {a u d d' w v b n : Nat}
    (hL : LeftOk Ml l ql dl) (hR : RightOk Mr r qr dr) (w1 : WF 1 l dl a) (w2 : WF 1 ql dl u) (w3 : WF b r dr 1) (w4 : WF v qr dr 1)
    (hC : C.dims = [u, d, w]) (hD : D.dims = [w, d', v]) (hw : 0 < w) (hd : 0 < d) (hd' : 0 < d') :
    (nextProjector Ml Mr (reshape (fold C (-1) D 0) [u, d * d', v])).dims = [a, d * d', b] ∧
    (0 < n → A.dims = [a, d, n] → B.dims = [n, d', b] →
      MPS.inner (dl ++ d :: d' :: dr) (amp (l ++ A :: B :: r)) (amp (ql ++ C :: D :: qr)) =
        sumCfg [a, d, d', b] (fun I => star (joined n A B I) *
          (nextProjector Ml Mr (reshape (fold C (-1) D 0) [u, d * d', v])).get [I.getD 0 0, I.getD 1 0 + d * I.getD 2 0, I.getD 3 0])) := by
  obtain ⟨f1, f2⟩ := fold_pair hC hD
  set F := fold C (-1) D 0 with hF
  obtain ⟨n1, n2, -⟩ := next_get (Qk := reshape F [u, d * d', v]) hL hR w1 w2 w3 w4 (reshape_dims)
  refine ⟨n1, fun hn hA hB => ?_⟩
  have p1 := w1.pos_right one_pos
  have p2 := w2.pos_right one_pos
  have p3 := Form.WF.pos_left w3 one_pos
  have p4 := Form.WF.pos_left w4 one_pos
  have hr : ∀ m i j k, m < u → i < d → j < d' → k < v → (reshape F [u, d * d', v]).get [m, i + d * j, k] = F.get [m, i, j, k] := by
    intro m i j k hm hi hj hk
    apply reshape_get
    · rw [f1]; exact .cons hm (.cons hi (.cons hj (.cons hk .nil)))
    · rw [f1]; simp only [flat]; ring
  have := inner_blocks (hL.env w1 w2) (hR.env w3 w4) w1 (WF.cons hA p1 hd hn (WF.cons hB hn hd' p3 (WF.nil _))) w3 w2
    (WF.cons hC p2 hd hw (WF.cons hD hw hd' p4 (WF.nil _))) w4 (by simp)
  simp only [List.cons_append, List.nil_append] at this
  rw [this]
  simp only [sumCfg_cons, sumCfg_nil, List.getD_cons_zero, List.getD_cons_succ]
  have e : ∀ x ∈ Finset.range a, ∀ i ∈ Finset.range d, ∀ j ∈ Finset.range d', ∀ y ∈ Finset.range b,
      star (joined n A B [x, i, j, y]) * (nextProjector Ml Mr (reshape F [u, d * d', v])).get [x, i + d * j, y] =
      ∑ m ∈ Finset.range u, ∑ k ∈ Finset.range v, star (joined n A B [x, i, j, y]) *
        ((envT Ml).get [0, 0, x, m] * F.get [m, i, j, k] * (envT Mr).get [y, k, 0, 0]) := by
    intro x hx i hi j hj y hy
    have hi := Finset.mem_range.1 hi
    have hj := Finset.mem_range.1 hj
    rw [n2 x (i + d * j) y (Finset.mem_range.1 hx) (add_mul_lt hi hj) (Finset.mem_range.1 hy), Finset.mul_sum]
    refine Finset.sum_congr rfl fun m hm => ?_
    rw [Finset.mul_sum]
    refine Finset.sum_congr rfl fun k hk => ?_
    rw [hr m i j k (Finset.mem_range.1 hm) hi hj (Finset.mem_range.1 hk)]
  rw [Finset.sum_congr rfl fun x hx => Finset.sum_congr rfl fun i hi => Finset.sum_congr rfl fun j hj => Finset.sum_congr rfl fun y hy => e x hx i hi j hj y hy]
  have e2 : ∀ x ∈ Finset.range a, ∀ m ∈ Finset.range u, ∀ y ∈ Finset.range b, ∀ k ∈ Finset.range v,
      (envT Ml).get [0, 0, x, m] * (∑ i ∈ Finset.range d, ∑ j ∈ Finset.range d', star (path [A, B] [i, j] x y) * path [C, D] [i, j] m k) * (envT Mr).get [y, k, 0, 0] =
      ∑ i ∈ Finset.range d, ∑ j ∈ Finset.range d', star (joined n A B [x, i, j, y]) * ((envT Ml).get [0, 0, x, m] * F.get [m, i, j, k] * (envT Mr).get [y, k, 0, 0]) := by
    intro x hx m hm y hy k hk
    rw [Finset.mul_sum, Finset.sum_mul]
    refine Finset.sum_congr rfl fun i _ => ?_
    rw [Finset.mul_sum, Finset.sum_mul]
    refine Finset.sum_congr rfl fun j _ => ?_
    rw [path_pair hA hB i j x y (Finset.mem_range.1 hy), path_pair hC hD i j m k (Finset.mem_range.1 hk), ← f2]
    simp only [joined, List.getD_cons_zero, List.getD_cons_succ]
    ring
  rw [Finset.sum_congr rfl fun x hx => Finset.sum_congr rfl fun m hm => Finset.sum_congr rfl fun y hy => Finset.sum_congr rfl fun k hk => e2 x hx m hm y hy k hk]
  refine Finset.sum_congr rfl fun x _ => ?_
  simp only [← Finset.sum_product']
  refine Finset.sum_nbij' (fun z => (z.2.2.2.1, z.2.2.2.2, z.2.1, z.1, z.2.2.1)) (fun z => (z.2.2.2.1, z.2.2.1, z.2.2.2.2, z.1, z.2.1)) ?_ ?_ ?_ ?_ ?_
  · intro z hz; simp only [Finset.mem_product] at hz ⊢; tauto
  · intro z hz; simp only [Finset.mem_product] at hz ⊢; tauto
  · intro z _; rfl
  · intro z _; rfl
  · intro z _; rfl

/-- `X` is the new pair of tensors for sites `k`, `k+1`: the gradient of the overlap with `q` -/
structure Proj2 (ds : List Nat) (q : List Nat → K) (P : List (Tensor K)) (k a b : Nat) (X : Tensor K) : Prop where
  dims : X.dims = [a, ds.getD k 0, ds.getD (k + 1) 0, b]
  inner : ∀ (A B : Tensor K) (n : Nat), 0 < n → A.dims = [a, ds.getD k 0, n] → B.dims = [n, ds.getD (k + 1) 0, b] →
    MPS.inner ds (amp (setPair P k A B)) q = sumCfg [a, ds.getD k 0, ds.getD (k + 1) 0, b] fun I => star (joined n A B I) * X.get I

/-- the chain around a pair -/
structure Gap2 (ds : List Nat) (P : List (Tensor K)) (k a b : Nat) : Prop where
  lt : k + 1 < ds.length
  len : P.length = ds.length
  pos : ∀ d ∈ ds, 0 < d
  wl : WF 1 (P.take k) (ds.take k) a
  wr : WF b (P.drop (k + 2)) (ds.drop (k + 2)) 1

theorem Gap2.pa {ds : List Nat} {P : List (Tensor K)} {k a b : Nat} (h : Gap2 ds P k a b) : 0 < a := h.wl.pos_right one_pos
theorem Gap2.pb {ds : List Nat} {P : List (Tensor K)} {k a b : Nat} (h : Gap2 ds P k a b) : 0 < b := Form.WF.pos_left h.wr one_pos
theorem Gap2.pd {ds : List Nat} {P : List (Tensor K)} {k a b : Nat} (h : Gap2 ds P k a b) : 0 < ds.getD k 0 := by
  have := h.lt
  rw [List.getD_eq_getElem _ _ (by omega)]; exact h.pos _ (List.getElem_mem _)
theorem Gap2.pd' {ds : List Nat} {P : List (Tensor K)} {k a b : Nat} (h : Gap2 ds P k a b) : 0 < ds.getD (k + 1) 0 := by
  rw [List.getD_eq_getElem _ _ h.lt]; exact h.pos _ (List.getElem_mem _)

theorem proj_pair_many {ds : List Nat} {P : List (Tensor K)} {m : Many K} {k a b : Nat} (hg : Gap2 ds P k a b) (hne : m.Q ≠ [])
    (hq : ∀ q ∈ m.Q, WF 1 q ds 1) (hc : AllCaches ds m.Q P m.mat k (k + 2)) : Proj2 ds (superpose m.weights m.Q) P k a b (m.next2 k) := by
  have hl : 0 < m.Q.length := List.length_pos_iff.mpr hne
  have hlt := hg.lt
  have hPl := hg.len
  set d := ds.getD k 0 with hd
  set d' := ds.getD (k + 1) 0 with hd'
  -- shapes
  have sh : ∀ n, n < m.Q.length → ∃ u w v, (site (m.Q.getD n []) k).dims = [u, d, w] ∧ (site (m.Q.getD n []) (k + 1)).dims = [w, d', v] ∧ 0 < w ∧
      WF 1 ((m.Q.getD n []).take k) (ds.take k) u ∧ WF v ((m.Q.getD n []).drop (k + 2)) (ds.drop (k + 2)) 1 := by
    intro n hn
    obtain ⟨u, w, v, k1, k2, k3, k4, k5, k6, k7, k8, k9⟩ := WF.aroundPair (hq _ (Props.getD_mem hn [])) hlt
    exact ⟨u, w, v, k2, k3, k7, k1, k4⟩
  let G : Nat → Tensor K := fun n => nextProjector (m.matrix k n) (m.matrix (k + 3) n)
      (reshape (fold (site (m.Q.getD n []) k) (-1) (site (m.Q.getD n []) (k + 1)) 0)
        [(fold (site (m.Q.getD n []) k) (-1) (site (m.Q.getD n []) (k + 1)) 0).dim 0,
         (fold (site (m.Q.getD n []) k) (-1) (site (m.Q.getD n []) (k + 1)) 0).dim 1 * (fold (site (m.Q.getD n []) k) (-1) (site (m.Q.getD n []) (k + 1)) 0).dim 2,
         (fold (site (m.Q.getD n []) k) (-1) (site (m.Q.getD n []) (k + 1)) 0).dim 3])
  have key : ∀ n, n < m.Q.length → (G n).dims = [a, d * d', b] ∧
      ∀ (A B : Tensor K) (g : Nat), 0 < g → A.dims = [a, d, g] → B.dims = [g, d', b] →
        MPS.inner ds (amp (setPair P k A B)) (amp (m.Q.getD n [])) =
          sumCfg [a, d, d', b] fun I => star (joined g A B I) * (G n).get [I.getD 0 0, I.getD 1 0 + d * I.getD 2 0, I.getD 3 0] := by
    intro n hn
    obtain ⟨u, w, v, s1, s2, s3, s4, s5⟩ := sh n hn
    have hqn := hq _ (Props.getD_mem hn [])
    have hql := hqn.length
    have cl := (hc.2 n hn).lefts k (by omega) (by omega)
    have cr := (hc.2 n hn).rights (k + 2) (by omega) (by omega)
    obtain ⟨f1, -⟩ := fold_pair s1 s2
    have e : G n = nextProjector (m.matrix k n) (m.matrix (k + 3) n)
        (reshape (fold (site (m.Q.getD n []) k) (-1) (site (m.Q.getD n []) (k + 1)) 0) [u, d * d', v]) := by
      simp only [G]
      have e0 : (fold (site (m.Q.getD n []) k) (-1) (site (m.Q.getD n []) (k + 1)) 0).dim 0 = u := by unfold dim; rw [f1]; rfl
      have e1 : (fold (site (m.Q.getD n []) k) (-1) (site (m.Q.getD n []) (k + 1)) 0).dim 1 = d := by unfold dim; rw [f1]; rfl
      have e2 : (fold (site (m.Q.getD n []) k) (-1) (site (m.Q.getD n []) (k + 1)) 0).dim 2 = d' := by unfold dim; rw [f1]; rfl
      have e3 : (fold (site (m.Q.getD n []) k) (-1) (site (m.Q.getD n []) (k + 1)) 0).dim 3 = v := by unfold dim; rw [f1]; rfl
      rw [e0, e1, e2, e3]
    rw [e]
    refine ⟨(next_pair (A := Tensor.empty) (B := Tensor.empty) (n := 0) cl cr hg.wl s4 hg.wr s5 s1 s2 s3 hg.pd hg.pd').1, fun A B g g0 hA hB => ?_⟩
    refine Eq.trans ?_ ((next_pair cl cr hg.wl s4 hg.wr s5 s1 s2 s3 hg.pd hg.pd').2 g0 hA hB)
    rw [setPair_eq (by omega), ← ds_pair hlt]
    congr 2
    conv_lhs => rw [← List.take_append_drop k (m.Q.getD n []), drop_site (by omega), drop_site (by omega)]
  obtain ⟨f1, f2⟩ := foldl_add (fun n => smul (m.weights.getD n 0) (G n)) [a, d * d', b] m.Q.length hl (fun n hn => (key n hn).1)
  obtain ⟨u, w, v, s1, s2, s3, -⟩ := sh (m.Q.length - 1) (by omega)
  obtain ⟨g1, -⟩ := fold_pair s1 s2
  set F := (List.range m.Q.length).foldl (fun out n => if n ≠ 0 then add out (smul (m.weights.getD n 0) (G n)) else smul (m.weights.getD n 0) (G n)) Tensor.empty with hF
  have hX : m.next2 k = reshape F [a, d, d', b] := by
    have : m.next2 k = reshape F [F.dim 0, (fold (site (m.Q.getD (m.Q.length - 1) []) k) (-1) (site (m.Q.getD (m.Q.length - 1) []) (k + 1)) 0).dim 1,
        (fold (site (m.Q.getD (m.Q.length - 1) []) k) (-1) (site (m.Q.getD (m.Q.length - 1) []) (k + 1)) 0).dim 2, F.dim 2] := rfl
    rw [this]
    have e0 : F.dim 0 = a := by unfold dim; rw [f1]; rfl
    have e3 : F.dim 2 = b := by unfold dim; rw [f1]; rfl
    have e1 : (fold (site (m.Q.getD (m.Q.length - 1) []) k) (-1) (site (m.Q.getD (m.Q.length - 1) []) (k + 1)) 0).dim 1 = d := by
      unfold dim; rw [g1]; rfl
    have e2 : (fold (site (m.Q.getD (m.Q.length - 1) []) k) (-1) (site (m.Q.getD (m.Q.length - 1) []) (k + 1)) 0).dim 2 = d' := by
      unfold dim; rw [g1]; rfl
    rw [e0, e1, e2, e3]
  refine ⟨by rw [hX]; rfl, fun A B g g0 hA hB => ?_⟩
  rw [inner_superpose_right]
  have e : ∀ I, IsCfg [a, d, d', b] I → star (joined g A B I) * (m.next2 k).get I =
      ∑ n ∈ Finset.range m.Q.length, m.weights.getD n 0 * (star (joined g A B I) * (G n).get [I.getD 0 0, I.getD 1 0 + d * I.getD 2 0, I.getD 3 0]) := by
    intro I hI
    match I, hI with
    | [x, i, j, y], hI =>
      obtain ⟨hx, hI⟩ := isCfg_cons.1 hI
      obtain ⟨hi, hI⟩ := isCfg_cons.1 hI
      obtain ⟨hj, hI⟩ := isCfg_cons.1 hI
      obtain ⟨hy, -⟩ := isCfg_cons.1 hI
      have : (m.next2 k).get [x, i, j, y] = F.get [x, i + d * j, y] := by
        rw [hX]
        apply reshape_get
        · rw [f1]; exact .cons hx (.cons (add_mul_lt hi hj) (.cons hy .nil))
        · rw [f1]; simp only [flat]; ring
      rw [this, f2, Finset.mul_sum]
      refine Finset.sum_congr rfl fun n _ => ?_
      simp only [smul, List.getD_cons_zero, List.getD_cons_succ]
      ring
  rw [sumCfg_congr e, sumCfg_sum]
  refine Finset.sum_congr rfl fun n hn => ?_
  rw [(key n (Finset.mem_range.1 hn)).2 A B g g0 hA hB, ← sumCfg_mul_left]

end MPS.Simp
