import Verif.FormLemmas2
import Verif.MPSNorm
import Mathlib.NumberTheory.Zsqrtd.GaussianInt

set_option linter.unusedSectionVars false
set_option linter.unusedSimpArgs false

/-! # C49, C50: linear forms -/

namespace MPS.Props
open MPS Tensor Form
variable {R : Type} [CommRing R] [StarRing R]

theorem inner_superpose {ds : List Nat} (w : List R) (bras : List (List (Tensor R))) (χ : List Nat → R) :
    MPS.inner ds (superpose w bras) χ =
      ∑ n ∈ Finset.range bras.length, star (w.getD n 0) * MPS.inner ds (amp (bras.getD n [])) χ := by
  unfold MPS.inner superpose
  rw [← Finset.sum_congr rfl fun n _ => sumCfg_mul_left ds (star (w.getD n 0)) _, ← sumCfg_sum]
  refine sumCfg_congr fun s _ => ?_
  rw [star_sum, Finset.sum_mul]
  refine Finset.sum_congr rfl fun n _ => ?_
  rw [star_mul']; ring

theorem getD_mem {α : Type} {l : List α} {n : Nat} (h : n < l.length) (d : α) : l.getD n d ∈ l := by
  rw [List.getD_eq_getElem _ _ h]; exact List.getElem_mem h

/-- the vector of a linear form whose matrices are up to date -/
theorem lgood_single {ds : List Nat} {weight : List R} {bras : List (List (Tensor R))} {f : LForm R}
    (hne : bras ≠ []) (hb : ∀ b ∈ bras, WF 1 b ds 1) {l r : List (Tensor R)} {D E : Nat}
    (hg : LGood ds weight bras f (l, r)) (hl : WF 1 l (ds.take l.length) D) (hr : WF E r (ds.drop (l.length + 1)) 1) :
    let d := ds.getD l.length 0
    f.here = l.length ∧ f.singleSiteVector.dims = [D, d, E] ∧
    ∀ X : Tensor R, X.dims = [D, d, E] →
      sumCfg [D, d, E] (fun i => f.singleSiteVector.get i * X.get i) =
        MPS.inner ds (superpose weight bras) (amp (l ++ X :: r)) := by
  intro d
  have hbl : ∀ b ∈ bras, b.length = ds.length := fun b h => (hb b h).length
  have hhere : f.here = l.length := hg.here
  obtain ⟨K, hI, hKl, hKr⟩ := hg
  simp only at hKl hKr
  have hN : l.length < ds.length := hhere ▸ hI.here
  have hd : ds.drop l.length = d :: ds.drop (l.length + 1) := by
    rw [List.drop_eq_getElem_cons hN]; simp [d, hN]
  have hds : ds.take l.length ++ ([d] ++ ds.drop (l.length + 1)) = ds := by
    rw [List.singleton_append, ← hd, List.take_append_drop]
  have hD0 : 0 < D := hl.pos_right (by omega)
  have hE0 : 0 < E := WF.pos_left hr (by omega)
  -- one bra
  have hone : ∀ n, n < bras.length →
      (lfCompose ((f.mat.getD n []).getD f.here Tensor.empty)
        (conj (smul (weight.getD n 0) (site (bras.getD n []) f.here)))
        ((f.mat.getD n []).getD (f.here + 1) Tensor.empty)).dims = [D, d, E] ∧ 0 < d ∧
      ∀ X : Tensor R, X.dims = [D, d, E] → sumCfg [D, d, E] (fun i =>
        (lfCompose ((f.mat.getD n []).getD f.here Tensor.empty)
        (conj (smul (weight.getD n 0) (site (bras.getD n []) f.here)))
        ((f.mat.getD n []).getD (f.here + 1) Tensor.empty)).get i * X.get i) =
        star (weight.getD n 0) * MPS.inner ds (amp (bras.getD n [])) (amp (l ++ X :: r)) := by
    intro n hn
    have hQ := hb _ (getD_mem hn [])
    obtain ⟨a, q1, q23⟩ := WF.cut hQ (j := l.length) (by omega)
    have hQlen : (bras.getD n []).length = ds.length := hQ.length
    rw [drop_site (by omega), hd] at q23
    obtain ⟨a', q3, q2, ha, hd0, ha'⟩ := WF.cons_inv q23
    have hLe := hI.left n hn f.here le_rfl (by omega)
    have hRi := hI.right n hn (f.here + 1) (by omega) (by omega)
    rw [hKl, hhere] at hLe
    rw [hKr, hhere] at hRi
    rw [hhere]
    have tL := hLe.env q1 hl
    have tR := hRi.env q3 hr
    have hPd : (conj (smul (weight.getD n 0) (site (bras.getD n []) l.length))).dims = a :: ([d] ++ [a']) := by
      simpa [conj, smul] using q2
    refine ⟨lfCompose_dims tL.1 hPd tR.1, hd0, fun X hX => ?_⟩
    have wX : WF D [X] [d] E := WF.cons hX hD0 hd0 hE0 (WF.nil E)
    have wB : WF a [site (bras.getD n []) l.length] [d] a' := WF.cons q2 ha hd0 ha' (WF.nil a')
    have := sandwich tL tR q1 wB q3 hl wX hr (by simp) (weight.getD n 0) hPd (by
      intro x m x' hx hm hx'
      cases hm with
      | cons hi hm =>
        cases hm
        rw [path_single q2 hx']
        simp [conj, smul, mul_comm])
    rw [hds] at this
    have e : bras.getD n [] = (bras.getD n []).take l.length ++ ([site (bras.getD n []) l.length] ++ (bras.getD n []).drop (l.length + 1)) := by
      rw [List.singleton_append, ← drop_site (by omega), List.take_append_drop]
    rw [← e] at this
    rw [List.singleton_append] at this
    rw [← this]
    simp only [sumCfg_cons, sumCfg_nil]
    refine Finset.sum_congr rfl fun y hy => Finset.sum_congr rfl fun i hi => Finset.sum_congr rfl fun y' hy' => ?_
    rw [path_single hX (Finset.mem_range.1 hy')]
    rfl
  have hpos : 0 < bras.length := List.length_pos_iff.2 hne
  have hd0 : 0 < d := (hone 0 hpos).2.1
  have hfold := maybeAdd_fold (fun n => lfCompose ((f.mat.getD n []).getD f.here Tensor.empty)
        (conj (smul (weight.getD n 0) (site (bras.getD n []) f.here)))
        ((f.mat.getD n []).getD (f.here + 1) Tensor.empty)) [D, d, E] bras.length hpos (fun n hn => (hone n hn).1)
        (by simp; omega)
  have hV : f.singleSiteVector = (List.range bras.length).foldl (fun out n => maybeAdd out
      (lfCompose ((f.mat.getD n []).getD f.here Tensor.empty)
        (conj (smul (weight.getD n 0) (site (bras.getD n []) f.here)))
        ((f.mat.getD n []).getD (f.here + 1) Tensor.empty))) Tensor.empty := by
    unfold LForm.singleSiteVector; rw [hI.brasEq, hI.weightEq]
  refine ⟨hhere, by rw [hV]; exact hfold.1, fun X hX => ?_⟩
  rw [inner_superpose, ← Finset.sum_congr rfl fun n hn => (hone n (Finset.mem_range.1 hn)).2.2 X hX, ← sumCfg_sum]
  refine sumCfg_congr fun i _ => ?_
  rw [hV, hfold.2, Finset.sum_mul]

/-- **C49.**  A linear form for the bras `bras` with coefficients `weight`, built at any site, and then moved by any sequence
of `propagate_right(X)` / `propagate_left(X)`: it sits where the history leads (`l.length` tensors are to its left), and the
vector at that site, contracted with any tensor `X` put there, is the scalar product of the superposition of the bras with
the ket formed by the tensors of the history. -/
theorem C49_single_site_vector {ds : List Nat} {weight : List R} {bras : List (List (Tensor R))} {ket : List (Tensor R)} {start : Nat}
    (hne : bras ≠ []) (hb : ∀ b ∈ bras, WF 1 b ds 1) (hk : WF 1 ket ds 1) (hs : start < ds.length)
    (history : List (Move (Tensor R))) {l r : List (Tensor R)} {D E : Nat}
    (hh : history.foldl Move.after (ket.take start, ket.drop (start + 1)) = (l, r))
    (hl : WF 1 l (ds.take l.length) D) (hr : WF E r (ds.drop (l.length + 1)) 1) :
    let f := history.foldl LForm.move (LForm.new weight bras ket start)
    let d := ds.getD l.length 0
    f.here = l.length ∧ f.singleSiteVector.dims = [D, d, E] ∧
    ∀ X : Tensor R, X.dims = [D, d, E] →
      sumCfg [D, d, E] (fun i => f.singleSiteVector.get i * X.get i) =
        MPS.inner ds (superpose weight bras) (amp (l ++ X :: r)) := by
  intro f d
  have hbl : ∀ b ∈ bras, b.length = ds.length := fun b h => (hb b h).length
  have hg : LGood ds weight bras f (l, r) := by
    rw [← hh]; exact (LGood.new hbl hne hk.length hs).moves hbl hne history
  exact lgood_single hne hb hg hl hr

/-- the two-site vector of a linear form whose matrices are up to date -/
theorem lgood_pair {ds : List Nat} {weight : List R} {bras : List (List (Tensor R))} {f : LForm R}
    (hne : bras ≠ []) (hb : ∀ b ∈ bras, WF 1 b ds 1) {k : List (Tensor R) × List (Tensor R)} {l r : List (Tensor R)} {D E : Nat} (sense : Int)
    (hg : LGood ds weight bras f k) (hpair : HasPair sense k) (hlr : aroundPair sense k = (l, r))
    (hl : WF 1 l (ds.take l.length) D) (hr : WF E r (ds.drop (l.length + 2)) 1) :
    let d := ds.getD l.length 0
    let d' := ds.getD (l.length + 1) 0
    ∃ V, f.twoSiteVector sense = some V ∧ V.dims = [D, d, d', E] ∧
    ∀ (A B : Tensor R) (m : Nat), A.dims = [D, d, m] → B.dims = [m, d', E] →
      sumCfg [D, d, d', E] (fun i => V.get i * joined m A B i) =
        MPS.inner ds (superpose weight bras) (amp (l ++ A :: B :: r)) := by
  intro d d'
  unfold joined
  have hbl : ∀ b ∈ bras, b.length = ds.length := fun b h => (hb b h).length
  have hhere : f.here = k.1.length := hg.here
  obtain ⟨K, hI, hKl, hKr⟩ := hg
  have hsize := hI.size hbl hne
  have hherelt := hI.here
  have hlenK := hI.lenK
  -- the pair
  have hp : pairAt f.here f.size sense = some l.length ∧ l.length + 1 < ds.length ∧ l.length ≤ f.here ∧ f.here < l.length + 2 ∧
      K.take l.length = l ∧ K.drop (l.length + 2) = r := by
    unfold pairAt
    unfold HasPair at hpair
    unfold aroundPair at hlr
    by_cases hsn : sense > 0
    · rw [if_pos hsn] at hpair hlr ⊢
      obtain ⟨rfl, rfl⟩ := Prod.mk.inj hlr
      have h2 : f.here + 1 < ds.length := by
        by_contra h
        apply hpair
        rw [← hKr]; simp; omega
      rw [if_pos (by omega), ← hhere]
      refine ⟨rfl, h2, le_rfl, by omega, hKl, ?_⟩
      rw [← hKr, List.tail_drop]
    · rw [if_neg hsn] at hpair hlr ⊢
      obtain ⟨rfl, rfl⟩ := Prod.mk.inj hlr
      have h2 : 0 < k.1.length := List.length_pos_iff.2 hpair
      have h3 : k.1.dropLast.length = f.here - 1 := by simp [hhere]
      rw [if_pos (by omega), h3]
      refine ⟨rfl, by omega, by omega, by omega, ?_, ?_⟩
      · rw [← hKl, List.dropLast_take (by omega)]
      · rw [← hKr]; congr 1; omega
  obtain ⟨hpa, hN, hlo, hhi, hKl', hKr'⟩ := hp
  have hd : ds.drop l.length = d :: d' :: ds.drop (l.length + 2) := by
    rw [List.drop_eq_getElem_cons (by omega), List.drop_eq_getElem_cons (by omega)]
    simp [d, d', show l.length < ds.length by omega, hN]
  have hds : ds.take l.length ++ ([d, d'] ++ ds.drop (l.length + 2)) = ds := by
    rw [List.cons_append, List.singleton_append, ← hd, List.take_append_drop]
  have hD0 : 0 < D := hl.pos_right (by omega)
  have hE0 : 0 < E := WF.pos_left hr (by omega)
  -- one bra
  let G : Nat → Tensor R := fun n => lfCompose4 ((f.mat.getD n []).getD l.length Tensor.empty)
        (conj (smul (weight.getD n 0) (site (bras.getD n []) l.length)))
        (conj (site (bras.getD n []) (l.length + 1)))
        ((f.mat.getD n []).getD (l.length + 1 + 1) Tensor.empty)
  have hone : ∀ n, n < bras.length → (G n).dims = [D, d, d', E] ∧ 0 < d ∧ 0 < d' ∧
      ∀ (A B : Tensor R) (m : Nat), A.dims = [D, d, m] → B.dims = [m, d', E] → 0 < m → sumCfg [D, d, d', E] (fun i =>
        (G n).get i * ∑ c ∈ Finset.range m, A.get [i.getD 0 0, i.getD 1 0, c] * B.get [c, i.getD 2 0, i.getD 3 0]) =
        star (weight.getD n 0) * MPS.inner ds (amp (bras.getD n [])) (amp (l ++ A :: B :: r)) := by
    intro n hn
    have hQ := hb _ (getD_mem hn [])
    obtain ⟨a, q1, q23⟩ := WF.cut hQ (j := l.length) (by omega)
    have hQlen : (bras.getD n []).length = ds.length := hQ.length
    rw [drop_site (by omega), drop_site (by omega), hd] at q23
    obtain ⟨a1, q3', q2, ha, hd0, ha1⟩ := WF.cons_inv q23
    obtain ⟨a', q3, q2', _, hd0', ha'⟩ := WF.cons_inv q3'
    have hLe := hI.left n hn l.length hlo (by omega)
    have hRi := hI.right n hn (l.length + 2) hhi (by omega)
    rw [hKl'] at hLe
    rw [hKr'] at hRi
    have tL := hLe.env q1 hl
    have tR := hRi.env q3 hr
    have hB1 : (conj (smul (weight.getD n 0) (site (bras.getD n []) l.length))).dims = [a, d, a1] := by
      simpa [conj, smul] using q2
    have hB2 : (conj (site (bras.getD n []) (l.length + 1))).dims = [a1, d', a'] := by
      simpa [conj] using q2'
    have hPd : (fold (conj (smul (weight.getD n 0) (site (bras.getD n []) l.length))) (-1)
        (conj (site (bras.getD n []) (l.length + 1))) 0).dims = a :: ([d, d'] ++ [a']) := by
      simp only [fold, hB1, hB2]; simp
    refine ⟨lfCompose_dims tL.1 hPd tR.1, hd0, hd0', fun A B m hA hB hm => ?_⟩
    have wX : WF D [A, B] [d, d'] E := WF.cons hA hD0 hd0 hm (WF.cons hB hm hd0' hE0 (WF.nil E))
    have wB : WF a [site (bras.getD n []) l.length, site (bras.getD n []) (l.length + 1)] [d, d'] a' :=
      WF.cons q2 ha hd0 ha1 (WF.cons q2' ha1 hd0' ha' (WF.nil a'))
    have := sandwich tL tR q1 wB q3 hl wX hr (by simp) (weight.getD n 0) hPd (by
      intro x m x' hx hm hx'
      cases hm with
      | @cons i _ m _ hi hm =>
        cases hm with
        | @cons j _ m _ hj hm =>
        cases hm
        rw [path_cons, dim2_of q2, star_sum, Finset.mul_sum]
        simp only [fold, hB1, hB2]
        simp only [conj, smul, List.length_cons, List.length_nil, List.getD_cons_succ, List.getD_cons_zero]
        simp
        refine Finset.sum_congr rfl fun c hc => ?_
        have := path_single (i := j) (x := c) q2' hx'
        simp only [List.getD_eq_getElem?_getD] at this
        rw [this]
        ring)
    rw [hds] at this
    have e : bras.getD n [] = (bras.getD n []).take l.length ++ ([site (bras.getD n []) l.length, site (bras.getD n []) (l.length + 1)] ++ (bras.getD n []).drop (l.length + 2)) := by
      rw [List.cons_append, List.singleton_append, ← drop_site (by omega), ← drop_site (by omega), List.take_append_drop]
    rw [← e] at this
    rw [List.cons_append, List.singleton_append] at this
    rw [← this]
    simp only [sumCfg_cons, sumCfg_nil]
    refine Finset.sum_congr rfl fun y hy => Finset.sum_congr rfl fun i hi => Finset.sum_congr rfl fun j hj => Finset.sum_congr rfl fun y' hy' => ?_
    rw [path_cons, dim2_of hA]
    congr 1
    refine Finset.sum_congr rfl fun c hc => ?_
    rw [path_single hB (Finset.mem_range.1 hy')]
    rfl
  have hpos : 0 < bras.length := List.length_pos_iff.2 hne
  have hd0 : 0 < d := (hone 0 hpos).2.1
  have hd0' : 0 < d' := (hone 0 hpos).2.2.1
  have hfold := maybeAdd_fold G [D, d, d', E] bras.length hpos (fun n hn => (hone n hn).1) (by simp; omega)
  have hV : f.twoSiteVector sense = some ((List.range bras.length).foldl (fun out n => maybeAdd out (G n)) Tensor.empty) := by
    unfold LForm.twoSiteVector; rw [hpa, hI.brasEq, hI.weightEq]; rfl
  refine ⟨_, hV, hfold.1, fun A B m hA hB => ?_⟩
  rcases Nat.eq_zero_or_pos m with rfl | hm
  · -- a bond of dimension zero: both sides vanish
    simp only [Finset.range_zero, Finset.sum_empty, mul_zero, sumCfg_zero]
    symm
    unfold MPS.inner
    rw [← sumCfg_zero (R := R) ds]
    refine sumCfg_congr fun s hs => ?_
    have hlen : l.length ≤ ds.length := by omega
    have : amp (l ++ A :: B :: r) s = 0 := by
      unfold amp
      refine Finset.sum_eq_zero fun x _ => ?_
      have hsl : s.length = ds.length := hs.length
      have key : ∀ (l : List (Tensor R)) (s : List Nat) (x y : Nat), l.length < s.length → path (l ++ A :: B :: r) s x y = 0 := by
        intro l
        induction l with
        | nil =>
          intro s x y hl
          cases s with
          | nil => simp at hl
          | cons i s => simp [path_cons, dim2_of hA]
        | cons T l ih =>
          intro s x y hl
          cases s with
          | nil => simp at hl
          | cons i s =>
            rw [List.cons_append, path_cons]
            exact Finset.sum_eq_zero fun c _ => by rw [ih s c y (by simpa using hl), mul_zero]
      exact key l s x x (by omega)
    rw [this, mul_zero]
  · rw [inner_superpose, ← Finset.sum_congr rfl fun n hn => (hone n (Finset.mem_range.1 hn)).2.2.2 A B m hA hB hm, ← sumCfg_sum]
    refine sumCfg_congr fun i _ => ?_
    rw [hfold.2, Finset.sum_mul]

/-- **C50, two sites.**  `two_site_vector(sense)` is the same for the pair of the current site and the next one (`sense > 0`)
or the previous one (`sense ≤ 0`): contracted with the product of any two tensors `A`, `B` put on the pair it gives the
scalar product of the superposition with the ket.  There is a vector whenever there is such a pair. -/
theorem C50_two_site_vector {ds : List Nat} {weight : List R} {bras : List (List (Tensor R))} {ket : List (Tensor R)} {start : Nat}
    (hne : bras ≠ []) (hb : ∀ b ∈ bras, WF 1 b ds 1) (hk : WF 1 ket ds 1) (hs : start < ds.length)
    (history : List (Move (Tensor R))) {k : List (Tensor R) × List (Tensor R)} {l r : List (Tensor R)} {D E : Nat} (sense : Int)
    (hh : history.foldl Move.after (ket.take start, ket.drop (start + 1)) = k) (hpair : HasPair sense k) (hlr : aroundPair sense k = (l, r))
    (hl : WF 1 l (ds.take l.length) D) (hr : WF E r (ds.drop (l.length + 2)) 1) :
    let f := history.foldl LForm.move (LForm.new weight bras ket start)
    let d := ds.getD l.length 0
    let d' := ds.getD (l.length + 1) 0
    ∃ V, f.twoSiteVector sense = some V ∧ V.dims = [D, d, d', E] ∧
    ∀ (A B : Tensor R) (m : Nat), A.dims = [D, d, m] → B.dims = [m, d', E] →
      sumCfg [D, d, d', E] (fun i => V.get i * joined m A B i) =
        MPS.inner ds (superpose weight bras) (amp (l ++ A :: B :: r)) := by
  intro f d d'
  have hbl : ∀ b ∈ bras, b.length = ds.length := fun b h => (hb b h).length
  have hg : LGood ds weight bras f k := by
    rw [← hh]; exact (LGood.new hbl hne hk.length hs).moves hbl hne history
  exact lgood_pair hne hb sense hg hpair hlr hl hr

theorem inner_star' (ds : List Nat) (φ χ : List Nat → R) : star (MPS.inner ds φ χ) = MPS.inner ds χ φ := by
  unfold MPS.inner
  rw [sumCfg_star]
  refine sumCfg_congr fun s _ => ?_
  rw [star_mul', star_star, mul_comm]

theorem foldlM_sum {α : Type} (g : Nat → Option α) (h : R → Nat → α → R) (F : Nat → R) (n : Nat) (v : R)
    (hF : ∀ j, j < n → ∃ p, g j = some p ∧ ∀ v, h v j p = v + F j) :
    (List.range n).foldlM (fun v j => (g j).map (h v j)) v = some (v + ∑ j ∈ Finset.range n, F j) := by
  induction n with
  | zero => simp
  | succ n ih =>
    rw [List.range_succ, List.foldlM_append, ih fun j hj => hF j (by omega)]
    obtain ⟨p, h1, h2⟩ := hF n (by omega)
    simp only [Option.bind_eq_bind, Option.bind_some, List.foldlM_cons, List.foldlM_nil, h1, Option.map_some, h2, Finset.sum_range_succ]
    simp [add_assoc]

theorem sum_triangle (n : Nat) (x : Nat → Nat → R) :
    ∑ i ∈ Finset.range n, ∑ j ∈ Finset.range (i + 1), (if i ≠ j then x i j + x j i else x i j) =
      ∑ i ∈ Finset.range n, ∑ j ∈ Finset.range n, x i j := by
  induction n with
  | zero => simp
  | succ n ih =>
    rw [Finset.sum_range_succ, ih, Finset.sum_range_succ (fun i => ∑ j ∈ Finset.range (n + 1), x i j)]
    have : ∀ i, ∑ j ∈ Finset.range (n + 1), x i j = ∑ j ∈ Finset.range n, x i j + x i n := fun i => Finset.sum_range_succ _ _
    simp only [this, Finset.sum_add_distrib]
    rw [Finset.sum_range_succ]
    have e : ∑ j ∈ Finset.range n, (if n ≠ j then x n j + x j n else x n j) = ∑ j ∈ Finset.range n, (x n j + x j n) :=
      Finset.sum_congr rfl fun j hj => by rw [if_pos]; have := Finset.mem_range.1 hj; omega
    rw [e, Finset.sum_add_distrib]
    simp
    ring

/-- **C50, norm.**  The sum computed by `norm2()` is the scalar product of the superposition with itself. -/
theorem C50_norm_sum {ds : List Nat} {f : LForm R} (hb : ∀ b ∈ f.bras, IsMPS ds b) :
    f.normSum = some (MPS.inner ds (superpose f.weight f.bras) (superpose f.weight f.bras)) := by
  let w := fun n => f.weight.getD n 0
  let b := fun n => f.bras.getD n []
  let x : Nat → Nat → R := fun i j => star (w i) * w j * MPS.inner ds (amp (b i)) (amp (b j))
  have hsp : ∀ i j, i < f.bras.length → j < f.bras.length → scprod (b i) (b j) 1 = some (MPS.inner ds (amp (b i)) (amp (b j))) :=
    fun i j hi hj => scprod_spec (hb _ (getD_mem hi [])) (hb _ (getD_mem hj [])) 1
  have hst : ∀ i j, star (x i j) = x j i := by
    intro i j
    simp only [x]
    rw [star_mul', star_mul', star_star, inner_star']
    ring
  have inner1 : ∀ i, i < f.bras.length → ∀ v : R,
      (List.range (i + 1)).foldlM (fun v j => (scprod (f.bras.getD i []) (f.bras.getD j []) 1).map fun p =>
        let x := star (f.weight.getD i 0) * f.weight.getD j 0 * p
        if i ≠ j then v + x + star x else v + x) v =
      some (v + ∑ j ∈ Finset.range (i + 1), if i ≠ j then x i j + x j i else x i j) := by
    intro i hi v
    refine foldlM_sum (fun j => scprod (b i) (b j) 1) (fun v j p =>
        let x := star (f.weight.getD i 0) * f.weight.getD j 0 * p
        if i ≠ j then v + x + star x else v + x) _ _ v fun j hj => ⟨_, hsp i j hi (by omega), fun v => ?_⟩
    simp only
    rw [← hst i j]
    split
    · rw [← add_assoc]
    · rfl
  have outer : ∀ n, n ≤ f.bras.length → (List.range n).foldlM (fun v i =>
    (List.range (i + 1)).foldlM (fun v j => (scprod (f.bras.getD i []) (f.bras.getD j []) 1).map fun p =>
        let x := star (f.weight.getD i 0) * f.weight.getD j 0 * p
        if i ≠ j then v + x + star x else v + x) v) 0 =
      some (∑ i ∈ Finset.range n, ∑ j ∈ Finset.range (i + 1), if i ≠ j then x i j + x j i else x i j) := by
    intro n
    induction n with
    | zero => intro _; simp
    | succ n ih =>
      intro hn
      rw [List.range_succ, List.foldlM_append, ih (by omega)]
      simp only [Option.bind_eq_bind, Option.bind_some, List.foldlM_cons, List.foldlM_nil]
      rw [inner1 n (by omega), Finset.sum_range_succ (fun i => ∑ j ∈ Finset.range (i + 1), if i ≠ j then x i j + x j i else x i j)]
      rfl
  unfold LForm.normSum
  rw [outer _ le_rfl, sum_triangle, inner_superpose]
  congr 1
  refine Finset.sum_congr rfl fun i hi => ?_
  have e : MPS.inner ds (amp (b i)) (superpose f.weight f.bras) =
      ∑ j ∈ Finset.range f.bras.length, w j * MPS.inner ds (amp (b i)) (amp (b j)) := by
    unfold MPS.inner superpose
    rw [← Finset.sum_congr rfl fun n _ => sumCfg_mul_left ds (w n) _, ← sumCfg_sum]
    refine sumCfg_congr fun s _ => ?_
    rw [Finset.mul_sum]
    refine Finset.sum_congr rfl fun n _ => ?_
    ring
  rw [show MPS.inner ds (amp (f.bras.getD i [])) (superpose f.weight f.bras) = _ from e, Finset.mul_sum]
  refine Finset.sum_congr rfl fun j hj => ?_
  simp only [x, w]
  ring

/-- **C50, norm.**  `norm2()` is the norm of the superposition, `sqrt(∑_s |∑_n c_n φ_n(s)|²)`. -/
theorem C50_norm {K : Type} [RCLike K] {ds : List Nat} {f : LForm K} (hb : ∀ b ∈ f.bras, IsMPS ds b) :
    f.norm2 = some (Real.sqrt (sumCfg ds fun s => ‖superpose f.weight f.bras s‖ ^ 2)) := by
  unfold LForm.norm2
  rw [C50_norm_sum hb, Option.map_some, inner_self_ofReal]
  congr 2
  rw [RCLike.norm_ofReal, abs_of_nonneg]
  exact sumCfg_nonneg _ _ fun s _ => sq_nonneg _

end MPS.Props
