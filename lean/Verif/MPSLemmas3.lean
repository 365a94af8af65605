import Verif.MPSLemmas2

set_option linter.unusedSectionVars false
set_option linter.unusedSimpArgs false

/-! # Helper lemmas for `expected_vector` and the matrix of correlators -/

namespace MPS
open Tensor
variable {R : Type} [CommRing R] [StarRing R]

theorem propAllRight_append (M : Tensor R) (l1 l2 : Trip R) :
    propAllRight M (l1 ++ l2) = propAllRight (propAllRight M l1) l2 := by
  induction l1 generalizing M with
  | nil => rfl
  | cons x l ih => obtain ⟨q, p, o⟩ := x; simp [propAllRight, ih]

theorem propClose2_transfer {L Rt : Tensor R} {Q1 P1 Q2 P2 : List (Tensor R)} {ds es : List Nat}
    {a b c e : Nat} (hL : IsTransfer L Q1 P1 ds a b c e) (hR : IsTransfer Rt Q2 P2 es c e a b)
    (hQ1 : WF a Q1 ds c) (hP1 : WF b P1 ds e) (hQ2 : WF c Q2 es a) (hP2 : WF e P2 es b)
    (ha : 0 < a) (hb : 0 < b) (hQn : Q1 ≠ []) (hPn : P1 ≠ []) :
    (propClose2 L Rt).lin 0 = inner (ds ++ es) (amp (Q1 ++ Q2)) (amp (P1 ++ P2)) := by
  have hc := hQ1.pos_right ha
  have he := hP1.pos_right hb
  have hLne := hL.notEmpty ha hb hc he
  have hRne := hR.notEmpty hc he ha hb
  have h0 : Rt.dim 0 = c := by simp [dim, hR.1]
  have h1 : Rt.dim 1 = e := by simp [dim, hR.1]
  have h2 : Rt.dim 2 = a := by simp [dim, hR.1]
  have h3 : Rt.dim 3 = b := by simp [dim, hR.1]
  simp only [propClose2, hLne, hRne, h0, h1, h2, h3, if_false, Bool.false_eq_true, mmult, lin, fold,
    reshape_dims]
  simp only [List.length_cons, List.length_nil, nrm_zero, nrm_neg1, Nat.reduceAdd,
          Nat.reduceSub, Nat.zero_add, List.getD_cons_succ, List.getD_cons_zero, List.eraseIdx,
          List.cons_append, List.nil_append, unflat, Nat.zero_mod, Nat.zero_div, List.take, List.drop,
          List.insertIdx_succ_cons, List.insertIdx_zero]
  rw [show a * b * c * e = (a * b) * (c * e) by ring, sum_range_mul, sum_range_mul]
  have key : ∀ w ∈ Finset.range e, ∀ z ∈ Finset.range c,
      (∑ k ∈ Finset.range (a * b), (L.reshape [1, a * b * (c * e)]).get [0, k + a * b * (z + c * w)] *
        (((Rt.reshape [c * e, a * b]).transpose).reshape [a * b * (c * e), 1]).get
          [k + a * b * (z + c * w), 0])
      = ∑ y ∈ Finset.range b, ∑ x ∈ Finset.range a,
          L.get [x, y, z, w] * Rt.get [z, w, x, y] := by
    intro w hw z hz
    rw [sum_range_mul]
    refine Finset.sum_congr rfl fun y hy => Finset.sum_congr rfl fun x hx => ?_
    rw [Finset.mem_range] at hw hz hx hy
    rw [reshape_get (A := L) (idx := [x, y, z, w])]
    · congr 1
      rw [reshape_get (A := (Rt.reshape [c * e, a * b]).transpose) (idx := [x + a * y, z + c * w])]
      · simp only [transpose, permute, swapIdx, nrm_zero, nrm_one, List.getD_cons_zero,
          List.getD_cons_succ, List.set_cons_zero, List.set_cons_succ]
        rw [reshape_get (A := Rt) (idx := [z, w, x, y])]
        · simp [hR.1, *]
        · simp only [hR.1, flat]; ring
      · simp only [transpose, permute, swapIdx, nrm_zero, nrm_one, List.getD_cons_zero,
          List.getD_cons_succ, List.set_cons_zero, List.set_cons_succ, reshape_dims, inB_cons, inB_nil,
          and_true]
        exact ⟨add_mul_lt hx hy, add_mul_lt hz hw⟩
      · simp only [transpose, permute, swapIdx, nrm_zero, nrm_one, List.getD_cons_zero,
          List.getD_cons_succ, List.set_cons_zero, List.set_cons_succ, reshape_dims, flat]
        ring
    · simp [hL.1, *]
    · simp only [hL.1, flat]; ring
  rw [Finset.sum_congr rfl fun w hw => Finset.sum_congr rfl (key w hw)]
  have hQ := hQ1.append hQ2
  have hP := hP1.append hP2
  unfold inner
  rw [sumCfg_append]
  have h4 : ∀ s, IsCfg ds s →
      sumCfg es (fun t => star (amp (Q1 ++ Q2) (s ++ t)) * amp (P1 ++ P2) (s ++ t))
      = ∑ w ∈ Finset.range e, ∑ z ∈ Finset.range c, ∑ y ∈ Finset.range b, ∑ x ∈ Finset.range a,
        (star (path Q1 s x z) * path P1 s y w) *
          sumCfg es (fun t => star (path Q2 t z x) * path P2 t w y) := by
    intro s hs
    simp only [← sumCfg_mul_left, ← sumCfg_sum]
    refine sumCfg_congr fun t _ => ?_
    rw [amp_of_WF hQ (by simp [hQn]), amp_of_WF hP (by simp [hPn])]
    have e1 : ∀ x ∈ Finset.range a, path (Q1 ++ Q2) (s ++ t) x x
        = ∑ z ∈ Finset.range c, path Q1 s x z * path Q2 t z x := fun x hx =>
      path_append hQ1 (by rw [hs.length, hQ1.length]) (Finset.mem_range.1 hx)
    have e2 : ∀ y ∈ Finset.range b, path (P1 ++ P2) (s ++ t) y y
        = ∑ w ∈ Finset.range e, path P1 s y w * path P2 t w y := fun y hy =>
      path_append hP1 (by rw [hs.length, hP1.length]) (Finset.mem_range.1 hy)
    rw [Finset.sum_congr rfl e1, Finset.sum_congr rfl e2]
    rw [Finset.sum_comm (s := Finset.range a), Finset.sum_comm (s := Finset.range b), star_sum,
      Finset.sum_mul_sum, Finset.sum_comm]
    refine Finset.sum_congr rfl fun w _ => Finset.sum_congr rfl fun z _ => ?_
    rw [star_sum, Finset.sum_mul_sum, Finset.sum_comm]
    refine Finset.sum_congr rfl fun y _ => Finset.sum_congr rfl fun x _ => ?_
    rw [star_mul']; ring
  rw [sumCfg_congr h4]
  simp only [sumCfg_sum]
  refine Finset.sum_congr rfl fun w hw => Finset.sum_congr rfl fun z hz =>
    Finset.sum_congr rfl fun y hy => Finset.sum_congr rfl fun x hx => ?_
  rw [Finset.mem_range] at hw hz hx hy
  rw [sumCfg_mul_right, hL.2 _ _ _ _ hx hy hz hw, hR.2 _ _ _ _ hz hw hx hy]

theorem Trip.bras_append (l1 l2 : Trip R) : Trip.bras (l1 ++ l2) = l1.bras ++ l2.bras := by
  simp [Trip.bras]
theorem Trip.kets_append (l1 l2 : Trip R) : Trip.kets (l1 ++ l2) = l1.kets ++ l2.kets := by
  simp [Trip.kets]
theorem Trip.acted_append (l1 l2 : Trip R) : Trip.acted (l1 ++ l2) = l1.acted ++ l2.acted := by
  simp [Trip.acted]

/-- meeting in the middle: any split of the chain closes to the same scalar product -/
theorem close2_split {l1 l2 : Trip R} {ds : List Nat} {a b : Nat} (hne : l1 ≠ [])
    (hq : WF a (Trip.bras (l1 ++ l2)) ds a) (hp : WF b (Trip.kets (l1 ++ l2)) ds b)
    (ho : Trip.OpsOk ds (l1 ++ l2)) :
    (propClose2 (propAllRight Tensor.empty l1) (propAllLeft Tensor.empty l2)).lin 0
      = inner ds (amp (Trip.bras (l1 ++ l2))) (amp (Trip.acted (l1 ++ l2))) := by
  by_cases hl2 : l2 = []
  · subst hl2
    simp only [List.append_nil] at *
    have : propAllLeft Tensor.empty ([] : Trip R) = Tensor.empty := rfl
    rw [this]
    simp only [propClose2, empty_isEmpty, if_true]
    exact close_right hne hq hp ho
  · rw [Trip.bras_append] at hq
    rw [Trip.kets_append] at hp
    obtain ⟨ds1, ds2, c, rfl, hq1, hq2⟩ := hq.split
    obtain ⟨es1, es2, e, hde, hp1, hp2⟩ := hp.split
    have hlen : ds1.length = es1.length := by
      rw [← hq1.length, ← hp1.length]; simp [Trip.bras, Trip.kets]
    obtain ⟨rfl, rfl⟩ := List.append_inj hde hlen
    have hl1 : ds1.length = l1.length := by rw [← hq1.length]; simp [Trip.bras]
    have ho1 : Trip.OpsOk ds1 l1 := by
      have := List.forall₂_take l1.length ho
      simpa [Trip.OpsOk, List.take_append, hl1] using this
    have ho2 : Trip.OpsOk ds2 l2 := by
      have := List.forall₂_drop l1.length ho
      simpa [Trip.OpsOk, List.drop_append, hl1] using this
    rw [Trip.bras_append, Trip.acted_append]
    have ha : 0 < a := by
      cases l1 with
      | nil => exact absurd rfl hne
      | cons x l => cases hq1 with | cons _ h _ _ _ => exact h
    have hb : 0 < b := by
      cases l1 with
      | nil => exact absurd rfl hne
      | cons x l => cases hp1 with | cons _ h _ _ _ => exact h
    exact propClose2_transfer (propAllRight_empty hne hq1 hp1 ho1)
      (propAllLeft_empty hl2 hq2 hp2 ho2) hq1 (Trip.acted_WF hp1 ho1) hq2 (Trip.acted_WF hp2 ho2)
      ha hb (by simpa [Trip.bras] using hne) (by simpa [Trip.acted] using hne)

/-- triples of an expected value in state `a`, with operator `f k` on site `k` -/
def trips (a : List (Tensor R)) (f : Nat → Option (Tensor R)) : Trip R :=
  (List.range a.length).map fun k => (site a k, site a k, f k)

theorem trips_length (a : List (Tensor R)) (f : Nat → Option (Tensor R)) :
    (trips a f).length = a.length := by simp [trips]

theorem trips_take_congr (a : List (Tensor R)) (f g : Nat → Option (Tensor R)) (n : Nat)
    (h : ∀ k, k < n → f k = g k) : (trips a f).take n = (trips a g).take n := by
  apply List.ext_getElem
  · simp [trips]
  · intro i h1 h2
    simp only [List.length_take] at h1
    simp [trips, h i (by omega)]

theorem trips_drop_congr (a : List (Tensor R)) (f g : Nat → Option (Tensor R)) (n : Nat)
    (h : ∀ k, n ≤ k → f k = g k) : (trips a f).drop n = (trips a g).drop n := by
  apply List.ext_getElem
  · simp [trips]
  · intro i h1 h2
    simp [trips, h (n + i) (by omega)]

theorem trips_take_succ (a : List (Tensor R)) (f : Nat → Option (Tensor R)) {n : Nat}
    (h : n < a.length) :
    (trips a f).take (n + 1) = (trips a f).take n ++ [(site a n, site a n, f n)] := by
  rw [List.take_add_one]
  congr 1
  simp [trips, h]

theorem trips_drop_cons (a : List (Tensor R)) (f : Nat → Option (Tensor R)) {n : Nat}
    (h : n < a.length) :
    (trips a f).drop n = (site a n, site a n, f n) :: (trips a f).drop (n + 1) := by
  rw [List.drop_eq_getElem_cons (by rw [trips_length]; exact h)]
  congr 1
  simp [trips]

theorem zip_trips (a : List (Tensor R)) :
    (a.zip a).map (fun x => (x.1, x.2, (none : Option (Tensor R)))) = trips a (fun _ => none) := by
  apply List.ext_getElem
  · simp [trips]
  · intro i h1 h2
    have h3 : i < a.length := by simpa [trips] using h2
    simp [trips, site, List.getElem?_eq_getElem h3]

theorem auxLefts_get (M : Tensor R) (l : List (Tensor R × Tensor R)) (i : Nat) (h : i ≤ l.length) :
    (auxLefts M l).getD i Tensor.empty
      = propAllRight M ((l.take i).map (fun x => (x.1, x.2, none))) := by
  induction l generalizing M i with
  | nil => simp at h; subst h; simp [auxLefts, propAllRight]
  | cons x l ih =>
    obtain ⟨q, p⟩ := x
    cases i with
    | zero => simp [auxLefts, propAllRight]
    | succ i =>
      have := ih (propMatrix M 1 q p none) i (by simpa using h)
      simpa [auxLefts, propAllRight] using this

theorem auxLefts_trips (a : List (Tensor R)) {i : Nat} (h : i < a.length) :
    (auxLefts Tensor.empty ((a.zip a).dropLast)).getD i Tensor.empty
      = propAllRight Tensor.empty ((trips a (fun _ => none)).take i) := by
  rw [auxLefts_get _ _ _ (by simp; omega), ← zip_trips, ← List.map_take]
  congr 2
  rw [List.dropLast_eq_take, List.take_take]
  congr 1
  simp; omega

theorem auxRights_get (a : List (Tensor R)) {i : Nat} (h : i < a.length) :
    (auxRights a a).getD i Tensor.empty
      = propAllLeft Tensor.empty ((trips a (fun _ => none)).drop (i + 1)) := by
  rw [← zip_trips, ← List.map_drop]
  simp [auxRights, h]

/-- value computed by closing at site `n` with operators `f` (identity beyond `n`) -/
theorem close_trips {ds : List Nat} {a : List (Tensor R)} (ha : IsMPS ds a)
    (f : Nat → Option (Tensor R)) (hf : ∀ i, i < ds.length → OpOk (ds.getD i 0) (f i)) {n : Nat}
    (hn : n < a.length) (hnone : ∀ k, n < k → f k = none) :
    (propClose2 (propAllRight Tensor.empty ((trips a f).take (n + 1)))
      (propAllLeft Tensor.empty ((trips a (fun _ => none)).drop (n + 1)))).lin 0
      = inner ds (amp a) (amp ((List.range a.length).map fun k => actT (f k) (site a k))) := by
  obtain ⟨hna, D, hW⟩ := ha
  rw [← trips_drop_congr a f (fun _ => none) (n + 1) (fun k hk => hnone k (by omega))]
  have hb : Trip.bras (trips a f) = a := by
    simp only [trips, Trip.bras, List.map_map]; exact map_site a
  have hk : Trip.kets (trips a f) = a := by
    simp only [trips, Trip.kets, List.map_map]; exact map_site a
  have hac : Trip.acted (trips a f) = (List.range a.length).map fun k => actT (f k) (site a k) := by
    simp only [trips, Trip.acted, List.map_map]; rfl
  have hcat := List.take_append_drop (n + 1) (trips a f)
  have := close2_split (l1 := (trips a f).take (n + 1)) (l2 := (trips a f).drop (n + 1)) (ds := ds)
    (a := D) (b := D) ?_ ?_ ?_ ?_
  · rw [this, hcat, hb, hac]
  · intro h
    have := congrArg List.length h
    rw [List.length_take, trips_length, List.length_nil] at this
    omega
  · rw [hcat, hb]; exact hW
  · rw [hcat, hk]; exact hW
  · rw [hcat]; exact ops_single hW.length.symm f hf

/-- spec values -/
theorem close_trips1 {ds : List Nat} {a : List (Tensor R)} (ha : IsMPS ds a) {op : Tensor R} {n : Nat}
    (hn : n < ds.length) (ho : op.dims = [ds.getD n 0, ds.getD n 0]) :
    (propClose2 (propMatrix (propAllRight Tensor.empty ((trips a (fun _ => none)).take n)) 1
        (site a n) (site a n) (some op))
      (propAllLeft Tensor.empty ((trips a (fun _ => none)).drop (n + 1)))).lin 0
      = inner ds (amp a) (actSite (ds.getD n 0) op n (amp a)) := by
  have hlen : a.length = ds.length := by obtain ⟨_, D, hW⟩ := ha; exact hW.length
  have hn' : n < a.length := by omega
  have h := close_trips ha (fun i => if i = n then some op else none) ?_ hn' ?_
  · rw [map_act_set, trips_take_succ _ _ hn', propAllRight_append] at h
    rw [trips_take_congr a _ (fun _ => none) n] at h
    · simp only [propAllRight, if_true] at h
      rw [h]
      exact inner_congr (fun _ _ => rfl) fun s hs => amp_set_act ha hn ho hs.length
    · intro k hk; simp; omega
  · intro i _ o h
    by_cases hi : i = n
    · subst hi; simp at h; subst h; exact ho
    · simp [hi] at h
  · intro k hk; simp; omega

theorem close_trips2 {ds : List Nat} {a : List (Tensor R)} (ha : IsMPS ds a) {op1 op2 : Tensor R}
    {i j : Nat} (hij : i < j) (hj : j < ds.length) (ho1 : op1.dims = [ds.getD i 0, ds.getD i 0])
    (ho2 : op2.dims = [ds.getD j 0, ds.getD j 0]) :
    (propClose2 (propMatrix
        (propAllRight Tensor.empty ((trips a (fun k => if k = i then some op1 else none)).take j)) 1
        (site a j) (site a j) (some op2))
      (propAllLeft Tensor.empty ((trips a (fun _ => none)).drop (j + 1)))).lin 0
      = inner ds (amp a) (actSite (ds.getD i 0) op1 i (actSite (ds.getD j 0) op2 j (amp a))) := by
  have hlen : a.length = ds.length := by obtain ⟨_, D, hW⟩ := ha; exact hW.length
  have hn' : j < a.length := by omega
  have h := close_trips ha
    (fun k => if k = i then some op1 else if k = j then some op2 else none) ?_ hn' ?_
  · rw [map_act_set2 _ _ _ (by omega), trips_take_succ _ _ hn', propAllRight_append] at h
    rw [trips_take_congr a _ (fun k => if k = i then some op1 else none) j] at h
    · have hji : j ≠ i := by omega
      simp only [propAllRight, hji, if_true, if_false] at h
      rw [h]
      refine inner_congr (fun _ _ => rfl) fun s hs => ?_
      rw [amp_set_act (ha.set_act ho2) (by omega) ho1 hs.length]
      refine Finset.sum_congr rfl fun t _ => ?_
      rw [amp_set_act ha hj ho2 (by simp [hs.length])]
    · intro k hk
      have : k ≠ j := by omega
      simp [this]
  · intro k _ o h
    by_cases hi : k = i
    · subst hi; simp at h; subst h; exact ho1
    · by_cases hi2 : k = j
      · subst hi2; simp [hi] at h; subst h; exact ho2
      · simp [hi, hi2] at h
  · intro k hk
    have h1 : k ≠ i := by omega
    have h2 : k ≠ j := by omega
    simp [h1, h2]

theorem actSite_comm {d1 d2 i j : Nat} (hij : i ≠ j) (op1 op2 : Tensor R) (φ : List Nat → R)
    (s : List Nat) :
    actSite d1 op1 i (actSite d2 op2 j φ) s = actSite d2 op2 j (actSite d1 op1 i φ) s := by
  have e1 : ∀ t, (s.set i t).getD j 0 = s.getD j 0 := by
    intro t; simp [List.getD_eq_getElem?_getD, List.getElem?_set_ne hij]
  have e2 : ∀ t, (s.set j t).getD i 0 = s.getD i 0 := by
    intro t; simp [List.getD_eq_getElem?_getD, List.getElem?_set_ne hij.symm]
  simp only [actSite, e1, e2, Finset.mul_sum]
  rw [Finset.sum_comm]
  refine Finset.sum_congr rfl fun t _ => Finset.sum_congr rfl fun u _ => ?_
  rw [List.set_comm _ _ hij]
  ring

theorem expVecLoop_spec (a ops : List (Tensor R)) (aux : List (Tensor R)) (V : Nat → R) :
    ∀ (n : Nat) (out : List R), n ≤ a.length →
    (∀ i, i < n → (propClose2 (propMatrix (aux.getD i Tensor.empty) 1 (site a i) (site a i)
        (some (site ops i))) (propAllLeft Tensor.empty ((trips a (fun _ => none)).drop (i + 1)))).lin 0
      = V i) →
    expVecLoop a a ops aux n (propAllLeft Tensor.empty ((trips a (fun _ => none)).drop n)) out
      = (List.range n).map V ++ out
  | 0, out, _, _ => by simp [expVecLoop]
  | n + 1, out, hn, hV => by
    have h := trips_drop_cons a (fun _ => (none : Option (Tensor R))) (n := n) (by omega)
    have ih := expVecLoop_spec a ops aux V n
      (V n :: out) (by omega) (fun i hi => hV i (by omega))
    rw [h] at ih
    simp only [propAllLeft, List.foldr_cons] at ih
    simp only [expVecLoop]
    rw [hV n (by omega)]
    simp only [propAllLeft]
    rw [ih, List.range_succ, List.map_append]
    simp

theorem corrInner1_spec (a op2 auxR : List (Tensor R)) (g : Nat → Option (Tensor R)) (i : Nat)
    (V : Nat → R) :
    ∀ (m j : Nat) (out : Nat → Nat → R), i < j → j + m ≤ a.length → (∀ k, i < k → g k = none) →
    (∀ k, j ≤ k → k < j + m → (propClose2 (propMatrix
        (propAllRight Tensor.empty ((trips a g).take k)) 1 (site a k) (site a k)
        (some (site op2 k))) (auxR.getD k Tensor.empty)).lin 0 = V k) →
    ∀ p q, corrInner1 a a op2 auxR none i (List.range' j m)
        (propAllRight Tensor.empty ((trips a g).take j)) out p q
      = if p = i ∧ j ≤ q ∧ q < j + m then V q
        else if q = i ∧ j ≤ p ∧ p < j + m then star (V p) else out p q
  | 0, j, out, _, _, _, _, p, q => by
    simp only [List.range'_zero, corrInner1]
    rw [if_neg (by omega), if_neg (by omega)]
  | m + 1, j, out, hij, hm, hg, hV, p, q => by
    have hstep : propMatrix (propAllRight Tensor.empty ((trips a g).take j)) 1 (site a j) (site a j)
        none = propAllRight Tensor.empty ((trips a g).take (j + 1)) := by
      rw [trips_take_succ _ _ (by omega), propAllRight_append, hg j hij]; rfl
    simp only [List.range'_succ, corrInner1, hstep]
    rw [hV j (le_refl _) (by omega)]
    rw [corrInner1_spec a op2 auxR g i V m (j + 1) _ (by omega) (by omega) hg
      (fun k h1 h2 => hV k (by omega) (by omega))]
    simp only [updM]
    by_cases h1 : p = i
    · subst h1
      have hpj : p ≠ j := by omega
      by_cases h2 : q = j
      · subst h2; simp [hpj]; omega
      · by_cases h3 : j + 1 ≤ q ∧ q < j + 1 + m
        · rw [if_pos ⟨rfl, h3⟩, if_pos ⟨rfl, by omega, by omega⟩]
        · rw [if_neg (by tauto), if_neg (by omega), if_neg (by simp [hpj]), if_neg (by simp [h2]),
            if_neg (by omega), if_neg (by omega)]
    · rw [if_neg (by tauto)]
      conv_rhs => rw [if_neg (by tauto)]
      by_cases h2 : q = i
      · subst h2
        by_cases h3 : p = j
        · subst h3
          rw [if_neg (by omega), if_pos ⟨rfl, rfl⟩, if_pos ⟨rfl, by omega, by omega⟩]
        · by_cases h4 : j + 1 ≤ p ∧ p < j + 1 + m
          · rw [if_pos ⟨rfl, h4⟩, if_pos ⟨rfl, by omega, by omega⟩]
          · rw [if_neg (by tauto), if_neg (by tauto), if_neg (by tauto), if_neg (by omega)]
      · rw [if_neg (by tauto), if_neg (by tauto), if_neg (by tauto), if_neg (by tauto)]

theorem corrInner2_spec (a op1 auxR : List (Tensor R)) (g : Nat → Option (Tensor R)) (i : Nat)
    (V : Nat → R) :
    ∀ (m j : Nat) (out : Nat → Nat → R), i < j → j + m ≤ a.length → (∀ k, i < k → g k = none) →
    (∀ k, j ≤ k → k < j + m → (propClose2 (propMatrix
        (propAllRight Tensor.empty ((trips a g).take k)) 1 (site a k) (site a k)
        (some (site op1 k))) (auxR.getD k Tensor.empty)).lin 0 = V k) →
    ∀ p q, corrInner2 a a op1 auxR none i (List.range' j m)
        (propAllRight Tensor.empty ((trips a g).take j)) out p q
      = if q = i ∧ j ≤ p ∧ p < j + m then V p else out p q
  | 0, j, out, _, _, _, _, p, q => by
    simp only [List.range'_zero, corrInner2]
    rw [if_neg (by omega)]
  | m + 1, j, out, hij, hm, hg, hV, p, q => by
    have hstep : propMatrix (propAllRight Tensor.empty ((trips a g).take j)) 1 (site a j) (site a j)
        none = propAllRight Tensor.empty ((trips a g).take (j + 1)) := by
      rw [trips_take_succ _ _ (by omega), propAllRight_append, hg j hij]; rfl
    simp only [List.range'_succ, corrInner2, hstep]
    rw [hV j (le_refl _) (by omega)]
    rw [corrInner2_spec a op1 auxR g i V m (j + 1) _ (by omega) (by omega) hg
      (fun k h1 h2 => hV k (by omega) (by omega))]
    simp only [updM]
    by_cases h2 : q = i
    · subst h2
      by_cases h3 : p = j
      · subst h3
        rw [if_neg (by omega), if_pos ⟨rfl, rfl⟩, if_pos ⟨rfl, by omega, by omega⟩]
      · by_cases h4 : j + 1 ≤ p ∧ p < j + 1 + m
        · rw [if_pos ⟨rfl, h4⟩, if_pos ⟨rfl, by omega, by omega⟩]
        · rw [if_neg (by tauto), if_neg (by tauto), if_neg (by omega)]
    · rw [if_neg (by tauto), if_neg (by tauto), if_neg (by tauto)]

theorem OpsFor.get {ds : List Nat} {ops : List (Tensor R)} (h : OpsFor ds ops) {i : Nat}
    (hi : i < ds.length) : (site ops i).dims = [ds.getD i 0, ds.getD i 0] := by
  unfold OpsFor at h
  have hl := h.length_eq
  have := (List.forall₂_iff_get.1 h).2 i hi (by omega)
  have h2 : i < ops.length := by omega
  simpa [site, List.getElem?_eq_getElem hi, List.getElem?_eq_getElem h2] using this

section corr
variable {ds : List Nat} {a op1 op2 : List (Tensor R)}

theorem take_single_op (a : List (Tensor R)) {i : Nat} (hi : i < a.length) (o : Tensor R) :
    propMatrix (propAllRight Tensor.empty ((trips a (fun _ => none)).take i)) 1 (site a i) (site a i)
      (some o)
    = propAllRight Tensor.empty ((trips a (fun k => if k = i then some o else none)).take (i + 1)) := by
  rw [trips_take_succ _ _ hi, propAllRight_append,
    trips_take_congr a (fun k => if k = i then some o else none) (fun _ => none) i
      (fun k hk => by simp; omega)]
  simp [propAllRight]

theorem corrOuter1_spec (ha : IsMPS ds a) (h1 : OpsFor ds op1) (h2 : OpsFor ds op2) {i : Nat}
    (hi : i < ds.length) (out : Nat → Nat → R) (p q : Nat) (hq : q < ds.length) (hpq : p ≤ q) :
    corrOuter1 a a op1 op2 (auxLefts Tensor.empty ((a.zip a).dropLast)) (auxRights a a) none out i p q
      = if p = i then corr ds (amp a) (site op1 i) i (site op2 q) q else out p q := by
  have hlen : a.length = ds.length := by obtain ⟨_, D, hW⟩ := ha; exact hW.length
  have hd1 := h1.get hi
  have hd2 := h2.get hi
  simp only [corrOuter1]
  rw [auxLefts_trips a (by omega), take_single_op a (by omega)]
  rw [corrInner1_spec a op2 (auxRights a a) (fun k => if k = i then some (site op1 i) else none) i
    (fun k => corr ds (amp a) (site op1 i) i (site op2 k) k) (a.length - (i + 1)) (i + 1) _
    (by omega) (by omega) (fun k hk => by simp; omega)]
  · rw [auxRights_get a (by omega),
      close_trips1 ha hi (by simp [mmult, fold, hd1, hd2])]
    by_cases hpi : p = i
    · subst hpi
      by_cases hqi : q = p
      · subst hqi
        rw [if_neg (by omega), if_neg (by omega)]
        simp only [updM, and_self, if_true, corr]
        exact inner_congr (fun _ _ => rfl) fun s hs =>
          actSite_mmult hd1 hd2 _ _ (by rw [hs.length]; exact hi)
      · rw [if_pos ⟨rfl, by omega, by omega⟩, if_pos rfl]
    · rw [if_neg (by tauto), if_neg (by omega), if_neg hpi]
      simp only [updM]
      rw [if_neg (by tauto)]
  · intro k hk1 hk2
    rw [auxRights_get a (by omega)]
    exact close_trips2 ha (by omega) (by omega) hd1 (h2.get (by omega))

theorem corrOuter2_spec (ha : IsMPS ds a) (h1 : OpsFor ds op1) (h2 : OpsFor ds op2) {i : Nat}
    (hi : i < ds.length) (out : Nat → Nat → R) (p q : Nat) (hp : p < ds.length) :
    corrOuter2 a a op1 op2 (auxLefts Tensor.empty ((a.zip a).dropLast)) (auxRights a a) none out i p q
      = if q = i ∧ q < p then corr ds (amp a) (site op1 p) p (site op2 q) q else out p q := by
  have hlen : a.length = ds.length := by obtain ⟨_, D, hW⟩ := ha; exact hW.length
  have hd1 := h1.get hi
  have hd2 := h2.get hi
  simp only [corrOuter2]
  rw [auxLefts_trips a (by omega), take_single_op a (by omega)]
  rw [corrInner2_spec a op1 (auxRights a a) (fun k => if k = i then some (site op2 i) else none) i
    (fun k => corr ds (amp a) (site op1 k) k (site op2 i) i) (a.length - (i + 1)) (i + 1) _
    (by omega) (by omega) (fun k hk => by simp; omega)]
  · by_cases hqi : q = i
    · subst hqi
      by_cases hqp : q < p
      · rw [if_pos ⟨rfl, by omega, by omega⟩, if_pos ⟨rfl, hqp⟩]
      · rw [if_neg (by omega), if_neg (by omega)]
    · rw [if_neg (by tauto), if_neg (by tauto)]
  · intro k hk1 hk2
    rw [auxRights_get a (by omega)]
    rw [close_trips2 ha (by omega) (by omega) hd2 (h1.get (by omega))]
    exact inner_congr (fun _ _ => rfl) fun s hs => actSite_comm (by omega) _ _ _ _

theorem foldl_outer1 (ha : IsMPS ds a) (h1 : OpsFor ds op1) (h2 : OpsFor ds op2) (n : Nat)
    (hn : n ≤ ds.length) (p q : Nat) (hp : p < n) (hq : q < ds.length) (hpq : p ≤ q) :
    (List.range n).foldl (corrOuter1 a a op1 op2 (auxLefts Tensor.empty ((a.zip a).dropLast))
      (auxRights a a) none) (fun _ _ => 0) p q = corr ds (amp a) (site op1 p) p (site op2 q) q := by
  induction n with
  | zero => omega
  | succ n ih =>
    rw [List.range_succ, List.foldl_append, List.foldl_cons, List.foldl_nil,
      corrOuter1_spec ha h1 h2 (by omega) _ _ _ hq hpq]
    by_cases h : p = n
    · subst h; rw [if_pos rfl]
    · rw [if_neg h]; exact ih (by omega) (by omega)

theorem foldl_outer2 (ha : IsMPS ds a) (h1 : OpsFor ds op1) (h2 : OpsFor ds op2) (n : Nat)
    (hn : n ≤ ds.length) (out : Nat → Nat → R) (p q : Nat) (hp : p < ds.length) :
    (List.range n).foldl (corrOuter2 a a op1 op2 (auxLefts Tensor.empty ((a.zip a).dropLast))
      (auxRights a a) none) out p q
      = if q < n ∧ q < p then corr ds (amp a) (site op1 p) p (site op2 q) q else out p q := by
  induction n with
  | zero => simp
  | succ n ih =>
    rw [List.range_succ, List.foldl_append, List.foldl_cons, List.foldl_nil,
      corrOuter2_spec ha h1 h2 (by omega) _ _ _ hp, ih (by omega)]
    by_cases h : q = n
    · subst h
      by_cases h' : q < p
      · rw [if_pos ⟨rfl, h'⟩, if_pos ⟨by omega, h'⟩]
      · rw [if_neg (by tauto), if_neg (by tauto), if_neg (by tauto)]
    · rw [if_neg (by tauto)]
      by_cases h' : q < n ∧ q < p
      · rw [if_pos h', if_pos ⟨by omega, h'.2⟩]
      · rw [if_neg h', if_neg (by omega)]

end corr
end MPS
