import Verif.MPSLemmas

set_option linter.unusedSectionVars false
set_option linter.unusedSimpArgs false

/-! # Helper lemmas for `mps_to_vector`, expected values, correlators -/

namespace MPS
open Tensor
variable {R : Type} [CommRing R]

theorem flat_append_single {ds s : List Nat} (h : s.length = ds.length) (d i : Nat) :
    flat (ds ++ [d]) (s ++ [i]) = flat ds s + ds.prod * i := by
  induction ds generalizing s with
  | nil => cases s with
    | nil => simp [flat]
    | cons _ _ => simp at h
  | cons e ds ih => cases s with
    | nil => simp at h
    | cons j s =>
      simp only [List.cons_append, flat, ih (by simpa using h), List.prod_cons]
      ring

theorem flat_lt {ds s : List Nat} (h : IsCfg ds s) : flat ds s < ds.prod := by
  induction h with
  | nil => simp [flat]
  | cons h1 _ ih => simpa [flat] using add_mul_lt h1 ih

theorem flat_surj : ∀ {ds : List Nat} {n : Nat}, n < ds.prod → ∃ s, IsCfg ds s ∧ flat ds s = n
  | [], n, h => ⟨[], List.Forall₂.nil, by simp at h; simp [flat, h]⟩
  | d :: ds, n, h => by
    have hd : 0 < d := by
      rcases Nat.eq_zero_or_pos d with rfl | h'
      · simp at h
      · exact h'
    have h1 : n / d < ds.prod := by
      apply Nat.div_lt_of_lt_mul; simpa using h
    obtain ⟨s, hs, hf⟩ := flat_surj h1
    exact ⟨n % d :: s, List.Forall₂.cons (Nat.mod_lt _ hd) hs, by simp [flat, hf, Nat.mod_add_div]⟩

theorem isCfg_split {ds es u : List Nat} (h : IsCfg (ds ++ es) u) :
    ∃ s t, u = s ++ t ∧ IsCfg ds s ∧ IsCfg es t := by
  induction ds generalizing u with
  | nil => exact ⟨[], u, rfl, List.Forall₂.nil, h⟩
  | cons d ds ih =>
    cases h with
    | cons h1 h2 =>
      obtain ⟨s, t, rfl, hs, ht⟩ := ih h2
      exact ⟨_ :: s, t, rfl, List.Forall₂.cons h1 hs, ht⟩

theorem isCfg_single {d : Nat} {t : List Nat} (h : IsCfg [d] t) : ∃ i, t = [i] ∧ i < d := by
  cases h with
  | cons h1 h2 => cases h2; exact ⟨_, rfl, h1⟩

theorem toVectorLoop_spec {As : List (Tensor R)} :
    ∀ {O : Tensor R} {Ps : List (Tensor R)} {ds es : List Nat} {d0 c b : Nat},
    O.dims = [d0, ds.prod, c] → WF d0 Ps ds c →
    (∀ s x y, IsCfg ds s → x < d0 → y < c → O.get [x, flat ds s, y] = path Ps s x y) →
    WF c As es b →
    (toVectorLoop d0 O As).dims = [d0, (ds ++ es).prod, b] ∧
    ∀ s x y, IsCfg (ds ++ es) s → x < d0 → y < b →
      (toVectorLoop d0 O As).get [x, flat (ds ++ es) s, y] = path (Ps ++ As) s x y := by
  induction As with
  | nil =>
    intro O Ps ds es d0 c b hO hW hg hA
    cases hA
    simpa [toVectorLoop, hO] using hg
  | cons A As ih =>
    intro O Ps ds es d0 c b hO hW hg hA
    cases hA with
    | @cons _ d e _ _ _ es h1 h2 h3 h4 h5 =>
      have ho : (fold O (-1) A 0).dims = [d0, ds.prod, d, e] := by simp [fold, hO, h1]
      have e1 : (fold O (-1) A 0).dim 1 = ds.prod := by simp [dim, ho]
      have e2 : (fold O (-1) A 0).dim 2 = d := by simp [dim, ho]
      have e3 : (fold O (-1) A 0).dim 3 = e := by simp [dim, ho]
      have := ih (O := reshape (fold O (-1) A 0) [d0, ds.prod * d, e]) (Ps := Ps ++ [A])
        (ds := ds ++ [d]) (es := es) (d0 := d0) (c := e) (b := b)
        (by simp) (hW.append (WF.single h1 h2 h3 h4)) ?_ h5
      · simpa [toVectorLoop, e1, e2, e3] using this
      · intro u x y hu hx hy
        obtain ⟨s, t, rfl, hs, ht⟩ := isCfg_split hu
        obtain ⟨i, rfl, hi⟩ := isCfg_single ht
        rw [flat_append_single hs.length,
          reshape_get (idx := [x, flat ds s, i, y]) (by simp [ho, *, flat_lt hs])
            (by simp only [ho, flat]; ring),
          path_append hW (by rw [hs.length, hW.length]) hx]
        simp only [fold, hO, h1]
        simp only [List.length_cons, List.length_nil, nrm_zero, nrm_neg1, Nat.reduceAdd,
          Nat.reduceSub, Nat.zero_add, List.getD_cons_succ, List.getD_cons_zero, List.take, List.drop,
          List.insertIdx_succ_cons, List.insertIdx_zero]
        refine Finset.sum_congr rfl fun z hz => ?_
        rw [hg s x z hs hx (Finset.mem_range.1 hz), path_single h1 hy]

theorem mpsToVector_spec {ψ : List (Tensor R)} {ds : List Nat} (h : IsMPS ds ψ) :
    ∃ v, mpsToVector ψ = some v ∧ v.dims = [ds.prod] ∧
      ∀ s, IsCfg ds s → v.get [flat ds s] = amp ψ s := by
  obtain ⟨hne, D, hW⟩ := h
  cases hW with
  | nil => exact absurd rfl hne
  | @cons _ d c _ A As ds h1 h2 h3 h4 h5 =>
    have hW' := WF.cons h1 h2 h3 h4 h5
    have key := toVectorLoop_spec (O := A) (Ps := [A]) (ds := [d]) (es := ds) (d0 := D)
      (c := c) (b := D) (As := As) (by simpa using h1) (WF.single h1 h2 h3 h4) ?_ h5
    · refine ⟨_, rfl, ?_, fun s hs => ?_⟩
      · simp [trace, dim0_of h1, key.1]
      · rw [amp_of_WF hW' hne]
        simp only [trace, dim0_of h1, key.1, List.getD_cons_zero]
        refine Finset.sum_congr rfl fun x hx => ?_
        have hx := Finset.mem_range.1 hx
        exact key.2 s x x hs hx hx
    · intro s x y hs hx hy
      obtain ⟨i, rfl, hi⟩ := isCfg_single hs
      rw [path_single h1 hy]
      simp [flat]

theorem amp_set_act {ψ : List (Tensor R)} {ds s : List Nat} {k : Nat} {o : Tensor R}
    (h : IsMPS ds ψ) (hk : k < ds.length) (ho : o.dims = [ds.getD k 0, ds.getD k 0])
    (hs : s.length = ds.length) :
    amp (ψ.set k (foldin o (-1) (site ψ k) 1)) s = actSite (ds.getD k 0) o k (amp ψ) s := by
  obtain ⟨hne, D, hW⟩ := h
  have hk' : k < ψ.length := by rw [hW.length]; exact hk
  rw [amp_of_WF (hW.set_act ho) (by simpa using hne)]
  simp only [actSite, amp_of_WF hW hne, path_set_act hW hk' ho hs, Finset.mul_sum]
  rw [Finset.sum_comm]

theorem IsMPS.set_act {ψ : List (Tensor R)} {ds : List Nat} {k : Nat} {o : Tensor R}
    (h : IsMPS ds ψ) (ho : o.dims = [ds.getD k 0, ds.getD k 0]) :
    IsMPS ds (ψ.set k (foldin o (-1) (site ψ k) 1)) := by
  obtain ⟨hne, D, hW⟩ := h
  exact ⟨by simpa using hne, D, hW.set_act ho⟩

theorem map_site (a : List (Tensor R)) : (List.range a.length).map (site a) = a := by
  apply List.ext_getElem
  · simp
  · intro i h1 h2
    simp [site, List.getElem?_eq_getElem h2]

theorem map_act_set (a : List (Tensor R)) (k : Nat) (op : Tensor R) :
    (List.range a.length).map (fun i => actT (if i = k then some op else none) (site a i))
      = a.set k (foldin op (-1) (site a k) 1) := by
  apply List.ext_getElem
  · simp
  · intro i h1 h2
    have h3 : i < a.length := by simpa using h2
    simp only [List.getElem_map, List.getElem_range, List.getElem_set]
    by_cases h : i = k
    · subst h; simp [actT]
    · simp [h, Ne.symm h, actT, site, List.getElem?_eq_getElem h3]

theorem site_set_ne (a : List (Tensor R)) {k j : Nat} (h : k ≠ j) (X : Tensor R) :
    site (a.set k X) j = site a j := by
  simp [site, List.getD_eq_getElem?_getD, List.getElem?_set_ne h]

theorem map_act_set2 (a : List (Tensor R)) (k1 k2 : Nat) (hk : k1 ≠ k2) (op1 op2 : Tensor R) :
    (List.range a.length).map
      (fun i => actT (if i = k1 then some op1 else if i = k2 then some op2 else none) (site a i))
      = (a.set k2 (foldin op2 (-1) (site a k2) 1)).set k1
          (foldin op1 (-1) (site (a.set k2 (foldin op2 (-1) (site a k2) 1)) k1) 1) := by
  rw [site_set_ne _ hk.symm]
  apply List.ext_getElem
  · simp
  · intro i h1 h2
    have h3 : i < a.length := by simpa using h2
    simp only [List.getElem_map, List.getElem_range, List.getElem_set]
    by_cases h : i = k1
    · subst h; simp [actT]
    · by_cases h' : i = k2
      · subst h'; simp [actT, h, Ne.symm h]
      · simp [h, h', Ne.symm h, Ne.symm h', actT, site, List.getElem?_eq_getElem h3]

section Star
variable [StarRing R]

/-- closing a left-to-right sweep gives the scalar product with the ket acted upon -/
theorem close_right {l : Trip R} {ds : List Nat} {a b : Nat} (hne : l ≠ [])
    (hq : WF a l.bras ds a) (hp : WF b l.kets ds b) (ho : Trip.OpsOk ds l) :
    (propClose1 (propAllRight Tensor.empty l)).lin 0 = inner ds (amp l.bras) (amp l.acted) :=
  propClose1_transfer (propAllRight_empty hne hq hp ho) hq (Trip.acted_WF hp ho)
    (by simpa [Trip.bras] using hne) (by simpa [Trip.acted] using hne)

theorem close_left {l : Trip R} {ds : List Nat} {a b : Nat} (hne : l ≠ [])
    (hq : WF a l.bras ds a) (hp : WF b l.kets ds b) (ho : Trip.OpsOk ds l) :
    (propClose1 (propAllLeft Tensor.empty l)).lin 0 = inner ds (amp l.bras) (amp l.acted) :=
  propClose1_transfer (propAllLeft_empty hne hq hp ho) hq (Trip.acted_WF hp ho)
    (by simpa [Trip.bras] using hne) (by simpa [Trip.acted] using hne)

/-- the triples of a plain scalar product -/
def plain (a b : List (Tensor R)) : Trip R := (a.zip b).map (fun x => (x.1, x.2, none))

theorem plain_bras {a b : List (Tensor R)} (h : a.length = b.length) : (plain a b).bras = a := by
  simp only [plain, Trip.bras, List.map_map]
  exact List.map_fst_zip h.le

theorem plain_kets {a b : List (Tensor R)} (h : a.length = b.length) : (plain a b).kets = b := by
  simp only [plain, Trip.kets, List.map_map]
  exact List.map_snd_zip h.ge

theorem plain_acted {a b : List (Tensor R)} (h : a.length = b.length) : (plain a b).acted = b := by
  simp only [plain, Trip.acted, List.map_map]
  exact List.map_snd_zip h.ge

theorem plain_ops {a b : List (Tensor R)} {ds : List Nat} (h : a.length = b.length)
    (hd : ds.length = a.length) : Trip.OpsOk ds (plain a b) := by
  unfold Trip.OpsOk
  rw [List.forall₂_iff_get]
  refine ⟨by simp [plain, h, hd], ?_⟩
  intro i h1 h2 o ho
  simp [plain] at ho

theorem scprod_spec {ds : List Nat} {a b : List (Tensor R)} (ha : IsMPS ds a) (hb : IsMPS ds b)
    (sense : Int) : scprod a b sense = some (inner ds (amp a) (amp b)) := by
  obtain ⟨hna, Da, hWa⟩ := ha
  obtain ⟨hnb, Db, hWb⟩ := hb
  have hl : a.length = b.length := by rw [hWa.length, hWb.length]
  have hne : plain a b ≠ [] := by
    intro h
    have : (plain a b).bras = [] := by rw [h]; rfl
    rw [plain_bras hl] at this
    exact hna this
  have hq : WF Da (plain a b).bras ds Da := by rw [plain_bras hl]; exact hWa
  have hp : WF Db (plain a b).kets ds Db := by rw [plain_kets hl]; exact hWb
  have ho := plain_ops (ds := ds) hl hWa.length.symm
  have h1 := close_right hne hq hp ho
  have h2 := close_left hne hq hp ho
  rw [plain_bras hl, plain_acted hl] at h1 h2
  simp only [scprod, hl, hna, ne_eq, not_false_eq_true, and_self, if_true]
  split
  · exact congrArg some h1
  · exact congrArg some h2

theorem inner_congr {ds : List Nat} {f f' g g' : List Nat → R} (hf : ∀ s, IsCfg ds s → f s = f' s)
    (hg : ∀ s, IsCfg ds s → g s = g' s) : inner ds f g = inner ds f' g' := by
  unfold inner
  exact sumCfg_congr fun s hs => by rw [hf s hs, hg s hs]

theorem ops_single {ds : List Nat} {a : List (Tensor R)} (hd : ds.length = a.length)
    (f : Nat → Option (Tensor R)) (hf : ∀ i, i < ds.length → OpOk (ds.getD i 0) (f i)) :
    Trip.OpsOk ds ((List.range a.length).map fun k => (site a k, site a k, f k)) := by
  unfold Trip.OpsOk
  rw [List.forall₂_iff_get]
  refine ⟨by simp [hd], ?_⟩
  intro i h1 h2
  have := hf i h1
  simpa [List.getElem?_eq_getElem h1] using this

theorem closeOps {ds : List Nat} {a : List (Tensor R)} (ha : IsMPS ds a)
    (f : Nat → Option (Tensor R)) (hf : ∀ i, i < ds.length → OpOk (ds.getD i 0) (f i)) :
    (propClose1 (propAllRight Tensor.empty
        ((List.range a.length).map fun k => (site a k, site a k, f k)))).lin 0
      = inner ds (amp a) (amp ((List.range a.length).map fun k => actT (f k) (site a k))) := by
  obtain ⟨hna, D, hW⟩ := ha
  set l : Trip R := (List.range a.length).map fun k => (site a k, site a k, f k) with hl
  have hb : l.bras = a := by simp only [hl, Trip.bras, List.map_map]; exact map_site a
  have hk : l.kets = a := by simp only [hl, Trip.kets, List.map_map]; exact map_site a
  have hac : l.acted = (List.range a.length).map fun k => actT (f k) (site a k) := by
    simp only [hl, Trip.acted, List.map_map]; rfl
  have hne : l ≠ [] := by
    intro h; rw [h] at hb; exact hna hb.symm
  have := close_right hne (hb ▸ hW) (hk ▸ hW) (ops_single hW.length.symm f hf)
  rw [this, hb, hac]

theorem expected1_spec {ds : List Nat} {a : List (Tensor R)} (ha : IsMPS ds a) {op : Tensor R}
    {k : Int} {n : Nat} (hk : normalIndex ds.length k = some n)
    (hn : n < ds.length) (ho : op.dims = [ds.getD n 0, ds.getD n 0]) :
    expected1 a op k = some (inner ds (amp a) (actSite (ds.getD n 0) op n (amp a))) := by
  have hlen : a.length = ds.length := by obtain ⟨_, D, hW⟩ := ha; exact hW.length
  simp only [expected1, hlen, hk, Option.bind_eq_bind, Option.bind_some, Option.pure_def]
  congr 1
  rw [← hlen, closeOps ha (fun i => if i = n then some op else none)]
  · rw [map_act_set]
    exact inner_congr (fun _ _ => rfl) fun s hs => amp_set_act ha hn ho hs.length
  · intro i _ o h
    by_cases hi : i = n
    · subst hi; simp at h; subst h; exact ho
    · simp [hi] at h

theorem actSite_mmult {d k : Nat} {op1 op2 : Tensor R} (h1 : op1.dims = [d, d])
    (h2 : op2.dims = [d, d]) (φ : List Nat → R) (s : List Nat) (hk : k < s.length) :
    actSite d (mmult op1 op2) k φ s = actSite d op1 k (actSite d op2 k φ) s := by
  have hg : ∀ i j, (mmult op1 op2).get [i, j]
      = ∑ l ∈ Finset.range d, op1.get [i, l] * op2.get [l, j] := by
    intro i j
    simp [mmult, fold, h1, h2]
  have hset : ∀ t, (s.set k t).getD k 0 = t := by
    intro t; rw [List.getD_eq_getElem _ _ (by simpa using hk)]; simp
  simp only [actSite, hg, hset, Finset.sum_mul, Finset.mul_sum, List.set_set]
  rw [Finset.sum_comm]
  exact Finset.sum_congr rfl fun l _ => Finset.sum_congr rfl fun t _ => by ring

theorem normalIndex_lt {L : Nat} {k : Int} {n : Nat} (h : normalIndex L k = some n) : n < L := by
  unfold normalIndex at h
  split at h <;> split at h <;> simp at h <;> omega

theorem expected2_spec {ds : List Nat} {a : List (Tensor R)} (ha : IsMPS ds a) {op1 op2 : Tensor R}
    {k1 k2 : Int} {n1 n2 : Nat} (hk1 : normalIndex ds.length k1 = some n1)
    (hk2 : normalIndex ds.length k2 = some n2) (halias : k1 = k2 ∨ n1 ≠ n2)
    (ho1 : op1.dims = [ds.getD n1 0, ds.getD n1 0])
    (ho2 : op2.dims = [ds.getD n2 0, ds.getD n2 0]) :
    expected2 a op1 k1 op2 k2 = some (inner ds (amp a)
      (actSite (ds.getD n1 0) op1 n1 (actSite (ds.getD n2 0) op2 n2 (amp a)))) := by
  have hlen : a.length = ds.length := by obtain ⟨_, D, hW⟩ := ha; exact hW.length
  have hn1 := normalIndex_lt hk1
  have hn2 := normalIndex_lt hk2
  by_cases hkk : k1 = k2
  · subst hkk
    have : n1 = n2 := by rw [hk1] at hk2; exact Option.some.inj hk2
    subst this
    have hm : (mmult op1 op2).dims = [ds.getD n1 0, ds.getD n1 0] := by
      simp [mmult, fold, ho1, ho2]
    simp only [expected2, if_true]
    rw [expected1_spec ha hk1 hn1 hm]
    congr 1
    exact inner_congr (fun _ _ => rfl) fun s hs =>
      actSite_mmult ho1 ho2 _ _ (by rw [hs.length]; exact hn1)
  · have hne : n1 ≠ n2 := halias.resolve_left hkk
    simp only [expected2, hkk, if_false, hlen, hk1, hk2, Option.bind_eq_bind, Option.bind_some,
      Option.pure_def]
    congr 1
    rw [← hlen, closeOps ha
      (fun i => if i = n1 then some op1 else if i = n2 then some op2 else none)]
    · rw [map_act_set2 _ _ _ hne]
      refine inner_congr (fun _ _ => rfl) fun s hs => ?_
      rw [amp_set_act (ha.set_act ho2) hn1 ho1 hs.length]
      refine Finset.sum_congr rfl fun t _ => ?_
      rw [amp_set_act ha hn2 ho2 (by simp [hs.length])]
    · intro i _ o h
      by_cases hi : i = n1
      · subst hi; simp at h; subst h; exact ho1
      · by_cases hi2 : i = n2
        · subst hi2; simp [hi] at h; subst h; exact ho2
        · simp [hi, hi2] at h

end Star
end MPS
