import Verif.Props.FormProps2

/-!
# Effective matrices of operators that do not vanish

`QuadraticForm` returns an empty tensor when no pair contributes; this happens only for an operator all of whose elements vanish.
-/

set_option linter.unusedSectionVars false
set_option linter.unusedSimpArgs false

namespace MPS.Form
open MPS Tensor
variable {R : Type} [CommRing R] [StarRing R] [DecidableEq R]

/-- an operator with an element that is not zero -/
def NonZero (ds : List Nat) (O : List (Tensor R)) : Prop := ∃ s t, IsCfg ds s ∧ IsCfg ds t ∧ opElt O s t ≠ 0

theorem opElt_open {O : List (Tensor R)} {ds : List Nat} (hO : WFO 1 O ds 1) (hne : O ≠ []) (s t : List Nat) : opElt O s t = opPath O s t 0 0 := by
  rw [opElt_of_WFO hO hne, Finset.sum_range_one]

theorem single_nonempty {ds : List Nat} {O : List (Tensor R)} (hO : WFO 1 O ds 1) (hnz : NonZero ds O) {g : QForm R} {l r : List (Tensor R × Tensor R)}
    {a a' b b' : Nat} (hg : QGood ds O g (l, r))
    (hl1 : WF 1 (l.map Prod.fst) (ds.take l.length) a) (hr1 : WF a' (r.map Prod.fst) (ds.drop (l.length + 1)) 1)
    (hl2 : WF 1 (l.map Prod.snd) (ds.take l.length) b) (hr2 : WF b' (r.map Prod.snd) (ds.drop (l.length + 1)) 1) :
    g.singleSiteMatrix.isEmpty = false := by
  have hhere : g.here = l.length := hg.here
  obtain ⟨K, hI, hKl, hKr⟩ := hg
  simp only at hKl hKr
  have hN : l.length < ds.length := hhere ▸ hI.hereLt
  have hOl := hO.length
  set d := ds.getD l.length 0 with hdd
  have hd : ds.drop l.length = d :: ds.drop (l.length + 1) := by
    rw [List.drop_eq_getElem_cons hN]; simp [d, hN]
  have hds : ds = ds.take l.length ++ (d :: ds.drop (l.length + 1)) := by
    rw [← hd, List.take_append_drop]
  have hOs : O = O.take l.length ++ (site O l.length :: O.drop (l.length + 1)) := by
    rw [← drop_site (by omega), List.take_append_drop]
  obtain ⟨hT, hc, hd0, hc'⟩ := WFO.at hO l.length hN
  have ha : 0 < a := hl1.pos_right (by omega)
  have hb0 : 0 < b := hl2.pos_right (by omega)
  have ha' : 0 < a' := WF.pos_left hr1 (by omega)
  have hb' : 0 < b' := WF.pos_left hr2 (by omega)
  have qL := hI.leftOk g.here le_rfl hI.hereLt.le
  have qR := hI.rightOk (g.here + 1) (by omega) hI.hereLt
  have eL := qL.2.1 a b (by rw [hKl, hhere]; exact hl1) (by rw [hKl, hhere]; exact hl2)
  have eR := qR.2.1 a' b' (by rw [hKr, hhere]; exact hr1) (by rw [hKr, hhere]; exact hr2)
  have zL := qL.2.2 a b (by rw [hKl, hhere]; exact hl1) (by rw [hKl, hhere]; exact hl2)
  have zR := qR.2.2 a' b' (by rw [hKr, hhere]; exact hr1) (by rw [hKr, hhere]; exact hr2)
  have hp : g.pairs.getD g.here [] = makePairs (site O l.length) := by rw [pairs_at hI hO hI.hereLt, hhere]
  rw [hhere] at eL eR zL zR hp
  have hcase := fun (p : Pair R) (h : p ∈ makePairs (site O l.length)) =>
    env_cases eL eR ha hb0 ha' hb' (mem_makePairs hT h).1 (mem_makePairs hT h).2.1
  have hf := addFold (makePairs (site O l.length)) (valid1 (g.mat.getD l.length []) (g.mat.getD (l.length + 1) []))
    (fun p => qfCompose ((g.mat.getD l.length []).getD p.left Tensor.empty) p.op ((g.mat.getD (l.length + 1) []).getD p.right Tensor.empty))
    (dm := [[a, d, a'].prod, [b, d, b'].prod]) (Props.prod2_ne (Props.prod3_ne ha hd0 ha') (Props.prod3_ne hb0 hd0 hb')) (by
      intro p hp hv
      obtain ⟨h1, h2, -⟩ := (hcase p hp).1 hv
      exact (qfCompose_spec h1 h2 (mem_makePairs hT hp).2.2.1).1 ha hb0 hd0)
  have hM : g.singleSiteMatrix = (makePairs (site O l.length)).foldl (fun out p =>
      if valid1 (g.mat.getD l.length []) (g.mat.getD (l.length + 1) []) p then maybeAdd out
        (qfCompose ((g.mat.getD l.length []).getD p.left Tensor.empty) p.op ((g.mat.getD (l.length + 1) []).getD p.right Tensor.empty)) else out)
      Tensor.empty := by
    unfold QForm.singleSiteMatrix
    rw [sumPairs_eq, hhere, hp]
  rcases hf.1 with ⟨-, hall⟩ | ⟨h, -⟩
  · exfalso
    obtain ⟨s, t, hs, ht, h0⟩ := hnz
    apply h0
    have hne : O ≠ [] := by intro h; rw [h] at hOl; simp at hOl; omega
    rw [opElt_open hO hne]
    rw [hds] at hs ht
    obtain ⟨s1, s2, rfl, hs1, hs2⟩ := isCfg_split hs
    obtain ⟨t1, t2, rfl, ht1, ht2⟩ := isCfg_split ht
    cases hs2 with
    | @cons i _ s2 _ hi hs2 =>
    cases ht2 with
    | @cons j _ t2 _ hj ht2 =>
    rw [hOs, opPath_append (WFO.cutBond hO l.length hN.le).1 hs1.length ht1.length (by omega)]
    refine Finset.sum_eq_zero fun α hα => ?_
    rw [Finset.mem_range] at hα
    rw [opPath_cons, dim3_of hT, Finset.mul_sum]
    refine Finset.sum_eq_zero fun β hβ => ?_
    rw [Finset.mem_range] at hβ
    by_cases hz : (site O l.length).get [α, i, j, β] = 0
    · rw [hz, zero_mul, mul_zero]
    obtain ⟨p, hp, rfl, rfl⟩ := mem_pairs hT hα hβ hi hj hz
    have := hall p hp
    unfold valid1 at this
    by_cases h1 : ((g.mat.getD l.length []).getD p.left Tensor.empty).isEmpty = true
    · rw [zL p.left hα h1 s1 t1 hs1 ht1, zero_mul]
    · rw [zR p.right hβ (by rw [Bool.not_eq_true] at h1; rw [h1] at this; simpa only [Bool.not_false, Bool.true_and, Bool.not_eq_false'] using this) s2 t2 hs2 ht2, mul_zero, mul_zero]
  · rw [hM]
    exact notEmpty_dims h (Props.prod2_ne (Props.prod3_ne ha hd0 ha') (Props.prod3_ne hb0 hd0 hb'))

theorem pair_nonempty {ds : List Nat} {O : List (Tensor R)} (hO : WFO 1 O ds 1) (hnz : NonZero ds O) {g : QForm R} (sense : Int)
    {k : List (Tensor R × Tensor R) × List (Tensor R × Tensor R)} {l r : List (Tensor R × Tensor R)}
    {a a' b b' : Nat} (hg : QGood ds O g k) (hpair : HasPair sense k) (hlr : aroundPair sense k = (l, r))
    (hl1 : WF 1 (l.map Prod.fst) (ds.take l.length) a) (hr1 : WF a' (r.map Prod.fst) (ds.drop (l.length + 2)) 1)
    (hl2 : WF 1 (l.map Prod.snd) (ds.take l.length) b) (hr2 : WF b' (r.map Prod.snd) (ds.drop (l.length + 2)) 1) :
    ∃ M, g.twoSiteMatrix sense = some M ∧ M.isEmpty = false := by
  have hhere : g.here = k.1.length := hg.here
  obtain ⟨K, hI, hKl, hKr⟩ := hg
  have hherelt := hI.hereLt
  have hlenK := hI.lenK
  have hsize := hI.sizeEq
  have hp : pairAt g.here g.size sense = some l.length ∧ l.length + 1 < ds.length ∧ l.length ≤ g.here ∧ g.here < l.length + 2 ∧
      K.take l.length = l ∧ K.drop (l.length + 2) = r := by
    unfold pairAt
    unfold HasPair at hpair
    unfold aroundPair at hlr
    by_cases hsn : sense > 0
    · rw [if_pos hsn] at hpair hlr ⊢
      obtain ⟨rfl, rfl⟩ := Prod.mk.inj hlr
      have h2 : g.here + 1 < ds.length := by
        by_contra h
        apply hpair
        rw [← hKr]; simp; omega
      rw [if_pos (by omega), ← hhere]
      refine ⟨rfl, h2, le_rfl, by omega, hKl, ?_⟩
      rw [← hKr, List.tail_drop]
    · rw [if_neg hsn] at hpair hlr ⊢
      obtain ⟨rfl, rfl⟩ := Prod.mk.inj hlr
      have h2 : 0 < k.1.length := List.length_pos_iff.2 hpair
      have h3 : k.1.dropLast.length = g.here - 1 := by simp [hhere]
      rw [if_pos (by omega), h3]
      refine ⟨rfl, by omega, by omega, by omega, ?_, ?_⟩
      · rw [← hKl, List.dropLast_take (by omega)]
      · rw [← hKr]; congr 1; omega
  obtain ⟨hpa, hN, hlo, hhi, hKl', hKr'⟩ := hp
  have hOl := hO.length
  set d := ds.getD l.length 0 with hdd
  set d' := ds.getD (l.length + 1) 0 with hdd'
  have hd : ds.drop l.length = d :: d' :: ds.drop (l.length + 2) := by
    rw [List.drop_eq_getElem_cons (by omega), List.drop_eq_getElem_cons (by omega)]
    simp [d, d', show l.length < ds.length by omega, hN]
  have hds : ds = ds.take l.length ++ (d :: d' :: ds.drop (l.length + 2)) := by
    rw [← hd, List.take_append_drop]
  have hOs : O = O.take l.length ++ (site O l.length :: site O (l.length + 1) :: O.drop (l.length + 2)) := by
    rw [← drop_site (by omega), ← drop_site (by omega), List.take_append_drop]
  obtain ⟨hT1, hc, hd0, hc1⟩ := WFO.at hO l.length (by omega)
  obtain ⟨hT2, _, hd0', hc'⟩ := WFO.at hO (l.length + 1) hN
  have ha : 0 < a := hl1.pos_right (by omega)
  have hb0 : 0 < b := hl2.pos_right (by omega)
  have ha' : 0 < a' := WF.pos_left hr1 (by omega)
  have hb' : 0 < b' := WF.pos_left hr2 (by omega)
  have qL := hI.leftOk l.length hlo (by omega)
  have qR := hI.rightOk (l.length + 2) hhi (by omega)
  have eL := qL.2.1 a b (by rw [hKl']; exact hl1) (by rw [hKl']; exact hl2)
  have eR := qR.2.1 a' b' (by rw [hKr']; exact hr1) (by rw [hKr']; exact hr2)
  have zL := qL.2.2 a b (by rw [hKl']; exact hl1) (by rw [hKl']; exact hl2)
  have zR := qR.2.2 a' b' (by rw [hKr']; exact hr1) (by rw [hKr']; exact hr2)
  have hp1 := pairs_at hI hO (j := l.length) (by omega)
  have hp2 := pairs_at hI hO (j := l.length + 1) hN
  have eM : g.twoSiteMatrix sense = some (g.sumPairs2 l.length fun p1 p2 L Rt => qfCompose2 L p1.op p2.op Rt) := by unfold QForm.twoSiteMatrix; rw [hpa]; rfl
  refine ⟨_, eM, ?_⟩
  rw [sumPairs2_eq, hp1, hp2]
  have hmem : ∀ p ∈ ((makePairs (site O l.length)).flatMap fun p1 => (makePairs (site O (l.length + 1))).map fun p2 => (p1, p2)),
      p.1 ∈ makePairs (site O l.length) ∧ p.2 ∈ makePairs (site O (l.length + 1)) := by
    intro p hp
    rw [List.mem_flatMap] at hp
    obtain ⟨p1, h1, hp⟩ := hp
    rw [List.mem_map] at hp
    obtain ⟨p2, h2, rfl⟩ := hp
    exact ⟨h1, h2⟩
  have hf := addFold ((makePairs (site O l.length)).flatMap fun p1 => (makePairs (site O (l.length + 1))).map fun p2 => (p1, p2))
    (valid2 (g.mat.getD l.length []) (g.mat.getD (l.length + 1 + 1) []))
    (fun p => qfCompose2 ((g.mat.getD l.length []).getD p.1.left Tensor.empty) p.1.op p.2.op ((g.mat.getD (l.length + 1 + 1) []).getD p.2.right Tensor.empty))
    (dm := [[a, d, d', a'].prod, [b, d, d', b'].prod]) (Props.prod2_ne (Props.prod4_ne ha hd0 hd0' ha') (Props.prod4_ne hb0 hd0 hd0' hb')) (by
      intro p hp hv
      obtain ⟨m1, m2⟩ := hmem p hp
      unfold valid2 at hv
      rw [Bool.and_eq_true] at hv
      obtain ⟨h1, h2, -⟩ := (env_cases eL eR ha hb0 ha' hb' (mem_makePairs hT1 m1).1 (mem_makePairs hT2 m2).2.1).1 hv.2
      exact (qfCompose2_spec h1 h2 (mem_makePairs hT1 m1).2.2.1 (mem_makePairs hT2 m2).2.2.1).1 ha hb0 hd0 hd0')
  rcases hf.1 with ⟨-, hall⟩ | ⟨h, -⟩
  · exfalso
    obtain ⟨s, t, hs, ht, h0⟩ := hnz
    apply h0
    have hne : O ≠ [] := by intro h; rw [h] at hOl; simp at hOl; omega
    rw [opElt_open hO hne]
    rw [hds] at hs ht
    obtain ⟨s1, s2, rfl, hs1, hs2⟩ := isCfg_split hs
    obtain ⟨t1, t2, rfl, ht1, ht2⟩ := isCfg_split ht
    cases hs2 with
    | @cons i _ s2 _ hi hs2 =>
    cases ht2 with
    | @cons j _ t2 _ hj ht2 =>
    cases hs2 with
    | @cons i' _ s2 _ hi' hs2 =>
    cases ht2 with
    | @cons j' _ t2 _ hj' ht2 =>
    rw [hOs, opPath_append (WFO.cutBond hO l.length (by omega)).1 hs1.length ht1.length (by omega)]
    refine Finset.sum_eq_zero fun α hα => ?_
    rw [Finset.mem_range] at hα
    rw [opPath_cons, dim3_of hT1, Finset.mul_sum]
    refine Finset.sum_eq_zero fun γ hγ => ?_
    rw [Finset.mem_range] at hγ
    rw [opPath_cons, dim3_of hT2, Finset.mul_sum, Finset.mul_sum]
    refine Finset.sum_eq_zero fun β hβ => ?_
    rw [Finset.mem_range] at hβ
    by_cases hz : (site O l.length).get [α, i, j, γ] = 0
    · rw [hz, zero_mul, mul_zero]
    by_cases hz' : (site O (l.length + 1)).get [γ, i', j', β] = 0
    · rw [hz', zero_mul, mul_zero, mul_zero]
    obtain ⟨p, hp, rfl, rfl⟩ := mem_pairs hT1 hα hγ hi hj hz
    obtain ⟨p', hp', he, rfl⟩ := mem_pairs hT2 hγ hβ hi' hj' hz'
    have := hall (p, p') (by
      rw [List.mem_flatMap]
      exact ⟨p, hp, List.mem_map.2 ⟨p', hp', rfl⟩⟩)
    unfold valid2 at this
    simp only [he, decide_true, Bool.true_and] at this
    by_cases h1 : ((g.mat.getD l.length []).getD p.left Tensor.empty).isEmpty = true
    · rw [zL p.left hα h1 s1 t1 hs1 ht1, zero_mul]
    · rw [zR p'.right hβ (by rw [Bool.not_eq_true] at h1; rw [h1] at this; simpa only [Bool.not_false, Bool.true_and, Bool.not_eq_false'] using this) s2 t2 hs2 ht2, mul_zero, mul_zero, mul_zero]
  · exact notEmpty_dims h (Props.prod2_ne (Props.prod4_ne ha hd0 hd0' ha') (Props.prod4_ne hb0 hd0 hd0' hb'))

end MPS.Form
