import Verif.FormQLemmas4
import Mathlib.NumberTheory.Zsqrtd.GaussianInt

set_option linter.unusedSectionVars false
set_option linter.unusedSimpArgs false

/-! # C51, C52: quadratic forms -/

namespace MPS.Props
open MPS Tensor Form
variable {R : Type} [CommRing R] [StarRing R] [DecidableEq R]

theorem prod3_ne {a b c : Nat} (ha : 0 < a) (hb : 0 < b) (hc : 0 < c) : [a, b, c].prod ≠ 0 := by
  simp [ha.ne', hb.ne', hc.ne']

theorem prod4_ne {a b c d : Nat} (ha : 0 < a) (hb : 0 < b) (hc : 0 < c) (hd : 0 < d) : [a, b, c, d].prod ≠ 0 := by
  simp [ha.ne', hb.ne', hc.ne', hd.ne']

theorem prod2_ne {m n : Nat} (hm : m ≠ 0) (hn : n ≠ 0) : [m, n].prod ≠ 0 := by simp [hm, hn]

theorem prod1_ne {m : Nat} (hm : m ≠ 0) : [m].prod ≠ 0 := by simp [hm]

theorem sumCfg4 (a b c d : Nat) (f : List Nat → R) : sumCfg [a, b, c, d] f =
    ∑ x ∈ Finset.range a, ∑ y ∈ Finset.range b, ∑ z ∈ Finset.range c, ∑ w ∈ Finset.range d, f [x, y, z, w] := by
  simp only [sumCfg_cons, sumCfg_nil]

theorem sumCfg2 (a b : Nat) (f : List Nat → R) : sumCfg [a, b] f =
    ∑ x ∈ Finset.range a, ∑ y ∈ Finset.range b, f [x, y] := by
  simp only [sumCfg_cons, sumCfg_nil]

/-- the value of the form with tensors `Qm`, `Pm` on a block of sites, in terms of the parts -/
theorem form_blocks {Ql Qm Qr Ol Om Or Pl Pm Pr : List (Tensor R)} {dl dm dr : List Nat} {a a' b b' c c' : Nat}
    (q1 : WF 1 Ql dl a) (q2 : WF a Qm dm a') (q3 : WF a' Qr dr 1) (o1 : WFO 1 Ol dl c) (o2 : WFO c Om dm c') (o3 : WFO c' Or dr 1)
    (p1 : WF 1 Pl dl b) (p2 : WF b Pm dm b') (p3 : WF b' Pr dr 1) (hne : dm ≠ []) :
    expect (dl ++ (dm ++ dr)) (Ql ++ (Qm ++ Qr)) (Ol ++ (Om ++ Or)) (Pl ++ (Pm ++ Pr)) =
      ∑ x ∈ Finset.range a, sumCfg dm fun i => ∑ x' ∈ Finset.range a', ∑ y ∈ Finset.range b, sumCfg dm fun j => ∑ y' ∈ Finset.range b',
        star (path Qm i x x') * (∑ α ∈ Finset.range c, ∑ β ∈ Finset.range c',
          envG Ql Ol Pl dl 0 0 0 x α y * opPath Om i j α β * envG Qr Or Pr dr x' β y' 0 0 0) * path Pm j y y' := by
  unfold expect
  rw [expect_envG (q1.append (q2.append q3)) (o1.append (o2.append o3)) (p1.append (p2.append p3)) (by simp [hne]),
    envG_append q1 o1 p1 (by omega) (by omega) (by omega),
    ← contract_mid (fun x α y => envG Ql Ol Pl dl 0 0 0 x α y) (fun x' β y' => envG Qr Or Pr dr x' β y' 0 0 0)
      (fun i x x' => path Qm i x x') (fun j y y' => path Pm j y y') (fun i j α β => opPath Om i j α β)]
  refine Finset.sum_congr rfl fun x hx => Finset.sum_congr rfl fun α hα => Finset.sum_congr rfl fun y hy => ?_
  rw [envG_append q2 o2 p2 (Finset.mem_range.1 hx) (Finset.mem_range.1 hα) (Finset.mem_range.1 hy)]
  rfl

/-- C51 at a form whose caches are right -/
theorem form_single {ds : List Nat} {O : List (Tensor R)} (hO : WFO 1 O ds 1) {g : QForm R} {l r : List (Tensor R × Tensor R)}
    {a a' b b' : Nat} (hg : QGood ds O g (l, r))
    (hl1 : WF 1 (l.map Prod.fst) (ds.take l.length) a) (hr1 : WF a' (r.map Prod.fst) (ds.drop (l.length + 1)) 1)
    (hl2 : WF 1 (l.map Prod.snd) (ds.take l.length) b) (hr2 : WF b' (r.map Prod.snd) (ds.drop (l.length + 1)) 1) :
    let d := ds.getD l.length 0
    let M := g.singleSiteMatrix
    g.here = l.length ∧ (M.isEmpty = true ∨ M.dims = [[a, d, a'].prod, [b, d, b'].prod]) ∧
    (∀ Y X : Tensor R, Y.dims = [a, d, a'] → X.dims = [b, d, b'] → matForm M [a, d, a'] [b, d, b'] Y.get X.get =
      expect ds (l.map Prod.fst ++ Y :: r.map Prod.fst) O (l.map Prod.snd ++ X :: r.map Prod.snd)) ∧
    ∀ X : Tensor R, X.dims = [b, d, b'] → (g.applyOneSite X).isEmpty = M.isEmpty ∧ (M.isEmpty = false →
      (g.applyOneSite X).dims = [a, d, a'] ∧ ∀ I, IsCfg [a, d, a'] I → (g.applyOneSite X).get I =
        sumCfg [b, d, b'] fun J => M.get [flat [a, d, a'] I, flat [b, d, b'] J] * X.get J) := by
  intro d M
  have hhere : g.here = l.length := hg.here
  obtain ⟨K, hI, hKl, hKr⟩ := hg
  simp only at hKl hKr
  have hN : l.length < ds.length := hhere ▸ hI.hereLt
  have hOl := hO.length
  have hd : ds.drop l.length = d :: ds.drop (l.length + 1) := by
    rw [List.drop_eq_getElem_cons hN]; simp [d, hN]
  have hds : ds.take l.length ++ ([d] ++ ds.drop (l.length + 1)) = ds := by
    rw [List.singleton_append, ← hd, List.take_append_drop]
  have hOs : O.take l.length ++ ([site O l.length] ++ O.drop (l.length + 1)) = O := by
    rw [List.singleton_append, ← drop_site (by omega), List.take_append_drop]
  obtain ⟨hT, hc, hd0, hc'⟩ := WFO.at hO l.length hN
  have ha : 0 < a := hl1.pos_right (by omega)
  have hb0 : 0 < b := hl2.pos_right (by omega)
  have ha' : 0 < a' := WF.pos_left hr1 (by omega)
  have hb' : 0 < b' := WF.pos_left hr2 (by omega)
  have eL := (hI.leftOk g.here le_rfl hI.hereLt.le).2.1 a b (by rw [hKl, hhere]; exact hl1) (by rw [hKl, hhere]; exact hl2)
  have eR := (hI.rightOk (g.here + 1) (by omega) hI.hereLt).2.1 a' b' (by rw [hKr, hhere]; exact hr1) (by rw [hKr, hhere]; exact hr2)
  rw [hKl] at eL
  rw [hKr] at eR
  have hp : g.pairs.getD g.here [] = makePairs (site O l.length) := by rw [pairs_at hI hO hI.hereLt, hhere]
  have hcore := one_site_core hp hT (by rw [← hhere]; exact eL) (by rw [← hhere]; exact eR) ha hb0 ha' hb' hd0
  rw [hhere] at hcore
  refine ⟨hhere, ?_, fun Y X hY hX => ?_, fun X hX => ?_⟩
  · rcases hcore with ⟨h, _⟩ | ⟨h, _⟩
    · left; simp only [M, h]; exact empty_isEmpty
    · right; exact h
  · have hform := form_blocks hl1 (WF.cons hY ha hd0 ha' (WF.nil a')) hr1 (WFO.cutBond hO l.length hN.le).1
      (WFO.cons hT hc hd0 hc' (WFO.nil _)) (WFO.cutBond hO (l.length + 1) hN).2 hl2 (WF.cons hX hb0 hd0 hb' (WF.nil b')) hr2 (by simp)
    change expect (ds.take l.length ++ ([d] ++ ds.drop (l.length + 1))) _ _ _ = _ at hform
    rw [hds, hOs] at hform
    simp only [List.singleton_append] at hform
    rw [hform]
    have hval : ∀ x i x' y j y', x < a → i < d → x' < a' → y < b → j < d → y' < b' →
        star (path [Y] [i] x x') * (∑ α ∈ Finset.range (bondO O l.length), ∑ β ∈ Finset.range (bondO O (l.length + 1)),
          envG (l.map Prod.fst) (O.take l.length) (l.map Prod.snd) (ds.take l.length) 0 0 0 x α y * opPath [site O l.length] [i] [j] α β *
          envG (r.map Prod.fst) (O.drop (l.length + 1)) (r.map Prod.snd) (ds.drop (l.length + 1)) x' β y' 0 0 0) * path [X] [j] y y' =
        star (Y.get [x, i, x']) * eff1 (fun x α y => envG (l.map Prod.fst) (O.take l.length) (l.map Prod.snd) (ds.take l.length) 0 0 0 x α y)
          (site O l.length) (fun x' β y' => envG (r.map Prod.fst) (O.drop (l.length + 1)) (r.map Prod.snd) (ds.drop (l.length + 1)) x' β y' 0 0 0)
          (bondO O l.length) (bondO O (l.length + 1)) x i x' y j y' * X.get [y, j, y'] := by
      intro x i x' y j y' _ _ hx' _ _ hy'
      rw [path_single hY hx', path_single hX hy']
      unfold eff1
      congr 2
      refine Finset.sum_congr rfl fun α _ => Finset.sum_congr rfl fun β hβ => ?_
      rw [opPath_single hT (Finset.mem_range.1 hβ)]
    unfold matForm
    rcases hcore with ⟨h, _, hW⟩ | ⟨h, hW, _⟩
    · rw [if_pos (by simp only [M, h]; exact empty_isEmpty)]
      symm
      simp only [sumCfg_single]
      refine Finset.sum_eq_zero fun x hx => Finset.sum_eq_zero fun i hi => Finset.sum_eq_zero fun x' hx' => Finset.sum_eq_zero fun y hy =>
        Finset.sum_eq_zero fun j hj => Finset.sum_eq_zero fun y' hy' => ?_
      rw [Finset.mem_range] at hx hi hx' hy hj hy'
      rw [hval x i x' y j y' hx hi hx' hy hj hy']
      have := hW [x, i, x'] [y, j, y'] (.cons hx (.cons hi (.cons hx' .nil))) (.cons hy (.cons hj (.cons hy' .nil)))
      simp only [List.getD_cons_zero, List.getD_cons_succ] at this
      rw [this]; simp
    · rw [if_neg (by simp only [M, notEmpty_dims h (prod2_ne (prod3_ne ha hd0 ha') (prod3_ne hb0 hd0 hb'))]; simp)]
      simp only [sumCfg_cons, sumCfg_nil]
      refine Finset.sum_congr rfl fun x hx => Finset.sum_congr rfl fun i hi => Finset.sum_congr rfl fun x' hx' => Finset.sum_congr rfl fun y hy =>
        Finset.sum_congr rfl fun j hj => Finset.sum_congr rfl fun y' hy' => ?_
      rw [Finset.mem_range] at hx hi hx' hy hj hy'
      rw [hval x i x' y j y' hx hi hx' hy hj hy', hW [x, i, x'] [y, j, y'] (.cons hx (.cons hi (.cons hx' .nil))) (.cons hy (.cons hj (.cons hy' .nil)))]
      simp only [List.getD_cons_zero, List.getD_cons_succ]
  · rcases hcore with ⟨h, h2, _⟩ | ⟨h, hW, hA⟩
    · rw [h2 X]
      simp only [M, h, empty_isEmpty]
      exact ⟨trivial, fun h => absurd h (by simp)⟩
    · obtain ⟨h3, h4⟩ := hA X hX
      have e1 := notEmpty_dims h (prod2_ne (prod3_ne ha hd0 ha') (prod3_ne hb0 hd0 hb'))
      have e2 := notEmpty_dims h3 (prod3_ne ha hd0 ha')
      refine ⟨by simp only [M, e1, e2], fun _ => ⟨h3, fun I hI => ?_⟩⟩
      rw [h4 I hI]
      refine sumCfg_congr fun J hJ => ?_
      rw [hW I J hI hJ]

/-- **C51.**  A quadratic form for an operator `O`, built at any site for the states `bra` and `ket`, and then moved by any
sequence of `propagate_right(B, K)` / `propagate_left(B, K)`: it sits where the history leads, its matrix at that site is
empty (zero) or has the size of the tensors of that site, and its value between any two tensors `Y` and `X` put there is
`⟨bra with Y| O |ket with X⟩`, the other tensors being those of the history. -/
theorem C51_single_site_matrix {ds : List Nat} {O bra ket : List (Tensor R)} {start : Nat}
    (hO : WFO 1 O ds 1) (hb : WF 1 bra ds 1) (hk : WF 1 ket ds 1) (hs : start < ds.length)
    (history : List (Move (Tensor R × Tensor R))) {l r : List (Tensor R × Tensor R)} {a a' b b' : Nat}
    (hh : history.foldl Move.after ((bra.zip ket).take start, (bra.zip ket).drop (start + 1)) = (l, r))
    (hl1 : WF 1 (l.map Prod.fst) (ds.take l.length) a) (hr1 : WF a' (r.map Prod.fst) (ds.drop (l.length + 1)) 1)
    (hl2 : WF 1 (l.map Prod.snd) (ds.take l.length) b) (hr2 : WF b' (r.map Prod.snd) (ds.drop (l.length + 1)) 1) :
    ∃ f, QForm.new O bra ket start = some f ∧
    let g := history.foldl QForm.move f
    let d := ds.getD l.length 0
    let M := g.singleSiteMatrix
    g.here = l.length ∧ (M.isEmpty = true ∨ M.dims = [[a, d, a'].prod, [b, d, b'].prod]) ∧
    (∀ Y X : Tensor R, Y.dims = [a, d, a'] → X.dims = [b, d, b'] → matForm M [a, d, a'] [b, d, b'] Y.get X.get =
      expect ds (l.map Prod.fst ++ Y :: r.map Prod.fst) O (l.map Prod.snd ++ X :: r.map Prod.snd)) ∧
    ∀ X : Tensor R, X.dims = [b, d, b'] → (g.applyOneSite X).isEmpty = M.isEmpty ∧ (M.isEmpty = false →
      (g.applyOneSite X).dims = [a, d, a'] ∧ ∀ I, IsCfg [a, d, a'] I → (g.applyOneSite X).get I =
        sumCfg [b, d, b'] fun J => M.get [flat [a, d, a'] I, flat [b, d, b'] J] * X.get J) := by
  obtain ⟨f, hf, hg0⟩ := QGood.new hO hb hk hs
  refine ⟨f, hf, ?_⟩
  intro g
  have hg : QGood ds O g (l, r) := by rw [← hh]; exact hg0.moves hO history
  exact form_single hO hg hl1 hr1 hl2 hr2

/-- C51 and C52 for two sites at a form whose caches are right -/
theorem form_two {ds : List Nat} {O : List (Tensor R)} (hO : WFO 1 O ds 1) {g : QForm R} (sense : Int)
    {k : List (Tensor R × Tensor R) × List (Tensor R × Tensor R)} {l r : List (Tensor R × Tensor R)}
    {a a' b b' : Nat} (hg : QGood ds O g k) (hpair : HasPair sense k) (hlr : aroundPair sense k = (l, r))
    (hl1 : WF 1 (l.map Prod.fst) (ds.take l.length) a) (hr1 : WF a' (r.map Prod.fst) (ds.drop (l.length + 2)) 1)
    (hl2 : WF 1 (l.map Prod.snd) (ds.take l.length) b) (hr2 : WF b' (r.map Prod.snd) (ds.drop (l.length + 2)) 1) :
    let d := ds.getD l.length 0
    let d' := ds.getD (l.length + 1) 0
    ∃ M, g.twoSiteMatrix sense = some M ∧ (M.isEmpty = true ∨ M.dims = [[a, d, d', a'].prod, [b, d, d', b'].prod]) ∧
    (∀ (Y1 Y2 X1 X2 : Tensor R) (m n : Nat), 0 < m → 0 < n → Y1.dims = [a, d, m] → Y2.dims = [m, d', a'] →
      X1.dims = [b, d, n] → X2.dims = [n, d', b'] →
      matForm M [a, d, d', a'] [b, d, d', b'] (joined m Y1 Y2) (joined n X1 X2) =
        expect ds (l.map Prod.fst ++ Y1 :: Y2 :: r.map Prod.fst) O (l.map Prod.snd ++ X1 :: X2 :: r.map Prod.snd)) ∧
    (∀ X : Tensor R, X.dims = [b, d, d', b'] → ∃ V, g.applyTwoSite X sense = some V ∧ V.isEmpty = M.isEmpty ∧ (M.isEmpty = false →
      V.dims = [a, d, d', a'] ∧ ∀ I, IsCfg [a, d, d', a'] I → V.get I =
        sumCfg [b, d, d', b'] fun J => M.get [flat [a, d, d', a'] I, flat [b, d, d', b'] J] * X.get J)) ∧
    (a = b → a' = b' → ∃ D, g.twoDiag sense = some D ∧ D.isEmpty = M.isEmpty ∧ (M.isEmpty = false →
      D.dims = [[a, d, d', a'].prod] ∧ ∀ n, n < [a, d, d', a'].prod → D.get [n] = M.get [n, n])) := by
  intro d d'
  have hhere : g.here = k.1.length := hg.here
  obtain ⟨K, hI, hKl, hKr⟩ := hg
  have hherelt := hI.hereLt
  have hlenK := hI.lenK
  have hsize := hI.sizeEq
  have hp : pairAt g.here g.size sense = some l.length ∧ l.length + 1 < ds.length ∧ l.length ≤ g.here ∧ g.here < l.length + 2 ∧
      K.take l.length = l ∧ K.drop (l.length + 2) = r := by
    unfold pairAt
    unfold HasPair at hpair
    unfold aroundPair at hlr
    by_cases hsn : sense > 0
    · rw [if_pos hsn] at hpair hlr ⊢
      obtain ⟨rfl, rfl⟩ := Prod.mk.inj hlr
      have h2 : g.here + 1 < ds.length := by
        by_contra h
        apply hpair
        rw [← hKr]; simp; omega
      rw [if_pos (by omega), ← hhere]
      refine ⟨rfl, h2, le_rfl, by omega, hKl, ?_⟩
      rw [← hKr, List.tail_drop]
    · rw [if_neg hsn] at hpair hlr ⊢
      obtain ⟨rfl, rfl⟩ := Prod.mk.inj hlr
      have h2 : 0 < k.1.length := List.length_pos_iff.2 hpair
      have h3 : k.1.dropLast.length = g.here - 1 := by simp [hhere]
      rw [if_pos (by omega), h3]
      refine ⟨rfl, by omega, by omega, by omega, ?_, ?_⟩
      · rw [← hKl, List.dropLast_take (by omega)]
      · rw [← hKr]; congr 1; omega
  obtain ⟨hpa, hN, hlo, hhi, hKl', hKr'⟩ := hp
  have hOl := hO.length
  have hd : ds.drop l.length = d :: d' :: ds.drop (l.length + 2) := by
    rw [List.drop_eq_getElem_cons (by omega), List.drop_eq_getElem_cons (by omega)]
    simp [d, d', show l.length < ds.length by omega, hN]
  have hds : ds.take l.length ++ ([d, d'] ++ ds.drop (l.length + 2)) = ds := by
    rw [List.cons_append, List.singleton_append, ← hd, List.take_append_drop]
  have hOs : O.take l.length ++ ([site O l.length, site O (l.length + 1)] ++ O.drop (l.length + 2)) = O := by
    rw [List.cons_append, List.singleton_append, ← drop_site (by omega), ← drop_site (by omega), List.take_append_drop]
  obtain ⟨hT1, hc, hd0, hc1⟩ := WFO.at hO l.length (by omega)
  obtain ⟨hT2, _, hd0', hc'⟩ := WFO.at hO (l.length + 1) hN
  have ha : 0 < a := hl1.pos_right (by omega)
  have hb0 : 0 < b := hl2.pos_right (by omega)
  have ha' : 0 < a' := WF.pos_left hr1 (by omega)
  have hb' : 0 < b' := WF.pos_left hr2 (by omega)
  have eL := (hI.leftOk l.length hlo (by omega)).2.1 a b (by rw [hKl']; exact hl1) (by rw [hKl']; exact hl2)
  have eR := (hI.rightOk (l.length + 2) hhi (by omega)).2.1 a' b' (by rw [hKr']; exact hr1) (by rw [hKr']; exact hr2)
  rw [hKl'] at eL
  rw [hKr'] at eR
  have hp1 := pairs_at hI hO (j := l.length) (by omega)
  have hp2 := pairs_at hI hO (j := l.length + 1) hN
  have hcore := two_site_core hp1 hp2 hT1 hT2 eL eR ha hb0 ha' hb' hd0 hd0'
  have eM : g.twoSiteMatrix sense = some (g.sumPairs2 l.length fun p1 p2 L Rt => qfCompose2 L p1.op p2.op Rt) := by unfold QForm.twoSiteMatrix; rw [hpa]; rfl
  have eA : ∀ X, g.applyTwoSite X sense = some (g.sumPairs2 l.length fun p1 p2 L Rt =>
      fold (fold (reshape L [L.dim 2, L.dim 3]) 1 (foldin p1.op (-1) (foldin p2.op (-1) X 2) 1) 0) 3 (reshape Rt [Rt.dim 0, Rt.dim 1]) 1) := fun X => by unfold QForm.applyTwoSite; rw [hpa]; rfl
  have eD : g.twoDiag sense = some (g.sumPairs2 l.length fun p1 p2 L Rt => kron2v (kron2v (takeDiag (reshape L [L.dim 2, L.dim 3])) (takeDiag p1.op))
      (kron2v (takeDiag p2.op) (takeDiag (reshape Rt [Rt.dim 0, Rt.dim 1])))) := by unfold QForm.twoDiag; rw [hpa]; rfl
  refine ⟨_, eM, ?_, ?_, ?_, ?_⟩
  · rcases hcore with ⟨h, _⟩ | ⟨h, _⟩
    · left; rw [h]; exact empty_isEmpty
    · right; exact h
  · intro Y1 Y2 X1 X2 m n hm hn hY1 hY2 hX1 hX2
    have hform := form_blocks hl1 (WF.cons hY1 ha hd0 hm (WF.cons hY2 hm hd0' ha' (WF.nil a'))) hr1 (WFO.cutBond hO l.length (by omega)).1
      (WFO.cons hT1 hc hd0 hc1 (WFO.cons hT2 hc1 hd0' hc' (WFO.nil _))) (WFO.cutBond hO (l.length + 2) hN).2 hl2
      (WF.cons hX1 hb0 hd0 hn (WF.cons hX2 hn hd0' hb' (WF.nil b'))) hr2 (by simp)
    change expect (ds.take l.length ++ ([d, d'] ++ ds.drop (l.length + 2))) _ _ _ = _ at hform
    rw [hds, hOs] at hform
    simp only [List.singleton_append, List.cons_append, List.nil_append] at hform
    rw [hform]
    have hval : ∀ x i i' x' y j j' y', x' < a' → y' < b' →
        star (path [Y1, Y2] [i, i'] x x') * (∑ α ∈ Finset.range (bondO O l.length), ∑ β ∈ Finset.range (bondO O (l.length + 2)),
          envG (l.map Prod.fst) (O.take l.length) (l.map Prod.snd) (ds.take l.length) 0 0 0 x α y *
          opPath [site O l.length, site O (l.length + 1)] [i, i'] [j, j'] α β *
          envG (r.map Prod.fst) (O.drop (l.length + 2)) (r.map Prod.snd) (ds.drop (l.length + 2)) x' β y' 0 0 0) * path [X1, X2] [j, j'] y y' =
        star (joined m Y1 Y2 [x, i, i', x']) * eff2 (fun x α y => envG (l.map Prod.fst) (O.take l.length) (l.map Prod.snd) (ds.take l.length) 0 0 0 x α y)
          (site O l.length) (site O (l.length + 1))
          (fun x' β y' => envG (r.map Prod.fst) (O.drop (l.length + 2)) (r.map Prod.snd) (ds.drop (l.length + 2)) x' β y' 0 0 0)
          (bondO O l.length) (bondO O (l.length + 1)) (bondO O (l.length + 2)) x i i' x' y j j' y' * joined n X1 X2 [y, j, j', y'] := by
      intro x i i' x' y j j' y' hx' hy'
      have e1 : path [Y1, Y2] [i, i'] x x' = joined m Y1 Y2 [x, i, i', x'] := by
        rw [path_cons, dim2_of hY1]
        exact Finset.sum_congr rfl fun q _ => by rw [path_single hY2 hx']; rfl
      have e2 : path [X1, X2] [j, j'] y y' = joined n X1 X2 [y, j, j', y'] := by
        rw [path_cons, dim2_of hX1]
        exact Finset.sum_congr rfl fun q _ => by rw [path_single hX2 hy']; rfl
      rw [e1, e2]
      unfold eff2
      congr 2
      refine Finset.sum_congr rfl fun α _ => Finset.sum_congr rfl fun β hβ => ?_
      rw [opPath_cons, dim3_of hT1]
      congr 2
      exact Finset.sum_congr rfl fun q _ => by rw [opPath_single hT2 (Finset.mem_range.1 hβ)]
    unfold matForm
    rcases hcore with ⟨h, _, _, hW⟩ | ⟨h, hW, _⟩
    · rw [if_pos (by rw [h]; exact empty_isEmpty)]
      symm
      simp only [sumCfg4, sumCfg2]
      refine Finset.sum_eq_zero fun x hx => Finset.sum_eq_zero fun i hi => Finset.sum_eq_zero fun i' hi' => Finset.sum_eq_zero fun x' hx' =>
        Finset.sum_eq_zero fun y hy => Finset.sum_eq_zero fun j hj => Finset.sum_eq_zero fun j' hj' => Finset.sum_eq_zero fun y' hy' => ?_
      rw [Finset.mem_range] at hx hi hi' hx' hy hj hj' hy'
      rw [hval x i i' x' y j j' y' hx' hy']
      have := hW [x, i, i', x'] [y, j, j', y'] (.cons hx (.cons hi (.cons hi' (.cons hx' .nil)))) (.cons hy (.cons hj (.cons hj' (.cons hy' .nil))))
      simp only [List.getD_cons_zero, List.getD_cons_succ] at this
      rw [this]; simp
    · rw [if_neg (by rw [notEmpty_dims h (prod2_ne (prod4_ne ha hd0 hd0' ha') (prod4_ne hb0 hd0 hd0' hb'))]; simp)]
      simp only [sumCfg4, sumCfg2]
      refine Finset.sum_congr rfl fun x hx => Finset.sum_congr rfl fun i hi => Finset.sum_congr rfl fun i' hi' => Finset.sum_congr rfl fun x' hx' =>
        Finset.sum_congr rfl fun y hy => Finset.sum_congr rfl fun j hj => Finset.sum_congr rfl fun j' hj' => Finset.sum_congr rfl fun y' hy' => ?_
      rw [Finset.mem_range] at hx hi hi' hx' hy hj hj' hy'
      rw [hval x i i' x' y j j' y' hx' hy',
        hW [x, i, i', x'] [y, j, j', y'] (.cons hx (.cons hi (.cons hi' (.cons hx' .nil)))) (.cons hy (.cons hj (.cons hj' (.cons hy' .nil))))]
      simp only [List.getD_cons_zero, List.getD_cons_succ]
  · intro X hX
    refine ⟨_, eA X, ?_⟩
    rcases hcore with ⟨h, h2, _⟩ | ⟨h, hW, hA, _⟩
    · have h2X := h2 X
      beta_reduce at h2X
      rw [h2X, h]
      exact ⟨rfl, fun h => absurd h (by rw [empty_isEmpty]; simp)⟩
    · obtain ⟨h3, h4⟩ := hA X hX
      have e1 := notEmpty_dims h (prod2_ne (prod4_ne ha hd0 hd0' ha') (prod4_ne hb0 hd0 hd0' hb'))
      have e2 := notEmpty_dims h3 (prod4_ne ha hd0 hd0' ha')
      refine ⟨by rw [e1, e2], fun _ => ⟨h3, fun I hI => ?_⟩⟩
      rw [h4 I hI]
      refine sumCfg_congr fun J hJ => ?_
      rw [hW I J hI hJ]
  · rintro rfl rfl
    refine ⟨_, eD, ?_⟩
    rcases hcore with ⟨h, _, h2, _⟩ | ⟨h, hW, _, hD⟩
    · rw [h2, h]
      exact ⟨rfl, fun h => absurd h (by rw [empty_isEmpty]; simp)⟩
    · obtain ⟨h3, h4⟩ := hD rfl
      have e1 := notEmpty_dims h (prod2_ne (prod4_ne ha hd0 hd0' ha') (prod4_ne hb0 hd0 hd0' hb'))
      have e2 := notEmpty_dims h3 (prod1_ne (prod4_ne ha hd0 hd0' ha'))
      refine ⟨by rw [e1, e2], fun _ => ⟨h3, fun n hn => ?_⟩⟩
      obtain ⟨I, hI, rfl⟩ := flat_surj hn
      rw [h4 I hI, hW I I hI hI]

/-- **C51, two sites; C52.**  The same for `two_site_matrix(sense)`, `apply_two_site_matrix(P12, sense)` and
`take_two_site_matrix_diag(sense)`, with products of two tensors on the current site and the next one (`sense > 0`) or the
previous one (`sense ≤ 0`): the matrix gives `⟨bra| O |ket⟩`, the second function multiplies by it, and the third one is its
diagonal. -/
theorem C51_two_site_matrix {ds : List Nat} {O bra ket : List (Tensor R)} {start : Nat}
    (hO : WFO 1 O ds 1) (hb : WF 1 bra ds 1) (hk : WF 1 ket ds 1) (hs : start < ds.length) (sense : Int)
    (history : List (Move (Tensor R × Tensor R))) {k : List (Tensor R × Tensor R) × List (Tensor R × Tensor R)}
    {l r : List (Tensor R × Tensor R)} {a a' b b' : Nat}
    (hh : history.foldl Move.after ((bra.zip ket).take start, (bra.zip ket).drop (start + 1)) = k)
    (hpair : HasPair sense k) (hlr : aroundPair sense k = (l, r))
    (hl1 : WF 1 (l.map Prod.fst) (ds.take l.length) a) (hr1 : WF a' (r.map Prod.fst) (ds.drop (l.length + 2)) 1)
    (hl2 : WF 1 (l.map Prod.snd) (ds.take l.length) b) (hr2 : WF b' (r.map Prod.snd) (ds.drop (l.length + 2)) 1) :
    ∃ f, QForm.new O bra ket start = some f ∧
    let g := history.foldl QForm.move f
    let d := ds.getD l.length 0
    let d' := ds.getD (l.length + 1) 0
    ∃ M, g.twoSiteMatrix sense = some M ∧ (M.isEmpty = true ∨ M.dims = [[a, d, d', a'].prod, [b, d, d', b'].prod]) ∧
    (∀ (Y1 Y2 X1 X2 : Tensor R) (m n : Nat), 0 < m → 0 < n → Y1.dims = [a, d, m] → Y2.dims = [m, d', a'] →
      X1.dims = [b, d, n] → X2.dims = [n, d', b'] →
      matForm M [a, d, d', a'] [b, d, d', b'] (joined m Y1 Y2) (joined n X1 X2) =
        expect ds (l.map Prod.fst ++ Y1 :: Y2 :: r.map Prod.fst) O (l.map Prod.snd ++ X1 :: X2 :: r.map Prod.snd)) ∧
    (∀ X : Tensor R, X.dims = [b, d, d', b'] → ∃ V, g.applyTwoSite X sense = some V ∧ V.isEmpty = M.isEmpty ∧ (M.isEmpty = false →
      V.dims = [a, d, d', a'] ∧ ∀ I, IsCfg [a, d, d', a'] I → V.get I =
        sumCfg [b, d, d', b'] fun J => M.get [flat [a, d, d', a'] I, flat [b, d, d', b'] J] * X.get J)) ∧
    (a = b → a' = b' → ∃ D, g.twoDiag sense = some D ∧ D.isEmpty = M.isEmpty ∧ (M.isEmpty = false →
      D.dims = [[a, d, d', a'].prod] ∧ ∀ n, n < [a, d, d', a'].prod → D.get [n] = M.get [n, n])) := by
  obtain ⟨f, hf, hg0⟩ := QGood.new hO hb hk hs
  refine ⟨f, hf, ?_⟩
  intro g
  have hg : QGood ds O g k := by rw [← hh]; exact hg0.moves hO history
  exact form_two hO sense hg hpair hlr hl1 hr1 hl2 hr2

end MPS.Props
