import Verif.FormQLemmas

set_option linter.unusedSectionVars false
set_option linter.unusedSimpArgs false

/-! # Helper lemmas for quadratic forms: the cache through a history -/

namespace MPS.Form
open MPS Tensor
variable {R : Type} [CommRing R] [StarRing R] [DecidableEq R]

/-- the caches are right for all the bonds up to `lo` (left parts) and beyond `hi` (right parts) -/
structure QInv (ds : List Nat) (O : List (Tensor R)) (f : QForm R) (lo hi : Nat) (K : List (Tensor R × Tensor R)) : Prop where
  lenK : K.length = ds.length
  hereLt : f.here < ds.length
  sizeEq : f.size = ds.length
  pairsEq : f.pairs = O.map makePairs
  lenM : f.mat.length = ds.length + 1
  lenm : ∀ j, j ≤ ds.length → (f.mat.getD j []).length = bondO O j
  leftOk : ∀ j, j ≤ lo → j ≤ ds.length → LeftQ (f.mat.getD j []) ((K.take j).map Prod.fst) (O.take j) ((K.take j).map Prod.snd) (ds.take j) (bondO O j)
  rightOk : ∀ j, hi < j → j ≤ ds.length → RightQ (f.mat.getD j []) ((K.drop j).map Prod.fst) (O.drop j) ((K.drop j).map Prod.snd) (ds.drop j) (bondO O j)

variable {ds : List Nat} {O : List (Tensor R)} {f : QForm R} {lo hi : Nat} {K : List (Tensor R × Tensor R)}

theorem take_succ_set {α : Type} {K : List α} {h : Nat} (hh : h < K.length) (X : α) : (K.set h X).take (h + 1) = K.take h ++ [X] := by
  rw [List.take_succ_eq_append_getElem (by simpa using hh), take_set_ge _ _ le_rfl]; simp

theorem drop_set_at {α : Type} {K : List α} {h : Nat} (hh : h < K.length) (X : α) : (K.set h X).drop h = X :: K.drop (h + 1) := by
  rw [List.drop_eq_getElem_cons (by simpa using hh), drop_set_lt _ _ (Nat.lt_succ_self _)]; simp

theorem pairs_at (h : QInv ds O f lo hi K) (hO : WFO 1 O ds 1) {j : Nat} (hj : j < ds.length) : f.pairs.getD j [] = makePairs (site O j) := by
  have := hO.length
  rw [h.pairsEq]
  simp [site, this, hj]

theorem QInv.stepRight (h : QInv ds O f lo hi K) (hO : WFO 1 O ds 1) (hlo : f.here ≤ lo) (hN : f.here + 1 < ds.length) (X : Tensor R × Tensor R) :
    QInv ds O (f.propagateRight X.1 X.2) (f.here + 1) (max hi (f.here + 1)) (K.set f.here X) ∧
      (f.propagateRight X.1 X.2).here = f.here + 1 := by
  have hK := h.lenK
  have hM := h.lenM
  have hOl := hO.length
  have hpr := pairs_at h hO h.hereLt
  unfold QForm.propagateRight
  rw [if_neg (by rw [h.sizeEq]; omega)]
  simp only [hpr]
  have hstep : LeftQ ((makePairs (site O f.here)).foldl (qfRightStep (f.mat.getD f.here []) X.1 X.2)
        ((f.mat.getD (f.here + 1) []).map fun _ => Tensor.empty)) (((K.set f.here X).take (f.here + 1)).map Prod.fst) (O.take (f.here + 1))
        (((K.set f.here X).take (f.here + 1)).map Prod.snd) (ds.take (f.here + 1)) (bondO O (f.here + 1)) := by
    rw [take_succ_set (by omega), List.map_append, List.map_append, take_succ_site (by omega), List.take_succ_eq_append_getElem (by omega)]
    have ha := (WFO.at hO f.here h.hereLt).1
    have e : ds.getD f.here 0 = ds[f.here]'h.hereLt := by simp [h.hereLt]
    rw [e] at ha
    exact (h.leftOk f.here hlo (by omega)).step (WFO.cutBond hO f.here (by omega)).1 ha (h.lenm _ (by omega))
  generalize hnew : (makePairs (site O f.here)).foldl (qfRightStep (f.mat.getD f.here []) X.1 X.2)
        ((f.mat.getD (f.here + 1) []).map fun _ => Tensor.empty) = new at hstep ⊢
  have hg : ∀ j, (f.mat.set (f.here + 1) new).getD j [] = if j = f.here + 1 then new else f.mat.getD j [] := by
    intro j
    by_cases hj : j = f.here + 1
    · subst hj; simp [show f.here + 1 < f.mat.length by omega]
    · rw [if_neg hj]; simp [List.getElem?_set, show ¬ f.here + 1 = j from fun e => hj e.symm]
  refine ⟨⟨by simp [hK], by simpa using hN, h.sizeEq, h.pairsEq, by simp [hM], ?_, ?_, ?_⟩, trivial⟩
  · intro j hj
    simp only [hg]
    split
    · subst_vars; exact hstep.1
    · exact h.lenm j hj
  · intro j hj hjN
    simp only [hg]
    split
    · subst_vars; exact hstep
    · rw [take_set_ge _ _ (by omega)]; exact h.leftOk j (by omega) hjN
  · intro j hj hjN
    have hj1 : f.here + 1 < j := lt_of_le_of_lt (le_max_right _ _) hj
    have hj2 : hi < j := lt_of_le_of_lt (le_max_left _ _) hj
    simp only [hg]
    rw [if_neg (by omega), drop_set_lt _ _ (by omega)]
    exact h.rightOk j hj2 hjN

theorem QInv.stepLeft (h : QInv ds O f lo hi K) (hO : WFO 1 O ds 1) (hhi : hi ≤ f.here) (h0 : 0 < f.here) (X : Tensor R × Tensor R) :
    QInv ds O (f.propagateLeft X.1 X.2) (min lo (f.here - 1)) (f.here - 1) (K.set f.here X) ∧
      (f.propagateLeft X.1 X.2).here = f.here - 1 := by
  have hK := h.lenK
  have hM := h.lenM
  have hOl := hO.length
  have hN := h.hereLt
  have hpr := pairs_at h hO h.hereLt
  unfold QForm.propagateLeft
  rw [if_neg (by omega)]
  simp only [hpr]
  have hstep : RightQ ((makePairs (site O f.here)).foldl (qfLeftStep (f.mat.getD (f.here + 1) []) X.1 X.2)
        ((f.mat.getD f.here []).map fun _ => Tensor.empty)) (((K.set f.here X).drop f.here).map Prod.fst) (O.drop f.here)
        (((K.set f.here X).drop f.here).map Prod.snd) (ds.drop f.here) (bondO O f.here) := by
    obtain ⟨ha, hc, hd, hc'⟩ := WFO.at hO f.here h.hereLt
    have e : ds.getD f.here 0 = ds[f.here]'h.hereLt := by simp [h.hereLt]
    rw [e] at ha hd
    rw [drop_set_at (by omega), List.map_cons, List.map_cons, drop_site (K := O) (by omega), List.drop_eq_getElem_cons (l := ds) (by omega)]
    exact (h.rightOk (f.here + 1) (by omega) (by omega)).step ha (h.lenm _ (by omega)) hc hd hc'
  generalize hnew : (makePairs (site O f.here)).foldl (qfLeftStep (f.mat.getD (f.here + 1) []) X.1 X.2)
        ((f.mat.getD f.here []).map fun _ => Tensor.empty) = new at hstep ⊢
  have hg : ∀ j, (f.mat.set f.here new).getD j [] = if j = f.here then new else f.mat.getD j [] := by
    intro j
    by_cases hj : j = f.here
    · subst hj; simp [show f.here < f.mat.length by omega]
    · rw [if_neg hj]; simp [List.getElem?_set, show ¬ f.here = j from fun e => hj e.symm]
  refine ⟨⟨by simp [hK], by simp only; omega, h.sizeEq, h.pairsEq, by simp [hM], ?_, ?_, ?_⟩, trivial⟩
  · intro j hj
    simp only [hg]
    split
    · subst_vars; exact hstep.1
    · exact h.lenm j hj
  · intro j hj hjN
    simp only [hg]
    rw [if_neg (by omega), take_set_ge _ _ (by omega)]
    exact h.leftOk j (by omega) hjN
  · intro j hj hjN
    simp only [hg]
    split
    · subst_vars; exact hstep
    · rw [drop_set_lt _ _ (by omega)]
      exact h.rightOk j (by omega) hjN

theorem leftQ_ones : LeftQ ([ones4] : List (Tensor R)) [] [] [] [] 1 := by
  refine ⟨rfl, fun a b hQ hP α hα => ?_, fun a b hQ hP α hα hem => ?_⟩
  rotate_left
  · obtain rfl : α = 0 := by omega
    exact absurd hem (by simp [ones4, Tensor.isEmpty, Tensor.size])
  obtain rfl : α = 0 := by omega
  obtain rfl := (WF.nil_iff hQ).2
  obtain rfl := (WF.nil_iff hP).2
  refine Or.inr ⟨rfl, fun x y hx hy => ?_⟩
  obtain rfl : x = 0 := by omega
  obtain rfl : y = 0 := by omega
  simp [ones4, envG, path, opPath]

theorem rightQ_ones : RightQ ([ones4] : List (Tensor R)) [] [] [] [] 1 := by
  refine ⟨rfl, fun a b hQ hP α hα => ?_, fun a b hQ hP α hα hem => ?_⟩
  rotate_left
  · obtain rfl : α = 0 := by omega
    exact absurd hem (by simp [ones4, Tensor.isEmpty, Tensor.size])
  obtain rfl : α = 0 := by omega
  obtain rfl := (WF.nil_iff hQ).2
  obtain rfl := (WF.nil_iff hP).2
  refine Or.inr ⟨rfl, fun x y hx hy => ?_⟩
  obtain rfl : x = 0 := by omega
  obtain rfl : y = 0 := by omega
  simp [ones4, envG, path, opPath]

theorem QInv.init (hO : WFO 1 O ds 1) (hK : K.length = ds.length) (hN : 0 < ds.length) {n : Nat} (hn : n < ds.length) :
    QInv ds O ⟨n, O.length, makeDatabase O, O.map makePairs⟩ 0 (ds.length - 1) K := by
  have hl := hO.length
  have hg : ∀ j, j ≤ ds.length → (makeDatabase O).getD j [] =
      if j = 0 ∨ j = O.length then [ones4] else List.replicate ((site O j).dim 0) Tensor.empty := by
    intro j hj
    unfold makeDatabase
    simp [show j < O.length + 1 by omega]
  refine ⟨hK, hn, hl, rfl, by simp [makeDatabase, hl], ?_, ?_, ?_⟩
  · intro j hj
    simp only [hg j hj]
    unfold bondO
    split <;> simp
  · intro j hj hjN
    obtain rfl : j = 0 := by omega
    simp only [hg 0 hjN]
    simp [bondO]
    exact leftQ_ones
  · intro j hj hjN
    obtain rfl : j = ds.length := by omega
    simp only [hg _ hjN]
    rw [List.drop_of_length_le (l := K) (by omega), List.drop_of_length_le (l := O) (by omega)]
    simp [bondO, hl]
    exact rightQ_ones

theorem set_pair_self {bra ket : List (Tensor R)} (hl : bra.length = ket.length) {h : Nat} (hh : h < bra.length) :
    (bra.zip ket).set h (site bra h, site ket h) = bra.zip ket := by
  apply List.ext_getElem (by simp)
  intro n h1 h2
  rw [List.getElem_set]
  split
  · subst_vars; have hk := hl ▸ hh; simp [site, hh, hk]
  · rfl

theorem QInv.new {bra ket : List (Tensor R)} {start : Nat} (hO : WFO 1 O ds 1) (hb : WF 1 bra ds 1) (hk : WF 1 ket ds 1) (hs : start < ds.length) :
    ∃ f, QForm.new O bra ket start = some f ∧ QInv ds O f start start (bra.zip ket) ∧ f.here = start := by
  have hOl := hO.length
  have hbl := hb.length
  have hkl := hk.length
  have hK : (bra.zip ket).length = ds.length := by simp [hbl, hkl]
  have hd1 : ∀ {Q : List (Tensor R)}, WF 1 Q ds 1 → (site Q 0).dim 0 = 1 := by
    intro Q hQ
    cases hQ with
    | nil => simp at hs
    | cons h1 _ _ _ _ => simp [site, dim, h1]
  have hd2 : (site O 0).dim 0 = 1 := by
    have := (WFO.at hO 0 (by omega)).1
    rw [(dim_of4 this).1]; simp [bondO]
  unfold QForm.new
  rw [if_neg (by rw [hd1 hb, hd1 hk, hd2]; simp)]
  refine ⟨_, rfl, ?_⟩
  simp only [hOl]
  have h0 := QInv.init (n := ds.length - 1) hO hK (by omega) (by omega)
  rw [hOl] at h0
  have h1 : ∀ m, m ≤ ds.length - 1 - start → QInv ds O ((List.range m).foldl (fun f _ => f.propagateLeft (site bra f.here) (site ket f.here))
      ⟨ds.length - 1, ds.length, makeDatabase O, O.map makePairs⟩) 0 (ds.length - 1 - m) (bra.zip ket) ∧
      ((List.range m).foldl (fun f _ => f.propagateLeft (site bra f.here) (site ket f.here))
      (⟨ds.length - 1, ds.length, makeDatabase O, O.map makePairs⟩ : QForm R)).here = ds.length - 1 - m := by
    intro m
    induction m with
    | zero => intro _; exact ⟨h0, rfl⟩
    | succ m ih =>
      intro hm
      obtain ⟨i1, i2⟩ := ih (by omega)
      rw [List.range_succ, List.foldl_append]
      simp only [List.foldl_cons, List.foldl_nil]
      have := i1.stepLeft hO (by omega) (by omega) (site bra (ds.length - 1 - m), site ket (ds.length - 1 - m))
      rw [i2, set_pair_self (by omega) (by omega), Nat.zero_min] at this
      rw [i2]
      rwa [show ds.length - 1 - (m + 1) = ds.length - 1 - m - 1 by omega]
  obtain ⟨i1, i2⟩ := h1 _ le_rfl
  rw [show ds.length - 1 - (ds.length - 1 - start) = start by omega] at i1 i2
  generalize hf : (List.range (ds.length - 1 - start)).foldl (fun f _ => f.propagateLeft (site bra f.here) (site ket f.here))
      (⟨ds.length - 1, ds.length, makeDatabase O, O.map makePairs⟩ : QForm R) = f at i1 i2 ⊢
  have j0 : QInv ds O ({ f with here := 0 } : QForm R) 0 start (bra.zip ket) :=
    ⟨i1.lenK, by simp only; omega, i1.sizeEq, i1.pairsEq, i1.lenM, i1.lenm, i1.leftOk, i1.rightOk⟩
  have h2 : ∀ m, m ≤ start → QInv ds O ((List.range m).foldl (fun f _ => f.propagateRight (site bra f.here) (site ket f.here))
      ({ f with here := 0 } : QForm R)) m start (bra.zip ket) ∧
      ((List.range m).foldl (fun f _ => f.propagateRight (site bra f.here) (site ket f.here)) ({ f with here := 0 } : QForm R)).here = m := by
    intro m
    induction m with
    | zero => intro _; exact ⟨j0, rfl⟩
    | succ m ih =>
      intro hm
      obtain ⟨i1, i2⟩ := ih (by omega)
      rw [List.range_succ, List.foldl_append]
      simp only [List.foldl_cons, List.foldl_nil]
      have := i1.stepRight hO (by omega) (by omega) (site bra m, site ket m)
      rw [i2, set_pair_self (by omega) (by omega), max_eq_left (by omega)] at this
      rw [i2]
      exact this
  exact h2 _ le_rfl

/-- the caches are right around the current site -/
def QGood (ds : List Nat) (O : List (Tensor R)) (f : QForm R) (k : List (Tensor R × Tensor R) × List (Tensor R × Tensor R)) : Prop :=
  ∃ K, QInv ds O f f.here f.here K ∧ K.take f.here = k.1 ∧ K.drop (f.here + 1) = k.2

theorem QGood.move {k : List (Tensor R × Tensor R) × List (Tensor R × Tensor R)} (h : QGood ds O f k) (hO : WFO 1 O ds 1)
    (m : Move (Tensor R × Tensor R)) : QGood ds O (f.move m) (m.after k) := by
  obtain ⟨K, h1, h2, h3⟩ := h
  have hN := h1.hereLt
  have hK := h1.lenK
  cases m with
  | right X =>
    simp only [QForm.move, QForm.propagate, Move.after, show (1 : Int) > 0 by decide, if_true]
    by_cases hl : f.here + 1 = ds.length
    · have e : f.propagateRight X.1 X.2 = f := by
        unfold QForm.propagateRight; rw [if_pos (by rw [h1.sizeEq]; omega)]
      have : k.2 = [] := by rw [← h3]; simp; omega
      rw [e, if_pos this]; exact ⟨K, h1, h2, h3⟩
    · obtain ⟨i1, i2⟩ := h1.stepRight hO le_rfl (by omega) X
      have : k.2 ≠ [] := by rw [← h3]; simp; omega
      rw [if_neg this]
      refine ⟨K.set f.here X, ?_, ?_, ?_⟩
      · rw [i2]; rwa [max_eq_right (by omega)] at i1
      · rw [i2, take_succ_set (by omega), h2]
      · rw [i2, drop_set_lt _ _ (by omega), ← h3, List.tail_drop]
  | left X =>
    simp only [QForm.move, QForm.propagate, Move.after, show ¬ (-1 : Int) > 0 by decide, if_false]
    by_cases hl : f.here = 0
    · have e : f.propagateLeft X.1 X.2 = f := by
        unfold QForm.propagateLeft; rw [if_pos hl]
      have : k.1 = [] := by rw [← h2, hl]; simp
      rw [e, if_pos this]; exact ⟨K, h1, h2, h3⟩
    · obtain ⟨i1, i2⟩ := h1.stepLeft hO le_rfl (by omega) X
      have : k.1 ≠ [] := by
        rw [← h2]; intro h; rw [List.take_eq_nil_iff] at h
        rcases h with h | h
        · exact hl h
        · rw [h] at hK; simp at hK; omega
      rw [if_neg this]
      refine ⟨K.set f.here X, ?_, ?_, ?_⟩
      · rw [i2]; rwa [min_eq_right (by omega)] at i1
      · rw [i2, take_set_ge _ _ (by omega), ← h2, List.dropLast_take (by omega)]
      · rw [i2, show f.here - 1 + 1 = f.here by omega, drop_set_at (by omega), h3]

theorem QGood.moves {k : List (Tensor R × Tensor R) × List (Tensor R × Tensor R)} (h : QGood ds O f k) (hO : WFO 1 O ds 1)
    (ms : List (Move (Tensor R × Tensor R))) : QGood ds O (ms.foldl QForm.move f) (ms.foldl Move.after k) := by
  induction ms generalizing f k with
  | nil => exact h
  | cons m ms ih => exact ih (h.move hO m)

theorem QGood.new {bra ket : List (Tensor R)} {start : Nat} (hO : WFO 1 O ds 1) (hb : WF 1 bra ds 1) (hk : WF 1 ket ds 1) (hs : start < ds.length) :
    ∃ f, QForm.new O bra ket start = some f ∧ QGood ds O f ((bra.zip ket).take start, (bra.zip ket).drop (start + 1)) := by
  obtain ⟨f, h0, h1, h2⟩ := QInv.new hO hb hk hs
  exact ⟨f, h0, bra.zip ket, by rw [h2]; exact h1, by rw [h2], by rw [h2]⟩

theorem QGood.here {k : List (Tensor R × Tensor R) × List (Tensor R × Tensor R)} (h : QGood ds O f k) : f.here = k.1.length := by
  obtain ⟨K, h1, h2, h3⟩ := h
  rw [← h2, List.length_take, h1.lenK]
  have := h1.hereLt
  omega

end MPS.Form
