import Verif.MPOBuild2

set_option linter.unusedSectionVars false
set_option linter.unusedSimpArgs false

/-! # Helper lemmas: long range interactions, hopping matrices, product terms -/

namespace MPS
open Tensor
variable {R : Type} [CommRing R]

theorem site_mapIdx {O : List (Tensor R)} (f : Nat → Tensor R → Tensor R) {j : Nat} (h : j < O.length) :
    site (O.mapIdx f) j = f j (site O j) := by
  simp [site, h]

theorem tensorOp_zero {ds s t : List Nat} {f : Nat → Tensor R} (hs : IsCfg ds s) (ht : IsCfg ds t) {k : Nat}
    (hk : k < ds.length) (h : ∀ x y, x < ds.getD k 0 → y < ds.getD k 0 → (f k).get [x, y] = 0) :
    tensorOp ds.length f s t = 0 := by
  refine Finset.prod_eq_zero (Finset.mem_range.2 hk) (h _ _ ?_ ?_)
  · have := List.Forall₂.get hs (i := k) (by rw [List.Forall₂.length_eq hs]; exact hk) hk
    have h1 : k < s.length := by rw [List.Forall₂.length_eq hs]; exact hk
    simpa [List.getElem?_eq_getElem hk, List.getElem?_eq_getElem h1] using this
  · have := List.Forall₂.get ht (i := k) (by rw [List.Forall₂.length_eq ht]; exact hk) hk
    have h1 : k < t.length := by rw [List.Forall₂.length_eq ht]; exact hk
    simpa [List.getElem?_eq_getElem hk, List.getElem?_eq_getElem h1] using this

theorem tensorOp_congr {ds s t : List Nat} {f g : Nat → Tensor R} (hs : IsCfg ds s) (ht : IsCfg ds t)
    (h : ∀ k, k < ds.length → ∀ x y, x < ds.getD k 0 → y < ds.getD k 0 → (f k).get [x, y] = (g k).get [x, y]) :
    tensorOp ds.length f s t = tensorOp ds.length g s t := by
  refine Finset.prod_congr rfl fun k hk => ?_
  rw [Finset.mem_range] at hk
  refine h k hk _ _ ?_ ?_
  · have := List.Forall₂.get hs (i := k) (by rw [List.Forall₂.length_eq hs]; exact hk) hk
    have h1 : k < s.length := by rw [List.Forall₂.length_eq hs]; exact hk
    simpa [List.getElem?_eq_getElem hk, List.getElem?_eq_getElem h1] using this
  · have := List.Forall₂.get ht (i := k) (by rw [List.Forall₂.length_eq ht]; exact hk) hk
    have h1 : k < t.length := by rw [List.Forall₂.length_eq ht]; exact hk
    simpa [List.getElem?_eq_getElem hk, List.getElem?_eq_getElem h1] using this

theorem unflat_mat {d e x y : Nat} (hx : x < d) (hy : y < e) : unflat [d, e] (x + d * y) = [x, y] := by
  have hd : 0 < d := by omega
  simp only [unflat]
  rw [Nat.add_mul_mod_self_left, Nat.mod_eq_of_lt hx, Nat.add_mul_div_left _ _ hd, Nat.div_eq_of_lt hx,
    Nat.zero_add, Nat.mod_eq_of_lt hy]

section
variable [DecidableEq R]

theorem isZeroT_iff {A : Tensor R} {d e : Nat} (h : A.dims = [d, e]) :
    isZeroT A = true ↔ ∀ x y, x < d → y < e → A.get [x, y] = 0 := by
  simp only [isZeroT, List.all_eq_true, List.mem_range, decide_eq_true_eq, size, h, lin]
  constructor
  · intro hh x y hx hy
    have := hh (x + d * y) (by
      simp
      calc x + d * y < d + d * y := by omega
        _ = d * (y + 1) := by ring
        _ ≤ d * e := Nat.mul_le_mul_left _ hy)
    rwa [unflat_mat hx hy] at this
  · intro hh n hn
    simp at hn
    have hd : 0 < d := by
      rcases Nat.eq_zero_or_pos d with h | h
      · subst h; simp at hn
      · exact h
    have he : 0 < e := by
      rcases Nat.eq_zero_or_pos e with h | h
      · subst h; simp at hn
      · exact h
    simp only [unflat]
    exact hh _ _ (Nat.mod_lt _ hd) (Nat.mod_lt _ he)

theorem startLoop_spec (p : Nat → Bool) (f s : Nat) :
    s ≤ startLoop p f s ∧ startLoop p f s ≤ s + f ∧ (∀ j, s ≤ j → j < startLoop p f s → p j = true) ∧
      (startLoop p f s < s + f → p (startLoop p f s) = false) := by
  induction f generalizing s with
  | zero =>
    refine ⟨le_refl _, le_refl _, ?_, ?_⟩
    · intro j h1 h2; simp [startLoop] at h2; omega
    · intro h; simp [startLoop] at h
  | succ f ih =>
    rw [startLoop]
    split
    · next hp =>
      obtain ⟨h1, h2, h3, h4⟩ := ih (s + 1)
      refine ⟨by omega, by omega, fun j hj hj' => ?_, fun h => h4 (by omega)⟩
      by_cases hjs : j = s
      · rw [hjs]; exact hp
      · exact h3 j (by omega) hj'
    · next hp =>
      exact ⟨le_refl _, by omega, fun j h1 h2 => by omega, fun _ => by simpa using hp⟩

theorem endLoop_spec (p : Nat → Bool) (n : Nat) :
    endLoop p n ≤ n ∧ (∀ j, endLoop p n ≤ j → j < n → p j = true) ∧
      (0 < endLoop p n → p (endLoop p n - 1) = false) := by
  induction n with
  | zero => exact ⟨le_refl _, fun j h1 h2 => by omega, fun h => by simp [endLoop] at h⟩
  | succ n ih =>
    rw [endLoop]
    split
    · next hp =>
      obtain ⟨h1, h2, h3⟩ := ih
      refine ⟨by omega, fun j hj hj' => ?_, h3⟩
      by_cases hjn : j = n
      · rw [hjn]; exact hp
      · exact h2 j hj (by omega)
    · next hp =>
      exact ⟨le_refl _, fun j h1 h2 => by omega, fun _ => by simpa using hp⟩

/-- the operator string of a long-range term between `i` and `j` -/
def lrString (ds : List Nat) (H : List (Tensor R)) (i : Nat) (sign : Option (Tensor R)) (j : Nat) :
    Nat → Tensor R := fun k =>
  if k = i then site H i else if k = j then site H j
  else if min i j < k ∧ k < max i j then sign.getD (eye (ds.getD k 0)) else eye (ds.getD k 0)

theorem longRange_chan {P Hj : Tensor R} {dl d dr i st en lc j : Nat} {sign : Option (Tensor R)}
    (h : P.dims = [dl, d, d, dr]) (hH : Hj.dims = [d, d]) (hst : st ≤ j) (hen : j < en)
    (hdr : j + 1 < en → 2 ≤ dr) (hlc : lc ≤ 1) :
    ChanT (decide (st < j ∧ j < en)) (decide (st < j + 1 ∧ j + 1 < en)) (if j + 1 < en then 1 else lc)
      (fun x y => if j ≤ i then Hj.get [x, y] else 0) (fun x y => if i ≤ j then Hj.get [x, y] else 0)
      (fun x y => if i ≠ j then (sign.getD (eye d)).get [x, y] else 0) (fun _ _ => 0) P
      (longRangeSite Hj i sign st en lc j P) dl d dr := by
  have e0 : P.dim 0 = dl := by simp [dim, h]
  have e3 : P.dim 3 = dr := by simp [dim, h]
  have eH : Hj.dim 0 = d := by simp [dim, hH]
  have hsg : (match sign with | some s => s | none => (eye d : Tensor R)) = sign.getD (eye d) := by
    cases sign <;> rfl
  have c3 := changeDim3 (n := dr + 1) h
  rw [show decide (st < j ∧ j < en) = decide (st < j) by simp [hen],
    show decide (st < j + 1 ∧ j + 1 < en) = decide (j + 1 < en) by simp; omega]
  -- the tensor after the first step
  obtain ⟨P1, hP1, p1, p2, p3⟩ : ∃ P1 : Tensor R, P1 = (if j + 1 < en then
        (if j ≤ i then setSlice (changeDim P 3 (dr + 1)) 0 dr Hj else changeDim P 3 (dr + 1)) else P) ∧
      P1.dims = [dl, d, d, dr + (decide (j + 1 < en)).toNat] ∧
      (∀ a x y b, b < dr → P1.get [a, x, y, b] = P.get [a, x, y, b]) ∧
      (j + 1 < en → ∀ a x y, P1.get [a, x, y, dr] = if a = 0 then (if j ≤ i then Hj.get [x, y] else 0) else 0) := by
    refine ⟨_, rfl, ?_, ?_, ?_⟩
    · split
      · split <;> simp [*, c3.1]
      · simp [*]
    · intro a x y b hb
      split
      · split
        · rw [setSlice_get, if_neg (by omega), c3.2, if_pos hb]
        · rw [c3.2, if_pos hb]
      · rfl
    · intro hj a x y
      rw [if_pos hj]
      split
      · rw [setSlice_get, c3.2]; simp
      · rw [c3.2]; simp
  have hdef : longRangeSite Hj i sign st en lc j P =
      if st < j then
        (if i ≠ j ∧ j + 1 < en then
          setSlice (if i ≤ j then setSlice (changeDim P1 0 (dl + 1)) dl (if j + 1 < en then 1 else lc) Hj
            else changeDim P1 0 (dl + 1)) dl dr (sign.getD (eye d))
        else (if i ≤ j then setSlice (changeDim P1 0 (dl + 1)) dl (if j + 1 < en then 1 else lc) Hj
            else changeDim P1 0 (dl + 1)))
      else P1 := by
    subst hP1
    cases sign <;> simp only [longRangeSite, e0, e3, eH] <;> rfl
  rw [hdef]
  by_cases hs : st < j
  · rw [if_pos hs]
    have c0 := show (changeDim P1 0 (dl + 1)).dims = [dl + 1, d, d, dr + (decide (j + 1 < en)).toNat] ∧ ∀ a x y b,
      (changeDim P1 0 (dl + 1)).get [a, x, y, b] = if a < dl then P1.get [a, x, y, b] else 0 by
        constructor <;> simp [changeDim, p1]
    set cl := if j + 1 < en then 1 else lc with hcl
    have hcl1 : cl ≤ 1 := by rw [hcl]; split <;> omega
    obtain ⟨P3, hP3, q1, q2, q3⟩ : ∃ P3 : Tensor R, P3 = (if i ≤ j then setSlice (changeDim P1 0 (dl + 1)) dl cl Hj
          else changeDim P1 0 (dl + 1)) ∧ P3.dims = [dl + 1, d, d, dr + (decide (j + 1 < en)).toNat] ∧
        (∀ a x y b, a < dl → P3.get [a, x, y, b] = P1.get [a, x, y, b]) ∧
        (∀ x y b, P3.get [dl, x, y, b] = if b = cl then (if i ≤ j then Hj.get [x, y] else 0) else 0) := by
      refine ⟨_, rfl, ?_, ?_, ?_⟩
      · split <;> simp [c0.1]
      · intro a x y b ha
        split
        · rw [setSlice_get, if_neg (by omega), c0.2, if_pos ha]
        · rw [c0.2, if_pos ha]
      · intro x y b
        split
        · rw [setSlice_get, c0.2]; simp
        · rw [c0.2]; simp
    rw [← hP3]
    refine ⟨?_, ?_, ?_, ?_, ?_⟩
    · split <;> simp [q1, hs]
    · intro a x y b ha hb _ _
      rw [show (if a = 0 ∧ b = cl then (0 : R) else 0) = 0 by simp, add_zero]
      split
      · rw [setSlice_get, if_neg (by omega), q2 _ _ _ _ ha, p2 _ _ _ _ hb]
      · rw [q2 _ _ _ _ ha, p2 _ _ _ _ hb]
    · intro hr a x y ha _ _
      have hr' : j + 1 < en := by simpa using hr
      split
      · rw [setSlice_get, if_neg (by omega), q2 _ _ _ _ ha, p3 hr']
      · rw [q2 _ _ _ _ ha, p3 hr']
    · intro _ x y b hb _ _
      split
      · rw [setSlice_get, if_neg (by omega), q3]
      · rw [q3]
    · intro _ hr x y _ _
      have hr' : j + 1 < en := by simpa using hr
      have := hdr hr'
      by_cases hij : i ≠ j
      · rw [if_pos ⟨hij, hr'⟩, setSlice_get, if_pos ⟨rfl, rfl⟩, if_pos hij]
      · rw [if_neg (by tauto), q3, if_neg (by omega), if_neg hij]
  · rw [if_neg hs]
    refine ⟨by simpa [hs] using p1, ?_, ?_, by simp [hs], by simp [hs]⟩
    · intro a x y b _ hb _ _
      rw [p2 _ _ _ _ hb]; simp
    · intro hr a x y _ _ _
      exact p3 (by simpa using hr) _ _ _

theorem pair_sum_eq {st en i L : Nat} (T : Nat → R) (hst : st ≤ i) (hen : i < en) (hL : en ≤ L)
    (h0 : ∀ j, j < L → ¬ (st ≤ j ∧ j < en) → T j = 0) :
    (∑ a ∈ Finset.Ico st en, ∑ b ∈ Finset.Ico (a + 1) en,
      (if a = i then T b else if b = i then T a else 0)) = ∑ j ∈ (Finset.range L).erase i, T j := by
  have h1 : ∀ a ∈ Finset.Ico st en, (∑ b ∈ Finset.Ico (a + 1) en,
      (if a = i then T b else if b = i then T a else 0))
      = (if a = i then ∑ b ∈ Finset.Ico (i + 1) en, T b else 0) + if a < i then T a else 0 := by
    intro a ha
    rw [Finset.mem_Ico] at ha
    by_cases hai : a = i
    · subst hai; simp
    · simp only [if_neg hai, zero_add]
      rw [Finset.sum_ite_eq']
      by_cases hlt : a < i
      · rw [if_pos (Finset.mem_Ico.2 ⟨by omega, hen⟩), if_pos hlt]
      · rw [if_neg (by rw [Finset.mem_Ico]; omega), if_neg hlt]
  rw [Finset.sum_congr rfl h1, Finset.sum_add_distrib, Finset.sum_ite_eq',
    if_pos (Finset.mem_Ico.2 ⟨hst, hen⟩)]
  have h2 : ∑ j ∈ (Finset.range L).erase i, T j = ∑ j ∈ (Finset.Ico st en).erase i, T j := by
    symm
    refine Finset.sum_subset ?_ ?_
    · intro j hj; simp at hj ⊢; omega
    · intro j hj hj'
      simp at hj hj'
      refine h0 j (by omega) (fun hh => ?_)
      have := hj' hj.1 hh.1; omega
  rw [h2]
  have h3 : (Finset.Ico st en).erase i = Finset.Ico (i + 1) en ∪ Finset.Ico st i := by
    ext j; simp; omega
  rw [h3, Finset.sum_union (by
    rw [Finset.disjoint_left]; intro j hj; simp at hj ⊢; omega)]
  congr 1
  rw [← Finset.sum_filter]
  congr 1
  ext j; simp; omega

theorem addLongRange_spec {O H : List (Tensor R)} {ds : List Nat} {i : Nat} {sign : Option (Tensor R)}
    (hO : HInv ds O) (hi : i < ds.length)
    (hH : ∀ j, j < ds.length → (site H j).dims = [ds.getD j 0, ds.getD j 0]) :
    ∃ O', addLongRange O H i sign = some O' ∧ HInv ds O' ∧ ∀ s t, IsCfg ds s → IsCfg ds t →
      opElt O' s t = opElt O s t + ∑ j ∈ (Finset.range ds.length).erase i,
        tensorOp ds.length (lrString ds H i sign j) s t := by
  have hlen := hO.length
  unfold addLongRange
  rw [if_neg (by omega)]
  simp only [Int.toNat_natCast]
  by_cases hz : isZeroT (site H i) = true
  · rw [if_pos hz]
    refine ⟨O, rfl, hO, fun s t hs ht => ?_⟩
    rw [Finset.sum_eq_zero, add_zero]
    intro j hj
    refine tensorOp_zero hs ht hi fun x y hx hy => ?_
    rw [lrString, if_pos rfl]
    exact (isZeroT_iff (hH i hi)).1 hz x y hx hy
  · rw [if_neg hz]
    set z := fun j => isZeroT (site H j) with hzdef
    obtain ⟨_, s2, s3, _⟩ := startLoop_spec z O.length 0
    obtain ⟨n1, n2, _⟩ := endLoop_spec z O.length
    set st := startLoop z O.length 0 with hst
    set en := endLoop z O.length with hen
    have hsti : st ≤ i := by
      by_contra hc
      exact hz (s3 i (by omega) (by omega))
    have hien : i < en := by
      by_contra hc
      exact hz (n2 i (by omega) (by omega))
    set lc := if en < O.length then 1 else 0 with hlc
    refine ⟨_, rfl, ?_⟩
    have := add_chan_gen (O' := O.mapIdx fun j P =>
        if st ≤ j ∧ j < en then longRangeSite (site H j) i sign st en lc j P else P) (st := st) (en := en)
      (X := fun j x y => if j ≤ i then (site H j).get [x, y] else 0)
      (Y := fun j x y => if i ≤ j then (site H j).get [x, y] else 0)
      (S := fun j x y => if i ≠ j then (sign.getD (eye (ds.getD j 0))).get [x, y] else 0) hO (by omega) (by simp) ?_
    · refine ⟨this.1, fun s t hs ht => ?_⟩
      rw [this.2 s t hs ht]
      congr 1
      have hl : s.length = t.length := by
        rw [List.Forall₂.length_eq hs, List.Forall₂.length_eq ht]
      have hls : s.length = ds.length := List.Forall₂.length_eq hs
      rw [← pair_sum_eq (st := st) (en := en) (fun j => tensorOp ds.length (lrString ds H i sign j) s t) hsti hien
        (by omega)]
      · refine Finset.sum_congr rfl fun a ha => Finset.sum_congr rfl fun b hb => ?_
        rw [Finset.mem_Ico] at ha hb
        by_cases hai : a = i
        · subst hai
          rw [if_pos rfl]
          refine prodFrom_tensorOp hs ht fun k x y _ => ?_
          simp only [strOp, lrString]
          by_cases hka : k = a
          · simp [hka]
          · rw [if_neg hka, if_neg hka]
            by_cases hkb : k = b
            · subst hkb; simp; omega
            · rw [if_neg hkb, if_neg hkb, show min a b = a by omega, show max a b = b by omega]
              by_cases hk : a < k ∧ k < b
              · rw [if_pos hk, if_pos hk, if_pos (by omega)]
              · rw [if_neg hk, if_neg hk, eye_get]
        · rw [if_neg hai]
          by_cases hbi : b = i
          · subst hbi
            rw [if_pos rfl]
            refine prodFrom_tensorOp hs ht fun k x y _ => ?_
            simp only [strOp, lrString]
            by_cases hkb : k = b
            · subst hkb; simp [Ne.symm hai]
            · rw [if_neg hkb, if_neg hkb]
              by_cases hka : k = a
              · subst hka; simp; omega
              · rw [if_neg hka, if_neg hka, show min b a = a by omega, show max b a = b by omega]
                by_cases hk : a < k ∧ k < b
                · rw [if_pos hk, if_pos hk, if_pos (by omega)]
                · rw [if_neg hk, if_neg hk, eye_get]
          · rw [if_neg hbi]
            by_cases h1 : i < a
            · exact prodFrom_zero (a := a) hl (by omega) fun x y => by simp [strOp, show ¬ a ≤ i by omega]
            · by_cases h2 : b < i
              · exact prodFrom_zero (a := b) hl (by omega) fun x y => by
                  simp [strOp, show b ≠ a by omega, show ¬ i ≤ b by omega]
              · refine prodFrom_zero (a := i) hl (by omega) fun x y => ?_
                simp only [strOp]
                rw [if_neg (by omega), if_neg (by omega), if_pos (by omega)]; simp
      · intro j hj hj'
        by_cases hji : j = i
        · subst hji; omega
        refine tensorOp_zero hs ht hj fun x y hx hy => ?_
        rw [lrString, if_neg hji, if_pos rfl]
        refine (isZeroT_iff (hH j hj)).1 ?_ x y hx hy
        by_cases hjs : j < st
        · exact s3 j (by omega) hjs
        · exact n2 j (by omega) (by omega)
    · intro j hj
      rw [site_mapIdx _ hj]
      obtain ⟨dl, dr, f1, f2, f3, f4, f5⟩ := hO.site_dims (k := j) (by omega)
      rw [show (site O j).dim 0 = dl by simp [dim, f1], show (site O j).dim 1 = ds.getD j 0 by simp [dim, f1],
        show (site O j).dim 3 = dr by simp [dim, f1]]
      by_cases hin : st ≤ j ∧ j < en
      · rw [if_pos hin]
        have hcl : (if j + 1 = O.length then 0 else 1) = if j + 1 < en then 1 else lc := by
          rw [hlc]
          by_cases h1 : j + 1 < en
          · rw [if_pos h1, if_neg (by omega)]
          · rw [if_neg h1]
            by_cases h2 : en < O.length
            · rw [if_pos h2, if_neg (by omega)]
            · rw [if_neg h2, if_pos (by omega)]
        rw [hcl]
        refine longRange_chan f1 (hH j (by omega)) hin.1 hin.2 (fun h => f5 (by omega)) ?_
        rw [hlc]; split <;> omega
      · rw [if_neg hin]
        rw [show decide (st < j ∧ j < en) = false by simp; omega,
          show decide (st < j + 1 ∧ j + 1 < en) = false by simp; omega]
        exact ChanT.refl f1 (by simp)

/-! ### hopping -/

/-- `ad` at `j`, `a` at `i`, `sign` strictly between -/
def hopString (ds : List Nat) (ad a : Tensor R) (sgn : Nat → Tensor R) (j i : Nat) : Nat → Tensor R := fun k =>
  if k = j then ad else if k = i then a
  else if min i j < k ∧ k < max i j then sgn k else eye (ds.getD k 0)

theorem hoppingOps_site {L : Nat} {J ad a : Tensor R} {j i : Nat} (hi : i < L) :
    site (hoppingOps L J ad a j) i = if i = j then ad else smul (J.get [j, i]) a := by
  simp [site, hoppingOps, hi]

theorem hop_tensorOp {ds s t : List Nat} {J ad a sign : Tensor R} {j i : Nat} (hs : IsCfg ds s) (ht : IsCfg ds t)
    (hi : i < ds.length) (hj : j < ds.length) (hij : i ≠ j) :
    tensorOp ds.length (lrString ds (hoppingOps ds.length J ad a j) j (some sign) i) s t
      = J.get [j, i] * tensorOp ds.length (hopString ds ad a (fun _ => sign) j i) s t := by
  unfold tensorOp
  rw [← Finset.mul_prod_erase _ _ (Finset.mem_range.2 hi),
    ← Finset.mul_prod_erase (Finset.range ds.length) (fun k => (hopString ds ad a (fun _ => sign) j i k).get _)
      (Finset.mem_range.2 hi), ← mul_assoc]
  congr 1
  · simp only [lrString, hopString, if_neg hij, if_true]
    rw [hoppingOps_site hi, if_neg hij]; rfl
  · refine Finset.prod_congr rfl fun k hk => ?_
    rw [Finset.mem_erase, Finset.mem_range] at hk
    simp only [lrString, hopString]
    by_cases hkj : k = j
    · simp only [hkj, if_true]; rw [hoppingOps_site hj, if_pos rfl]
    · rw [if_neg hkj, if_neg hk.1, if_neg hkj, if_neg hk.1, min_comm, max_comm]; rfl

theorem foldlM_range_succ {α : Type} (f : α → Nat → Option α) (n : Nat) (x : α) :
    (List.range (n + 1)).foldlM f x = ((List.range n).foldlM f x).bind fun y => f y n := by
  rw [List.range_succ, List.foldlM_append]
  cases h : (List.range n).foldlM f x <;> simp

theorem addJordanWigner_spec {O : List (Tensor R)} {L d : Nat} {J ad a sign : Tensor R}
    (hO : HInv (List.replicate L d) O) (hJ : J.dims = [L, L]) (had : ad.dims = [d, d]) (ha : a.dims = [d, d]) :
    ∃ O', addJordanWigner O J ad a sign = some O' ∧ HInv (List.replicate L d) O' ∧
      ∀ s t, IsCfg (List.replicate L d) s → IsCfg (List.replicate L d) t →
      opElt O' s t = opElt O s t + ∑ j ∈ Finset.range L, ∑ i ∈ (Finset.range L).erase j,
        J.get [j, i] * tensorOp L (hopString (List.replicate L d) ad a (fun _ => sign) j i) s t := by
  have hlen : O.length = L := by rw [hO.length]; simp
  unfold addJordanWigner
  rw [if_pos (by simp [rank, dim, hJ, hlen]), hlen]
  have key : ∀ n, n ≤ L → ∃ O', (List.range n).foldlM (fun (O : List (Tensor R)) (j : Nat) =>
      addLongRange O (hoppingOps O.length J ad a j) (j : Int) (some sign)) O = some O' ∧
      HInv (List.replicate L d) O' ∧ ∀ s t, IsCfg (List.replicate L d) s → IsCfg (List.replicate L d) t →
      opElt O' s t = opElt O s t + ∑ j ∈ Finset.range n, ∑ i ∈ (Finset.range L).erase j,
        J.get [j, i] * tensorOp L (hopString (List.replicate L d) ad a (fun _ => sign) j i) s t := by
    intro n
    induction n with
    | zero => intro _; exact ⟨O, rfl, hO, fun s t _ _ => by simp⟩
    | succ n ih =>
      intro hn
      obtain ⟨O1, h1, h2, h3⟩ := ih (by omega)
      have hl1 : O1.length = L := by rw [h2.length]; simp
      obtain ⟨O2, g1, g2, g3⟩ := addLongRange_spec (H := hoppingOps O1.length J ad a n) (i := n) (sign := some sign)
        h2 (by simpa using hn) (by
          intro j hj
          rw [hoppingOps_site (by simpa [hl1] using hj)]
          have hj' : j < L := by simpa using hj
          split <;> simp [had, ha, smul, hj'])
      refine ⟨O2, by rw [foldlM_range_succ, h1]; exact g1, g2, fun s t hs ht => ?_⟩
      rw [g3 s t hs ht, h3 s t hs ht, Finset.sum_range_succ, add_assoc, hl1]
      congr 2
      have hlr : (List.replicate L d).length = L := by simp
      conv_lhs => rw [hlr]
      refine Finset.sum_congr rfl fun i hi => ?_
      rw [Finset.mem_erase, Finset.mem_range] at hi
      have := hop_tensorOp (J := J) (ad := ad) (a := a) (sign := sign) (j := n) (i := i) hs ht
        (by simpa using hi.2) (by simpa using hn) hi.1
      rw [hlr] at this
      exact this
  exact key L (le_refl _)

/-! ### product terms -/

theorem isIdentityT_iff {A : Tensor R} {d : Nat} (h : A.dims = [d, d]) :
    isIdentityT A = true ↔ ∀ x y, x < d → y < d → A.get [x, y] = dlt x y := by
  have e0 : A.dim 0 = d := by simp [dim, h]
  have e1 : A.dim 1 = d := by simp [dim, h]
  have er : A.rank = 2 := by simp [rank, h]
  simp only [isIdentityT, er, e0, e1, beq_self_eq_true, Bool.true_and, List.all_eq_true, List.mem_range,
    decide_eq_true_eq, size, h, lin]
  have he : (eye d : Tensor R).dims = [d, d] := rfl
  rw [he]
  constructor
  · intro hh x y hx hy
    have := hh (x + d * y) (by
      simp
      calc x + d * y < d + d * y := by omega
        _ = d * (y + 1) := by ring
        _ ≤ d * d := Nat.mul_le_mul_left _ hy)
    rwa [unflat_mat hx hy, eye_get] at this
  · intro hh n hn
    simp at hn
    have hd : 0 < d := by
      rcases Nat.eq_zero_or_pos d with h | h
      · subst h; simp at hn
      · exact h
    simp only [unflat]
    rw [eye_get]
    exact hh _ _ (Nat.mod_lt _ hd) (Nat.mod_lt _ hd)

theorem product_chan {P Hj : Tensor R} {dl d dr st en lc j : Nat}
    (h : P.dims = [dl, d, d, dr]) (hst : st ≤ j) (hen : j < en) (h2 : st + 1 < en) (hdl : st < j → 2 ≤ dl)
    (hdr : j + 1 < en → 2 ≤ dr) (hlc : lc ≤ 1) (hd0 : 1 ≤ dl) (hdrc : j + 1 = en → lc < dr) :
    ChanT (decide (st < j ∧ j < en)) (decide (st < j + 1 ∧ j + 1 < en)) (if j + 1 < en then 1 else lc)
      (fun x y => if j = st then Hj.get [x, y] else 0) (fun x y => if j + 1 = en then Hj.get [x, y] else 0)
      (fun x y => Hj.get [x, y]) (fun _ _ => 0) P (productSite Hj st en lc j P) dl d dr := by
  have e0 : P.dim 0 = dl := by simp [dim, h]
  have e3 : P.dim 3 = dr := by simp [dim, h]
  rw [show decide (st < j ∧ j < en) = decide (st < j) by simp [hen],
    show decide (st < j + 1 ∧ j + 1 < en) = decide (j + 1 < en) by simp; omega]
  obtain ⟨P2, hP2, p1, p2⟩ : ∃ P2 : Tensor R, P2 = (if j + 1 < en then
        changeDim (if st < j then changeDim P 0 (dl + 1) else P) 3 (dr + 1)
        else (if st < j then changeDim P 0 (dl + 1) else P)) ∧
      P2.dims = [dl + (decide (st < j)).toNat, d, d, dr + (decide (j + 1 < en)).toNat] ∧
      (∀ a x y b, a < dl + (decide (st < j)).toNat → b < dr + (decide (j + 1 < en)).toNat →
        P2.get [a, x, y, b] = if a < dl ∧ b < dr then P.get [a, x, y, b] else 0) := by
    refine ⟨_, rfl, ?_, ?_⟩
    · split <;> split <;> simp [changeDim, h, *]
    · intro a x y b ha hb
      by_cases h1 : j + 1 < en <;> by_cases h3 : st < j <;> simp [h1, h3] at ha hb ⊢ <;>
        try simp [changeDim, h]
      · by_cases hb' : b < dr <;> by_cases ha' : a < dl <;> simp [ha', hb']
      · by_cases hb' : b < dr <;> simp [ha, hb']
      · by_cases ha' : a < dl <;> simp [ha', hb]
      · intro h4; omega
  have hdef : productSite Hj st en lc j P = setSlice P2 (if st < j then dl else 0) (if j + 1 < en then dr else lc) Hj := by
    simp only [productSite, e0, e3]
    rw [← hP2]
    rw [if_neg]
    rintro ⟨g1, g2⟩
    by_cases h3 : st < j
    · rw [if_pos h3] at g1; have := hdl h3; omega
    · have h4 : j + 1 < en := by omega
      rw [if_pos h4] at g2
      have := hdr h4; omega
  rw [hdef]
  refine ⟨by simpa using p1, ?_, ?_, ?_, ?_⟩
  · intro a x y b ha hb _ _
    rw [setSlice_get, if_neg, p2 _ _ _ _ (by omega) (by omega), if_pos ⟨ha, hb⟩]
    · simp
    · rintro ⟨g1, g2⟩
      by_cases h3 : st < j
      · rw [if_pos h3] at g1; omega
      · rw [if_pos (by omega)] at g2; omega
  · intro hr a x y ha _ _
    have hr' : j + 1 < en := by simpa using hr
    rw [setSlice_get, if_pos hr', p2 _ _ _ _ (by omega) (by simp [hr'])]
    by_cases h3 : st < j
    · rw [if_pos h3, if_neg (by omega), if_neg (by omega), if_neg (show ¬ j = st by omega)]; simp
    · rw [if_neg h3, if_pos (show j = st by omega)]
      by_cases ha0 : a = 0
      · rw [if_pos ⟨ha0, rfl⟩, if_pos ha0]
      · rw [if_neg (by tauto), if_neg ha0, if_neg (by omega)]
  · intro hl x y b hb _ _
    have hl' : st < j := by simpa using hl
    rw [setSlice_get, if_pos hl', p2 _ _ _ _ (by simp [hl']) (by omega), if_neg (show ¬ (dl < dl ∧ b < dr) by omega)]
    by_cases h1 : j + 1 < en
    · simp only [if_pos h1]
      rw [if_neg (by omega), if_neg (show ¬ j + 1 = en by omega)]; simp
    · simp only [if_neg h1]
      rw [if_pos (show j + 1 = en by omega)]; simp
  · intro hl hr x y _ _
    have hl' : st < j := by simpa using hl
    have hr' : j + 1 < en := by simpa using hr
    rw [setSlice_get, if_pos ⟨by rw [if_pos hl'], by rw [if_pos hr']⟩]

theorem addProductTerm_spec {O H : List (Tensor R)} {ds : List Nat}
    (hO : HInv ds O)
    (hH : ∀ j, j < ds.length → (site H j).dims = [ds.getD j 0, ds.getD j 0])
    (hne : ∃ j, j < ds.length ∧ ∃ x y, x < ds.getD j 0 ∧ y < ds.getD j 0 ∧ (site H j).get [x, y] ≠ dlt x y) :
    HInv ds (addProductTerm O H) ∧ ∀ s t, IsCfg ds s → IsCfg ds t →
      opElt (addProductTerm O H) s t = opElt O s t + tensorOp ds.length (fun j => site H j) s t := by
  have hlen := hO.length
  unfold addProductTerm
  set p := fun j => isIdentityT (site H j) with hp
  obtain ⟨_, s2, s3, s4⟩ := startLoop_spec p O.length 0
  obtain ⟨n1, n2, n3⟩ := endLoop_spec p O.length
  simp only
  set st := startLoop p O.length 0 with hst
  set en := endLoop p O.length with hen
  obtain ⟨i, hi, x0, y0, hx0, hy0, hxy⟩ := hne
  have hpi : p i ≠ true := fun h => hxy ((isIdentityT_iff (hH i hi)).1 h x0 y0 hx0 hy0)
  have hsti : st ≤ i := by
    by_contra hc
    exact hpi (s3 i (by omega) (by omega))
  have hien : i < en := by
    by_contra hc
    exact hpi (n2 i (by omega) (by omega))
  have hout : ∀ j, j < ds.length → ¬ (st ≤ j ∧ j < en) → ∀ x y, x < ds.getD j 0 → y < ds.getD j 0 →
      (site H j).get [x, y] = dlt x y := by
    intro j hj hj'
    refine (isIdentityT_iff (hH j hj)).1 ?_
    by_cases hjs : j < st
    · exact s3 j (by omega) hjs
    · exact n2 j (by omega) (by omega)
  set lc := if en < O.length then 1 else 0 with hlc
  have hlc1 : lc ≤ 1 := by rw [hlc]; split <;> omega
  have hcl : ∀ j, j < en → (if j + 1 = O.length then 0 else 1) = if j + 1 < en then 1 else lc := by
    intro j hj
    rw [hlc]
    by_cases h1 : j + 1 < en
    · rw [if_pos h1, if_neg (by omega)]
    · rw [if_neg h1]
      by_cases h2 : en < O.length
      · rw [if_pos h2, if_neg (by omega)]
      · rw [if_neg h2, if_pos (by omega)]
  by_cases hone : st + 1 = en
  · -- a single site
    have := add_local_gen (h := site H st) (k := st) (O' := O.mapIdx fun j P =>
        if st ≤ j ∧ j < en then productSite (site H j) st en lc j P else P) hO (by omega) (by simp) ?_
    · refine ⟨this.1, fun s t hs ht => ?_⟩
      rw [this.2 s t hs ht]
      congr 1
      refine tensorOp_congr hs ht fun k hk x y hx hy => ?_
      by_cases hks : k = st
      · rw [if_pos hks, hks]
      · rw [if_neg hks, eye_get, hout k hk (by omega) x y hx hy]
    · intro j hj
      rw [site_mapIdx _ hj]
      obtain ⟨dl, dr, f1, f2, f3, f4, f5⟩ := hO.site_dims (k := j) (by omega)
      rw [show (site O j).dim 0 = dl by simp [dim, f1], show (site O j).dim 1 = ds.getD j 0 by simp [dim, f1],
        show (site O j).dim 3 = dr by simp [dim, f1]]
      by_cases hin : st ≤ j ∧ j < en
      · have hjst : j = st := by omega
        subst hjst
        rw [if_pos hin, hcl st hin.2]
        have e0 : ¬ (st + 1 < en) := by omega
        simp only [productSite, lt_irrefl, if_false, e0, and_self, if_true]
        refine ⟨by simpa using f1, fun a x y b _ _ _ _ => ?_, by simp, by simp, by simp⟩
        rw [setSlice_get]
        by_cases hab : a = 0 ∧ b = lc
        · rw [if_pos hab, if_pos hab, add_get_val, hab.1, hab.2, add_comm]
          simp [getSlice]
        · rw [if_neg hab, if_neg hab, add_zero]
      · rw [if_neg hin]
        exact ChanT.refl f1 (by intro x y; rw [if_neg (by omega)])
  · have h2 : st + 1 < en := by omega
    have := add_chan_gen (O' := O.mapIdx fun j P =>
        if st ≤ j ∧ j < en then productSite (site H j) st en lc j P else P) (st := st) (en := en)
      (X := fun j x y => if j = st then (site H j).get [x, y] else 0)
      (Y := fun j x y => if j + 1 = en then (site H j).get [x, y] else 0)
      (S := fun j x y => (site H j).get [x, y]) hO (by omega) (by simp) ?_
    · refine ⟨this.1, fun s t hs ht => ?_⟩
      rw [this.2 s t hs ht]
      congr 1
      have hl : s.length = t.length := by
        rw [List.Forall₂.length_eq hs, List.Forall₂.length_eq ht]
      have hls : s.length = ds.length := List.Forall₂.length_eq hs
      rw [Finset.sum_eq_single st]
      · rw [Finset.sum_eq_single (en - 1)]
        · have : tensorOp ds.length (fun j => site H j) s t = tensorOp ds.length
              (fun j => if st ≤ j ∧ j < en then site H j else eye (ds.getD j 0)) s t := by
            refine tensorOp_congr hs ht fun k hk x y hx hy => ?_
            by_cases hin : st ≤ k ∧ k < en
            · rw [if_pos hin]
            · rw [if_neg hin, eye_get, hout k hk hin x y hx hy]
          rw [this]
          refine prodFrom_tensorOp hs ht fun k x y _ => ?_
          simp only [strOp]
          by_cases hin : st ≤ k ∧ k < en
          · rw [if_pos hin]
            by_cases hk : k = st
            · simp [hk]
            · rw [if_neg hk]
              by_cases hk2 : k = en - 1
              · rw [if_pos hk2, if_pos (by omega)]
              · rw [if_neg hk2, if_pos (by omega)]
          · rw [if_neg hin, if_neg (by omega), if_neg (by omega), if_neg (by omega), eye_get]
        · intro b hb hb'
          rw [Finset.mem_Ico] at hb
          refine prodFrom_zero (a := b) hl (by omega) fun x y => ?_
          simp only [strOp]
          rw [if_neg (by omega)]; simp; intro h; omega
        · intro h; exact absurd (Finset.mem_Ico.2 ⟨by omega, by omega⟩) h
      · intro a ha ha'
        rw [Finset.mem_Ico] at ha
        refine Finset.sum_eq_zero fun b hb => ?_
        exact prodFrom_zero (a := a) hl (by omega) fun x y => by simp [strOp, ha']
      · intro h; exact absurd (Finset.mem_Ico.2 ⟨by omega, by omega⟩) h
    · intro j hj
      rw [site_mapIdx _ hj]
      obtain ⟨dl, dr, f1, f2, f3, f4, f5⟩ := hO.site_dims (k := j) (by omega)
      rw [show (site O j).dim 0 = dl by simp [dim, f1], show (site O j).dim 1 = ds.getD j 0 by simp [dim, f1],
        show (site O j).dim 3 = dr by simp [dim, f1]]
      by_cases hin : st ≤ j ∧ j < en
      · rw [if_pos hin, hcl j hin.2]
        refine product_chan f1 hin.1 hin.2 h2 (fun h => f3 (by omega)) (fun h => f5 (by omega)) hlc1 ?_ ?_
        · rcases Nat.eq_zero_or_pos j with h | h
          · rw [f2 h]
          · have := f3 h; omega
        · intro hje
          rw [hlc]
          by_cases h3 : en < O.length
          · rw [if_pos h3]; have := f5 (by omega); omega
          · rw [if_neg h3]; have := f4 (by omega); omega
      · rw [if_neg hin]
        rw [show decide (st < j ∧ j < en) = false by simp; omega,
          show decide (st < j + 1 ∧ j + 1 < en) = false by simp; omega]
        exact ChanT.refl f1 (by simp)

/-- a product of identities adds nothing at all -/
theorem addProductTerm_id {O H : List (Tensor R)} {ds : List Nat} (hO : HInv ds O)
    (hH : ∀ j, j < ds.length → (site H j).dims = [ds.getD j 0, ds.getD j 0])
    (hid : ∀ j, j < ds.length → ∀ x y, x < ds.getD j 0 → y < ds.getD j 0 → (site H j).get [x, y] = dlt x y) :
    addProductTerm O H = O := by
  have hlen := hO.length
  unfold addProductTerm
  set p := fun j => isIdentityT (site H j) with hp
  obtain ⟨n1, n2, n3⟩ := endLoop_spec p O.length
  simp only
  set en := endLoop p O.length with hen
  have h0 : en = 0 := by
    by_contra hc
    have := n3 (by omega)
    rw [hp] at this
    simp only at this
    rw [(isIdentityT_iff (hH (en - 1) (by omega))).2 (hid _ (by omega))] at this
    exact absurd this (by simp)
  rw [h0]
  apply List.ext_getElem
  · simp
  · intro n h1 h2; simp

end
end MPS
