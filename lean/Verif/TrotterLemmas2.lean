import Verif.TrotterLemmas

/-! # Helper lemmas: a whole layer of gates -/

set_option linter.unusedSectionVars false
set_option linter.unusedSimpArgs false

namespace MPS.Trotter
open MPS Tensor

section Elt
variable {R : Type} [CommRing R]

/-- factor of the site `p` in the matrix element of the product of those gates of the layer whose position is in `S` -/
def gateFactor (ds : List Nat) (k : Nat) (U : Nat → Tensor R) (S : Nat → Bool) (s t : List Nat) (p : Nat) : R :=
  if PairAt ds.length k p then
    (if S p then (U p).get [s.getD p 0 + ds.getD p 0 * s.getD (p + 1) 0, t.getD p 0 + ds.getD p 0 * t.getD (p + 1) 0]
      else if s.getD p 0 = t.getD p 0 then 1 else 0)
  else if Single ds.length k p then
    (if S p then (U p).get [s.getD p 0, t.getD p 0] else if s.getD p 0 = t.getD p 0 then 1 else 0)
  else (if S (p - 1) then 1 else if s.getD p 0 = t.getD p 0 then 1 else 0)

/-- matrix element of the product of those gates of the layer whose position is in `S` -/
def partElt (ds : List Nat) (k : Nat) (U : Nat → Tensor R) (S : Nat → Bool) (s t : List Nat) : R :=
  ∏ p ∈ Finset.range ds.length, gateFactor ds k U S s t p

theorem partElt_all (ds : List Nat) (k : Nat) (U : Nat → Tensor R) (S : Nat → Bool)
    (hS : ∀ p, p < ds.length → (PairAt ds.length k p ∨ Single ds.length k p) → S p = true) (s t : List Nat) :
    partElt ds k U S s t = layerElt ds k U s t := by
  unfold partElt layerElt
  rw [Finset.prod_filter, Finset.prod_filter, ← Finset.prod_mul_distrib]
  refine Finset.prod_congr rfl fun p hp => ?_
  have hp := Finset.mem_range.1 hp
  unfold gateFactor
  by_cases h1 : PairAt ds.length k p
  · have h2 : ¬ Single ds.length k p := fun h => h.2.1 h1
    rw [if_pos h1, if_pos h1, if_neg h2, hS p hp (Or.inl h1)]; simp
  · rw [if_neg h1, if_neg h1]
    by_cases h2 : Single ds.length k p
    · rw [if_pos h2, if_pos h2, hS p hp (Or.inr h2)]; simp
    · rw [if_neg h2, if_neg h2]
      have h3 : p ≠ 0 ∧ PairAt ds.length k (p - 1) := by
        unfold Single at h2; by_contra hc; exact h2 ⟨hp, h1, by tauto⟩
      rw [hS (p - 1) (by omega) (Or.inl h3.2)]; simp

theorem sumCfg_delta (ds : List Nat) (φ : List Nat → R) {s : List Nat} (hs : IsCfg ds s) :
    sumCfg ds (fun t => (∏ p ∈ Finset.range ds.length, if s.getD p 0 = t.getD p 0 then (1 : R) else 0) * φ t) = φ s := by
  induction hs generalizing φ with
  | nil => simp
  | @cons i d s ds hi hs ih =>
    rw [sumCfg_cons, Finset.sum_eq_single_of_mem i (Finset.mem_range.2 hi)]
    · rw [← ih (fun t => φ (i :: t))]
      refine sumCfg_congr fun t _ => ?_
      rw [List.length_cons, Finset.prod_range_succ']
      simp
    · intro j _ hj
      rw [← sumCfg_zero (R := R) ds]
      refine sumCfg_congr fun t _ => ?_
      rw [List.length_cons, Finset.prod_range_succ']
      simp [Ne.symm hj]

theorem partElt_none (ds : List Nat) (k : Nat) (U : Nat → Tensor R) (S : Nat → Bool) (hS : ∀ p, p < ds.length → S p = false)
    (φ : List Nat → R) {s : List Nat} (hs : IsCfg ds s) :
    sumCfg ds (fun t => partElt ds k U S s t * φ t) = φ s := by
  rw [← sumCfg_delta ds φ hs]
  refine sumCfg_congr fun t _ => ?_
  congr 1
  unfold partElt
  refine Finset.prod_congr rfl fun p hp => ?_
  have hp := Finset.mem_range.1 hp
  unfold gateFactor
  rw [hS p hp, hS (p - 1) (by omega)]
  simp

theorem getD_set_ne {s : List Nat} {p q i : Nat} (h : p ≠ q) : (s.set p i).getD q 0 = s.getD q 0 := by
  simp [List.getD_eq_getElem?_getD, List.getElem?_set_ne h]

theorem getD_set_eq {s : List Nat} {p i : Nat} (h : p < s.length) : (s.set p i).getD p 0 = i := by
  simp [List.getD_eq_getElem?_getD, h]

/-- adding a two-site gate -/
theorem partElt_pair {ds : List Nat} {k : Nat} {U : Nat → Tensor R} {S S' : Nat → Bool} {p : Nat} (hp : PairAt ds.length k p)
    (h0 : S p = false) (h1 : S' p = true)
    (hS : ∀ q, q ≠ p → (PairAt ds.length k q ∨ Single ds.length k q) → S' q = S q) {s t : List Nat}
    (hs : IsCfg ds s) (ht : IsCfg ds t) :
    ∑ i ∈ Finset.range (ds.getD p 0), ∑ j ∈ Finset.range (ds.getD (p + 1) 0),
      (U p).get [s.getD p 0 + ds.getD p 0 * s.getD (p + 1) 0, i + ds.getD p 0 * j] *
        partElt ds k U S ((s.set p i).set (p + 1) j) t = partElt ds k U S' s t := by
  have hL := hs.length
  obtain ⟨hpk, hpL⟩ := hp
  have hp : PairAt ds.length k p := ⟨hpk, hpL⟩
  have hp1 : ¬ PairAt ds.length k (p + 1) := by unfold PairAt; omega
  have hp2 : ¬ Single ds.length k (p + 1) := by
    rintro ⟨-, -, h⟩; rcases h with h | h
    · omega
    · exact h hp
  have split : ∀ f : Nat → R, ∏ q ∈ Finset.range ds.length, f q = f p * (f (p + 1) *
      ∏ q ∈ ((Finset.range ds.length).erase p).erase (p + 1), f q) := by
    intro f
    rw [Finset.mul_prod_erase _ f (by simp; omega), Finset.mul_prod_erase _ f (by simp; omega)]
  have tp : ∀ q, q < ds.length → t.getD q 0 < ds.getD q 0 := by
    intro q hq
    have := List.forall₂_iff_get.1 ht
    have h2 := this.2 q (by rw [ht.length]; exact hq) hq
    simpa [List.getD_eq_getElem?_getD, ht.length, hq] using h2
  have e : ∀ i j, partElt ds k U S ((s.set p i).set (p + 1) j) t = (if i = t.getD p 0 then 1 else 0) *
      ((if j = t.getD (p + 1) 0 then 1 else 0) *
      ∏ q ∈ ((Finset.range ds.length).erase p).erase (p + 1), gateFactor ds k U S' s t q) := by
    intro i j
    unfold partElt
    rw [split]
    congr 1
    · unfold gateFactor
      rw [if_pos hp, h0, getD_set_ne (by omega), getD_set_eq (by omega)]; simp
    congr 1
    · unfold gateFactor
      rw [if_neg hp1, if_neg hp2, Nat.add_sub_cancel, h0, getD_set_eq (by simp; omega)]; simp
    · refine Finset.prod_congr rfl fun q hq => ?_
      simp only [Finset.mem_erase, Finset.mem_range] at hq
      unfold gateFactor
      have g0 : ((s.set p i).set (p + 1) j).getD q 0 = s.getD q 0 := by
        rw [getD_set_ne (by omega), getD_set_ne (by omega)]
      rw [g0]
      by_cases a1 : PairAt ds.length k q
      · have g1 : ((s.set p i).set (p + 1) j).getD (q + 1) 0 = s.getD (q + 1) 0 := by
          have := a1.1
          rw [getD_set_ne (by omega), getD_set_ne (by omega)]
        rw [if_pos a1, if_pos a1, hS q (by omega) (Or.inl a1), g1]
      · rw [if_neg a1, if_neg a1]
        by_cases a2 : Single ds.length k q
        · rw [if_pos a2, if_pos a2, hS q (by omega) (Or.inr a2)]
        · rw [if_neg a2, if_neg a2]
          have h3 : q ≠ 0 ∧ PairAt ds.length k (q - 1) := by
            unfold Single at a2; by_contra hc; exact a2 ⟨by omega, a1, by tauto⟩
          rw [hS (q - 1) (by omega) (Or.inl h3.2)]
  simp only [e]
  rw [Finset.sum_eq_single_of_mem (t.getD p 0) (Finset.mem_range.2 (tp p (by omega)))]
  · rw [Finset.sum_eq_single_of_mem (t.getD (p + 1) 0) (Finset.mem_range.2 (tp (p + 1) (by omega)))]
    · simp only [if_true, one_mul]
      unfold partElt
      rw [split]
      congr 1
      · unfold gateFactor
        rw [if_pos hp, h1]; simp
      · have : gateFactor ds k U S' s t (p + 1) = 1 := by
          unfold gateFactor
          rw [if_neg hp1, if_neg hp2, Nat.add_sub_cancel, h1]; simp
        rw [this, one_mul]
    · intro j _ hj; rw [if_neg hj]; ring
  · intro i _ hi
    apply Finset.sum_eq_zero
    intro j _
    rw [if_neg hi]; ring

/-- adding a one-site gate -/
theorem partElt_single {ds : List Nat} {k : Nat} {U : Nat → Tensor R} {S S' : Nat → Bool} {p : Nat} (hp : Single ds.length k p)
    (h0 : S p = false) (h1 : S' p = true)
    (hS : ∀ q, q ≠ p → (PairAt ds.length k q ∨ Single ds.length k q) → S' q = S q) {s t : List Nat}
    (hs : IsCfg ds s) (ht : IsCfg ds t) :
    ∑ i ∈ Finset.range (ds.getD p 0), (U p).get [s.getD p 0, i] * partElt ds k U S (s.set p i) t
      = partElt ds k U S' s t := by
  have hL := hs.length
  have hpL := hp.1
  have hp1 := hp.2.1
  have split : ∀ f : Nat → R, ∏ q ∈ Finset.range ds.length, f q = f p * ∏ q ∈ (Finset.range ds.length).erase p, f q := by
    intro f
    rw [Finset.mul_prod_erase _ f (by simp; omega)]
  have tp : ∀ q, q < ds.length → t.getD q 0 < ds.getD q 0 := by
    intro q hq
    have := List.forall₂_iff_get.1 ht
    have h2 := this.2 q (by rw [ht.length]; exact hq) hq
    simpa [List.getD_eq_getElem?_getD, ht.length, hq] using h2
  have e : ∀ i, partElt ds k U S (s.set p i) t = (if i = t.getD p 0 then 1 else 0) *
      ∏ q ∈ (Finset.range ds.length).erase p, gateFactor ds k U S' s t q := by
    intro i
    unfold partElt
    rw [split]
    congr 1
    · unfold gateFactor
      rw [if_neg hp1, if_pos hp, h0, getD_set_eq (by omega)]; simp
    · refine Finset.prod_congr rfl fun q hq => ?_
      simp only [Finset.mem_erase, Finset.mem_range] at hq
      unfold gateFactor
      have g0 : (s.set p i).getD q 0 = s.getD q 0 := getD_set_ne (by omega)
      rw [g0]
      by_cases a1 : PairAt ds.length k q
      · have g1 : (s.set p i).getD (q + 1) 0 = s.getD (q + 1) 0 := by
          apply getD_set_ne
          intro hh
          have := hp.2.2
          rw [hh] at this
          rcases this with h | h
          · omega
          · exact h a1
        rw [if_pos a1, if_pos a1, hS q (by omega) (Or.inl a1), g1]
      · rw [if_neg a1, if_neg a1]
        by_cases a2 : Single ds.length k q
        · rw [if_pos a2, if_pos a2, hS q (by omega) (Or.inr a2)]
        · rw [if_neg a2, if_neg a2]
          have h3 : q ≠ 0 ∧ PairAt ds.length k (q - 1) := by
            unfold Single at a2; by_contra hc; exact a2 ⟨by omega, a1, by tauto⟩
          rw [hS (q - 1) (fun hh => hp1 (hh ▸ h3.2)) (Or.inl h3.2)]
  simp only [e]
  rw [Finset.sum_eq_single_of_mem (t.getD p 0) (Finset.mem_range.2 (tp p (by omega)))]
  · simp only [if_true, one_mul]
    unfold partElt
    rw [split]
    congr 1
    unfold gateFactor
    rw [if_neg hp1, if_pos hp, h1]; simp
  · intro i _ hi
    rw [if_neg hi]; ring

end Elt

/-- `x` was obtained from `x0` by applying the gates of the layer whose position is in `S` -/
structure Reached (ds : List Nat) (k : Nat) (U : Nat → Tensor ℂ) (a b D : Nat) (x0 : Evo) (S : Nat → Bool) (x : Evo) : Prop where
  wf : WF a x.P ds b
  err : x0.err ≤ x.err
  hidden : x0.hidden ≤ x.hidden
  same : x.err = x0.err → x.hidden = x0.hidden → ∀ s, IsCfg ds s → ∀ u < a, ∀ v,
    path x.P s u v = sumCfg ds (fun t => partElt ds k U S s t * path x0.P t u v)
  bonds : 0 < D → (∀ j, (site x.P j).dim 2 ≤ max ((site x0.P j).dim 2) D) ∧
    ∀ p, PairAt ds.length k p → S p = true → (site x.P p).dim 2 ≤ D

/-- the gates have the right sizes -/
def GatesOk (ds : List Nat) (k : Nat) (U : Nat → Tensor ℂ) : Prop :=
  (∀ p, PairAt ds.length k p → (U p).dims = [ds.getD p 0 * ds.getD (p + 1) 0, ds.getD p 0 * ds.getD (p + 1) 0]) ∧
  (∀ p, Single ds.length k p → (U p).dims = [ds.getD p 0, ds.getD p 0])

theorem isCfg_set {ds s : List Nat} (h : IsCfg ds s) (p : Nat) {i : Nat} (hi : i < ds.getD p 0) : IsCfg ds (s.set p i) := by
  induction h generalizing p with
  | nil => simp at hi
  | @cons x d s ds hx hs ih =>
    cases p with
    | zero => exact List.Forall₂.cons (by simpa using hi) hs
    | succ p => exact List.Forall₂.cons hx (ih p (by simpa using hi))

theorem Reached.two {svd : Tensor ℂ → SvdRes ℂ} (hg : GoodSvd svd) (eps : ℝ) {dflt : ℝ} (hd0 : 0 < dflt)
    {ds : List Nat} {k : Nat} {U : Nat → Tensor ℂ} {a b D : Nat} {x0 x : Evo} {S S' : Nat → Bool}
    (h : Reached ds k U a b D x0 S x) (hU : GatesOk ds k U) {p : Nat} (hp : PairAt ds.length k p)
    (h0 : S p = false) (h1 : S' p = true)
    (hS : ∀ q, q ≠ p → (PairAt ds.length k q ∨ Single ds.length k q) → S' q = S q) (dk : Int) (tol : ℝ)
    (htol : 0 < effTol dflt tol) :
    Reached ds k U a b D x0 S' (applyTwo svd eps dflt x (U p) p dk tol D) := by
  obtain ⟨w, e1, e2, hsame⟩ := applyTwo_spec hg eps hd0 x h.wf p hp.2 (U p) (hU.1 p hp) dk tol htol D
  refine ⟨w, le_trans h.err e1, le_trans h.hidden e2, fun f1 f2 s hs u hu v => ?_, fun hD => ?_⟩
  rotate_left
  · obtain ⟨b1, b2⟩ := applyTwo_bonds hg eps hd0 x h.wf p hp.2 (U p) (hU.1 p hp) dk tol htol hD
    obtain ⟨c1, c2⟩ := h.bonds hD
    refine ⟨fun j => ?_, fun q hq hSq => ?_⟩
    · by_cases hj : j = p
      · rw [hj]; exact b1.trans (le_max_right _ _)
      · exact (b2 j hj).trans (c1 j)
    · by_cases hj : q = p
      · rw [hj]; exact b1
      · exact (b2 q hj).trans (c2 q hq (by rw [← hS q hj (Or.inl hq)]; exact hSq))
  have g1 : x.err = x0.err := le_antisymm (by rw [← f1]; exact e1) h.err
  have g2 : x.hidden = x0.hidden := le_antisymm (by rw [← f2]; exact e2) h.hidden
  rw [hsame (by rw [f1, g1]) (by rw [f2, g2]) s hs u hu v]
  unfold actPair
  beta_reduce
  have c1 : ∀ i ∈ Finset.range (ds.getD p 0), ∀ j ∈ Finset.range (ds.getD (p + 1) 0),
      path x.P ((s.set p i).set (p + 1) j) u v
        = sumCfg ds (fun t => partElt ds k U S ((s.set p i).set (p + 1) j) t * path x0.P t u v) := by
    intro i hi j hj
    exact h.same g1 g2 _ (isCfg_set (isCfg_set hs p (Finset.mem_range.1 hi)) (p + 1) (Finset.mem_range.1 hj)) u hu v
  rw [Finset.sum_congr rfl fun i hi => Finset.sum_congr rfl fun j hj => by rw [c1 i hi j hj]]
  simp only [← sumCfg_mul_left, ← sumCfg_sum]
  refine sumCfg_congr fun t ht => ?_
  rw [← partElt_pair hp h0 h1 hS hs ht]
  simp only [Finset.sum_mul, mul_assoc]

theorem Reached.one {svd : Tensor ℂ → SvdRes ℂ} (hg : GoodSvd svd) (eps : ℝ) {dflt : ℝ} (hd0 : 0 < dflt)
    {ds : List Nat} {k : Nat} {U : Nat → Tensor ℂ} {a b D : Nat} {x0 x : Evo} {S S' : Nat → Bool}
    (h : Reached ds k U a b D x0 S x) (hU : GatesOk ds k U) {p : Nat} (hp : Single ds.length k p)
    (h0 : S p = false) (h1 : S' p = true)
    (hS : ∀ q, q ≠ p → (PairAt ds.length k q ∨ Single ds.length k q) → S' q = S q) (dk : Int) :
    Reached ds k U a b D x0 S' (applyOne svd eps dflt x (U p) p dk D) := by
  obtain ⟨w, e1, e2, hsame⟩ := applyOne_spec hg eps hd0 x h.wf p hp.1 (U p) (hU.2 p hp) dk D
  refine ⟨w, by rw [e1]; exact h.err, le_trans h.hidden e2, fun f1 f2 s hs u hu v => ?_, fun hD => ?_⟩
  rotate_left
  · have b2 := applyOne_bonds hg eps hd0 x h.wf p hp.1 (U p) (hU.2 p hp) dk hD
    obtain ⟨c1, c2⟩ := h.bonds hD
    refine ⟨fun j => (b2 j).trans (c1 j), fun q hq hSq => ?_⟩
    have hj : q ≠ p := by
      rintro rfl
      exact hp.2.1 hq
    exact (b2 q).trans (c2 q hq (by rw [← hS q hj (Or.inl hq)]; exact hSq))
  have g1 : x.err = x0.err := by rw [← e1, f1]
  have g2 : x.hidden = x0.hidden := le_antisymm (by rw [← f2]; exact e2) h.hidden
  rw [hsame (by rw [f2, g2]) s hs u hu v]
  unfold actSite
  beta_reduce
  have c1 : ∀ i ∈ Finset.range (ds.getD p 0), path x.P (s.set p i) u v
        = sumCfg ds (fun t => partElt ds k U S (s.set p i) t * path x0.P t u v) := by
    intro i hi
    exact h.same g1 g2 _ (isCfg_set hs p (Finset.mem_range.1 hi)) u hu v
  rw [Finset.sum_congr rfl fun i hi => by rw [c1 i hi]]
  simp only [← sumCfg_mul_left, ← sumCfg_sum]
  refine sumCfg_congr fun t ht => ?_
  rw [← partElt_single hp h0 h1 hS hs ht]
  simp only [Finset.sum_mul, mul_assoc]

/-! ### the loops -/

theorem loopUp_inv {b step : Int} (hstep : 0 < step) {body : Nat → Evo → Evo} (I : Int → Evo → Prop)
    (hI : ∀ k x, k < b → I k x → I (k + step) (body k.toNat x)) :
    ∀ (fuel : Nat) (k : Int) (x : Evo), b ≤ k + fuel → I k x → ∃ k', b ≤ k' ∧ I k' (loopUp b step body fuel k x) := by
  intro fuel
  induction fuel with
  | zero => intro k x hf h; exact ⟨k, by simpa using hf, h⟩
  | succ n ih =>
    intro k x hf h
    unfold loopUp
    split
    · next hk => exact ih _ _ (by push_cast at hf; omega) (hI k x hk h)
    · next hk => exact ⟨k, by omega, h⟩

theorem loopDown_inv {b step : Int} (hstep : 0 < step) {body : Nat → Evo → Evo} (I : Int → Evo → Prop)
    (hI : ∀ k x, k ≥ b → I k x → I (k - step) (body k.toNat x)) :
    ∀ (fuel : Nat) (k : Int) (x : Evo), k < b + fuel → I k x → ∃ k', k' < b ∧ I k' (loopDown b step body fuel k x) := by
  intro fuel
  induction fuel with
  | zero => intro k x hf h; exact ⟨k, by simpa using hf, h⟩
  | succ n ih =>
    intro k x hf h
    unfold loopDown
    split
    · next hk => exact ih _ _ (by push_cast at hf; omega) (hI k x hk h)
    · next hk => exact ⟨k, by omega, h⟩

/-- the bounds of a layer -/
theorem layerEnd_spec (L k : Nat) (hk : k ≤ 1) : ∃ n : Nat, layerEnd k L = (n : Int) ∧ (n - k) % 2 = 0 ∧ k ≤ n ∧ (n ≤ L ∨ n = k) ∧ (L ≤ n + 1) := by
  unfold layerEnd
  simp only
  split <;> split
  · exact ⟨k, rfl, by omega, by omega, by omega, by omega⟩
  · exact ⟨L - 1, by omega, by omega, by omega, by omega, by omega⟩
  · exact ⟨k, rfl, by omega, by omega, by omega, by omega⟩
  · exact ⟨L, by omega, by omega, by omega, by omega, by omega⟩

theorem layer_gates {L k n p : Nat} (hk : k ≤ 1) (h1 : (n - k) % 2 = 0) (h2 : k ≤ n) (h3 : n ≤ L ∨ n = k) (h4 : L ≤ n + 1) (hp : p < L) :
    (p < k ∨ n ≤ p → Single L k p) ∧ (k ≤ p → p < n → (p - k) % 2 = 0 → PairAt L k p) ∧
    (k ≤ p → p < n → (p - k) % 2 = 1 → ¬ PairAt L k p ∧ ¬ Single L k p) := by
  unfold Single PairAt
  omega

/-- the gates of a layer, as a function of the position -/
def Unitary.gate (W : Unitary) (p : Nat) : Tensor ℂ := site W.U p

/-- the layer `W` has parity `k` and fits a chain with local dimensions `ds` -/
structure Fits (W : Unitary) (ds : List Nat) (k : Nat) : Prop where
  le : k ≤ 1
  k0 : W.k0 = k
  kN : W.kN = layerEnd k ds.length
  gates : GatesOk ds k W.gate

/-- the sweep over the chain, before normalisation -/
noncomputable def sweep (svd : Tensor ℂ → SvdRes ℂ) (eps dflt : ℝ) (W : Unitary) (x : Evo) (sense : Int) (tol : ℝ)
    (Dmax : Nat) : Evo :=
  let L := x.P.length
  let one := fun k x => applyOne svd eps dflt x (site W.U k) k sense Dmax
  let two := fun k x => applyTwo svd eps dflt x (site W.U k) k sense tol Dmax
  if sense > 0 then
    let x := loopUp W.k0 1 one (L + 1) 0 x
    let x := loopUp W.kN 2 two (L + 1) W.k0 x
    loopUp L 1 one (L + 1) W.kN x
  else
    let x := loopDown W.kN 1 one (L + 1) (L - 1) x
    let x := loopDown W.k0 2 two (L + 1) (W.kN - 2) x
    loopDown 0 1 one (L + 1) (W.k0 - 1) x

theorem sweep_spec {svd : Tensor ℂ → SvdRes ℂ} (hg : GoodSvd svd) (eps : ℝ) {dflt : ℝ} (hd0 : 0 < dflt)
    {ds : List Nat} {k : Nat} {W : Unitary} (hW : Fits W ds k) {a b : Nat} (x : Evo) (h : WF a x.P ds b) (hpos : 0 < ds.length) (sense : Int)
    (tol : ℝ) (htol : 0 < effTol dflt tol) (Dmax : Nat) :
    ∃ S, (∀ p, p < ds.length → (PairAt ds.length k p ∨ Single ds.length k p) → S p = true) ∧
      Reached ds k W.gate a b Dmax x S (sweep svd eps dflt W x sense tol Dmax) := by
  have hlen := h.length
  obtain ⟨n, hn, n1, n2, n3, n4⟩ := layerEnd_spec ds.length k hW.le
  have hle := hW.le
  have hgates := fun p hp => layer_gates (p := p) hW.le n1 n2 n3 n4 hp
  have hkN : W.kN = n := by rw [hW.kN, hn]
  unfold sweep
  rw [hW.k0, hkN, hlen]
  have start : ∀ S : Nat → Bool, (∀ p, p < ds.length → S p = false) → Reached ds k W.gate a b Dmax x S x := fun S hS =>
    ⟨h, le_refl _, le_refl _, fun _ _ s hs u hu v => (partElt_none ds k W.gate S hS (fun t => path x.P t u v) hs).symm,
      fun _ => ⟨fun j => le_max_left _ _, fun p hp h1 => by rw [hS p (by have := hp.2; omega)] at h1; exact absurd h1 (by simp)⟩⟩
  by_cases hs : sense > 0
  · simp only [if_pos hs]
    have h0 : Reached ds k W.gate a b Dmax x (fun q => decide ((q : Int) < 0)) x := start _ (fun p _ => by simp)
    obtain ⟨k1, g1, g2, g3, h1⟩ := loopUp_inv (b := (k : Int)) (step := 1) (by omega)
      (body := fun k x => applyOne svd eps dflt x (site W.U k) k sense Dmax)
      (fun i y => 0 ≤ i ∧ i ≤ k ∧ Reached ds k W.gate a b Dmax x (fun q => decide ((q : Int) < i)) y) (by
        rintro i y hi ⟨i1, i2, hy⟩
        refine ⟨by omega, by omega, ?_⟩
        obtain ⟨m, rfl⟩ : ∃ m : Nat, i = m := ⟨i.toNat, by omega⟩
        have hm : m < ds.length := by omega
        exact hy.one hg eps hd0 hW.gates ((hgates m hm).1 (Or.inl (by omega))) (by simp) (by simp)
            (fun q hq _ => by simp only [decide_eq_decide]; omega) sense) (ds.length + 1) 0 x (by push_cast; omega) ⟨le_refl _, by omega, h0⟩
    obtain rfl : k1 = k := by omega
    obtain ⟨k2, g4, g5, g6, g7, h2⟩ := loopUp_inv (b := (n : Int)) (step := 2) (by omega)
      (body := fun k x => applyTwo svd eps dflt x (site W.U k) k sense tol Dmax)
      (fun i y => k ≤ i ∧ i ≤ n ∧ (i - k) % 2 = 0 ∧ Reached ds k W.gate a b Dmax x (fun q => decide ((q : Int) < i)) y) (by
        rintro i y hi ⟨i1, i2, i3, hy⟩
        refine ⟨by omega, by omega, by omega, ?_⟩
        obtain ⟨m, rfl⟩ : ∃ m : Nat, i = m := ⟨i.toNat, by omega⟩
        have hm : m < ds.length := by omega
        refine hy.two hg eps hd0 hW.gates ((hgates m hm).2.1 (by omega) (by omega) (by omega)) (by simp) (by simp)
            (fun q hq hgq => ?_) sense tol htol
        simp only [decide_eq_decide]
        have : q ≠ m + 1 := by
          rintro rfl
          have hm1 : m + 1 < ds.length := by
            rcases hgq with h | h
            · have := h.2; omega
            · exact h.1
          have := (hgates (m + 1) hm1).2.2 (by omega) (by omega) (by omega)
          tauto
        omega) (ds.length + 1) k _ (by push_cast; omega) ⟨le_refl _, by omega, by omega, h1⟩
    obtain rfl : k2 = n := by omega
    obtain ⟨k3, g8, g9, g10, h3⟩ := loopUp_inv (b := (ds.length : Int)) (step := 1) (by omega)
      (body := fun k x => applyOne svd eps dflt x (site W.U k) k sense Dmax)
      (fun i y => n ≤ i ∧ i ≤ max n ds.length ∧ Reached ds k W.gate a b Dmax x (fun q => decide ((q : Int) < i)) y) (by
        rintro i y hi ⟨i1, i2, hy⟩
        refine ⟨by omega, by omega, ?_⟩
        obtain ⟨m, rfl⟩ : ∃ m : Nat, i = m := ⟨i.toNat, by omega⟩
        have hm : m < ds.length := by omega
        exact hy.one hg eps hd0 hW.gates ((hgates m hm).1 (Or.inr (by omega))) (by simp) (by simp)
            (fun q hq _ => by simp only [decide_eq_decide]; omega) sense) (ds.length + 1) n _ (by push_cast; omega) ⟨le_refl _, by omega, h2⟩
    exact ⟨_, fun p hp _ => by simp only [decide_eq_true_eq]; omega, h3⟩
  · simp only [if_neg hs]
    have h0 : Reached ds k W.gate a b Dmax x (fun q => decide ((q : Int) > ds.length - 1)) x :=
      start _ (fun p _ => by simp; omega)
    obtain ⟨k1, g1, g2, g3, h1⟩ := loopDown_inv (b := (n : Int)) (step := 1) (by omega)
      (body := fun k x => applyOne svd eps dflt x (site W.U k) k sense Dmax)
      (fun i y => n ≤ i + 1 ∧ i < ds.length ∧ Reached ds k W.gate a b Dmax x (fun q => decide ((q : Int) > i)) y) (by
        rintro i y hi ⟨i1, i2, hy⟩
        refine ⟨by omega, by omega, ?_⟩
        obtain ⟨m, rfl⟩ : ∃ m : Nat, i = m := ⟨i.toNat, by omega⟩
        have hm : m < ds.length := by omega
        exact hy.one hg eps hd0 hW.gates ((hgates m hm).1 (Or.inr (by omega))) (by simp) (by simp)
            (fun q hq _ => by simp only [decide_eq_decide]; omega) sense) (ds.length + 1) (ds.length - 1) x (by push_cast; omega)
        ⟨by omega, by omega, h0⟩
    obtain rfl : k1 = n - 1 := by omega
    have h1' := h1
    rw [show (fun q : Nat => decide ((q : Int) > (n - 1 : Int))) = (fun q : Nat => decide ((q : Int) ≥ (n - 2 : Int) + 2)) by
      funext q; simp only [decide_eq_decide]; omega] at h1'
    obtain ⟨k2, g4, g5, g6, g7, h2⟩ := loopDown_inv (b := (k : Int)) (step := 2) (by omega)
      (body := fun k x => applyTwo svd eps dflt x (site W.U k) k sense tol Dmax)
      (fun i y => (k : Int) - 2 ≤ i ∧ i + 2 ≤ n ∧ (i - k) % 2 = 0 ∧ Reached ds k W.gate a b Dmax x (fun q => decide ((q : Int) ≥ i + 2)) y) (by
        rintro i y hi ⟨i1, i2, i3, hy⟩
        refine ⟨by omega, by omega, by omega, ?_⟩
        obtain ⟨m, rfl⟩ : ∃ m : Nat, i = m := ⟨i.toNat, by omega⟩
        have hm : m < ds.length := by omega
        refine hy.two hg eps hd0 hW.gates ((hgates m hm).2.1 (by omega) (by omega) (by omega)) (by simp) (by simp)
            (fun q hq hgq => ?_) sense tol htol
        simp only [decide_eq_decide]
        have : q ≠ m + 1 := by
          rintro rfl
          have hm1 : m + 1 < ds.length := by
            rcases hgq with h | h
            · have := h.2; omega
            · exact h.1
          have := (hgates (m + 1) hm1).2.2 (by omega) (by omega) (by omega)
          tauto
        omega) (ds.length + 1) (n - 2) _ (by push_cast; omega) ⟨by omega, by omega, by omega, h1'⟩
    obtain rfl : k2 = k - 2 := by omega
    have h2' := h2
    rw [show (fun q : Nat => decide ((q : Int) ≥ (k - 2 : Int) + 2)) = (fun q : Nat => decide ((q : Int) > (k - 1 : Int))) by
      funext q; simp only [decide_eq_decide]; omega] at h2'
    obtain ⟨k3, g8, g9, g10, h3⟩ := loopDown_inv (b := (0 : Int)) (step := 1) (by omega)
      (body := fun k x => applyOne svd eps dflt x (site W.U k) k sense Dmax)
      (fun i y => -1 ≤ i ∧ i ≤ k - 1 ∧ Reached ds k W.gate a b Dmax x (fun q => decide ((q : Int) > i)) y) (by
        rintro i y hi ⟨i1, i2, hy⟩
        refine ⟨by omega, by omega, ?_⟩
        obtain ⟨m, rfl⟩ : ∃ m : Nat, i = m := ⟨i.toNat, by omega⟩
        have hm : m < ds.length := by omega
        exact hy.one hg eps hd0 hW.gates ((hgates m hm).1 (Or.inl (by omega))) (by simp) (by simp)
            (fun q hq _ => by simp only [decide_eq_decide]; omega) sense) (ds.length + 1) (k - 1) _ (by push_cast; omega) ⟨by omega, by omega, h2'⟩
    exact ⟨_, fun p hp _ => by simp only [decide_eq_true_eq]; omega, h3⟩

end MPS.Trotter
