import Verif.TrotterLemmas
import Verif.Props.CanonProps
import Verif.Props.LayerSimpProps

/-!
# C132: bond dimensions of canonical forms
-/

set_option linter.unusedSectionVars false
set_option linter.unusedSimpArgs false

namespace MPS.Props
open MPS Tensor
variable {K : Type} [RCLike K]

theorem iso_right_le {A : Tensor K} {a d b : Nat} (h : A.dims = [a, d, b]) (hi : RightIso A) : a ≤ d * b := by
  let M : Matrix (Fin a) (Fin d × Fin b) K := Matrix.of fun x p => A.get [x, p.1, p.2]
  have hM : M * M.conjTranspose = 1 := by
    ext x x'
    have := hi x x' (by rw [dim0_of h]; exact x.2) (by rw [dim0_of h]; exact x'.2)
    rw [dim1_of h, dim2_of h] at this
    rw [Matrix.mul_apply, Fintype.sum_prod_type, Matrix.one_apply]
    simp only [M, Matrix.conjTranspose_apply, Matrix.of_apply]
    rw [Finset.sum_range, Finset.sum_congr rfl fun i _ => Finset.sum_range _] at this
    rw [this]
    simp [Fin.ext_iff]
  have h1 : (1 : Matrix (Fin a) (Fin a) K).rank ≤ M.rank := by rw [← hM]; exact Matrix.rank_mul_le_left _ _
  rw [Matrix.rank_one, Fintype.card_fin] at h1
  have := M.rank_le_card_width
  simp at this
  omega

theorem iso_left_le {A : Tensor K} {a d b : Nat} (h : A.dims = [a, d, b]) (hi : LeftIso A) : b ≤ a * d := by
  let M : Matrix (Fin a × Fin d) (Fin b) K := Matrix.of fun p y => A.get [p.1, p.2, y]
  have hM : M.conjTranspose * M = 1 := by
    ext x x'
    have := hi x x' (by rw [dim2_of h]; exact x.2) (by rw [dim2_of h]; exact x'.2)
    rw [dim0_of h, dim1_of h] at this
    rw [Matrix.mul_apply, Fintype.sum_prod_type, Matrix.one_apply]
    simp only [M, Matrix.conjTranspose_apply, Matrix.of_apply]
    rw [Finset.sum_range, Finset.sum_congr rfl fun i _ => Finset.sum_range _] at this
    rw [this]
    simp [Fin.ext_iff]
  have h1 : (1 : Matrix (Fin b) (Fin b) K).rank ≤ M.rank := by rw [← hM]; exact Matrix.rank_mul_le_right _ _
  rw [Matrix.rank_one, Fintype.card_fin] at h1
  have := M.rank_le_card_height
  simp at this
  omega

theorem chain_left_le {a b : Nat} {pre : List (Tensor K)} {ds : List Nat} (w : WF a pre ds b) (h : ∀ j, j < pre.length → LeftIso (site pre j)) :
    b ≤ a * ds.prod := by
  induction w with
  | nil => simp
  | cons h1 _ _ _ _ ih =>
    rw [List.prod_cons, ← mul_assoc]
    refine (ih fun j hj => ?_).trans (Nat.mul_le_mul_right _ (iso_left_le h1 (by simpa [site] using h 0 (by simp))))
    simpa [site] using h (j + 1) (by simp; omega)

theorem chain_right_le {a b : Nat} {post : List (Tensor K)} {ds : List Nat} (w : WF a post ds b) (h : ∀ j, j < post.length → RightIso (site post j)) :
    a ≤ ds.prod * b := by
  induction w with
  | nil => simp
  | cons h1 _ _ _ _ ih =>
    rw [List.prod_cons, mul_assoc]
    refine (iso_right_le h1 (by simpa [site] using h 0 (by simp))).trans (Nat.mul_le_mul_left _ (ih fun j hj => ?_))
    simpa [site] using h (j + 1) (by simp; omega)

theorem around_any {p q : Nat} {ψ : List (Tensor K)} {ds : List Nat} (h : WF p ψ ds q) {k : Nat} (hk : k < ds.length) :
    ∃ a b, WF p (ψ.take k) (ds.take k) a ∧ (site ψ k).dims = [a, ds.getD k 0, b] ∧ WF b (ψ.drop (k + 1)) (ds.drop (k + 1)) q ∧
      0 < a ∧ 0 < ds.getD k 0 ∧ 0 < b := by
  have hl := h.length
  obtain ⟨a, h1, h2⟩ := Form.WF.cut h hk.le
  rw [Form.drop_site (by omega), List.drop_eq_getElem_cons hk] at h2
  cases h2 with
  | cons k1 k2 k3 k4 k5 =>
    refine ⟨a, _, h1, ?_, k5, k2, ?_, k4⟩
    · rw [k1]; simp [hk]
    · simpa [hk] using k3

theorem loopLeft_bonds {svd : Tensor K → SvdRes K} (hg : GoodSvd svd) (eps : ℝ) {dflt : ℝ} (hd0 : 0 < dflt) {a b : Nat} {ds : List Nat} (k : Nat) :
    ∀ (i : Nat) (x : List (Tensor K) × ℝ), i < ds.length → WF a x.1 ds b →
      let y := canonLoopLeft svd eps dflt k i x
      WF a y.1 ds b ∧ ∀ j, (site y.1 j).dim 2 ≤ (site x.1 j).dim 2 := by
  intro i
  induction i with
  | zero => exact fun x _ h => ⟨h, fun _ => le_rfl⟩
  | succ i ih =>
    intro x hi h
    rw [canonLoopLeft]
    simp only []
    split
    · have hl := h.length
      have h1 := (setCanonical_any hg eps hd0 h (i + 1) (by omega) (-1)).1
      obtain ⟨h2, h3⟩ := ih ((setCanonical svd eps dflt x.1 (i + 1) (site x.1 (i + 1)) (-1) true).1, x.2 + (setCanonical svd eps dflt x.1 (i + 1) (site x.1 (i + 1)) (-1) true).2) (by omega) h1
      exact ⟨h2, fun j => (h3 j).trans (setCanonical_bonds hg eps hd0 h (i + 1) (by omega) (-1) j)⟩
    · exact ⟨h, fun _ => le_rfl⟩

theorem loopRight_bonds {svd : Tensor K → SvdRes K} (hg : GoodSvd svd) (eps : ℝ) {dflt : ℝ} (hd0 : 0 < dflt) {a b : Nat} {ds : List Nat} :
    ∀ (n i : Nat) (x : List (Tensor K) × ℝ), i + n ≤ ds.length → WF a x.1 ds b →
      let y := canonLoopRight svd eps dflt n i x
      WF a y.1 ds b ∧ ∀ j, (site y.1 j).dim 2 ≤ (site x.1 j).dim 2 := by
  intro n
  induction n with
  | zero => exact fun i x _ h => ⟨h, fun _ => le_rfl⟩
  | succ n ih =>
    intro i x hi h
    rw [canonLoopRight]
    simp only []
    have hl := h.length
    have h1 := (setCanonical_any hg eps hd0 h i (by omega) 1).1
    obtain ⟨h2, h3⟩ := ih (i + 1) ((setCanonical svd eps dflt x.1 i (site x.1 i) 1 true).1, x.2 + (setCanonical svd eps dflt x.1 i (site x.1 i) 1 true).2) (by omega) h1
    exact ⟨h2, fun j => (h3 j).trans (setCanonical_bonds hg eps hd0 h i (by omega) 1 j)⟩

/-- bonds of the chain `y` on the local dimensions `ds`, compared with those of `ψ`: none is larger; the bond to the right of a site
`j < k` is not larger than the product of the dimensions of the sites up to `j`, and the bond to the left of a site `j > k` not larger than
the product of the dimensions of the sites from `j` on (times the dimension of the bond which closes the chain, one if it is open) -/
def BondsShrink (ds : List Nat) (k : Nat) (ψ y : List (Tensor K)) : Prop :=
  y.length = ψ.length ∧ (∀ j, (site y j).dim 2 ≤ (site ψ j).dim 2) ∧ (∀ j, j < ds.length → (site y j).dim 0 ≤ (site ψ j).dim 0) ∧
  (∀ j, j < k → (site y j).dim 2 ≤ (site ψ 0).dim 0 * (ds.take (j + 1)).prod) ∧
  ∀ j, k < j → j < ds.length → (site y j).dim 0 ≤ (ds.drop j).prod * (site ψ 0).dim 0

theorem either_bonds {svd : Tensor K → SvdRes K} (hg : GoodSvd svd) (eps : ℝ) {dflt : ℝ} (hd0 : 0 < dflt) {ds : List Nat}
    {ψ : List (Tensor K)} (h : IsMPS ds ψ) {k : Nat} (hk : k < ds.length) :
    BondsShrink ds k ψ (canonicalFormAt svd eps dflt ψ k).1 := by
  obtain ⟨-, -, -, -, i1, i2⟩ := canon_core hg eps dflt h (Or.inl hd0) k hk
  obtain ⟨hne, D, hw⟩ := h
  have hlen := hw.length
  obtain ⟨a1, a2⟩ := loopLeft_bonds hg eps hd0 k (ψ.length - 1) (ψ, 0) (by omega) hw
  set x := canonLoopLeft svd eps dflt k (ψ.length - 1) (ψ, 0) with hx
  obtain ⟨b1, b2⟩ := loopRight_bonds hg eps hd0 k 0 x (by omega) a1
  have e : canonicalFormAt svd eps dflt ψ k = canonLoopRight svd eps dflt k 0 x := by
    simp only [canonicalFormAt, eitherForm, ← hx]; rfl
  rw [← e] at b1 b2
  set y := (canonicalFormAt svd eps dflt ψ k).1 with hy
  have hyl := b1.length
  have hc : ∀ j, (site y j).dim 2 ≤ (site ψ j).dim 2 := fun j => (b2 j).trans (a2 j)
  have first : ∀ φ : List (Tensor K), WF D φ ds D → 0 < ds.length → (site φ 0).dim 0 = D := by
    intro φ w hp
    cases w with
    | nil => simp at hp
    | cons h1 => simpa [site] using dim0_of h1
  have hD := first ψ hw (by omega)
  have hdim0 : ∀ j, j < ds.length → (site y j).dim 0 ≤ (site ψ j).dim 0 := by
    intro j hj
    cases j with
    | zero => rw [first y b1 hj, hD]
    | succ j =>
      obtain ⟨c, d, e, d2, f, p1, p2, -⟩ := pair_dims hw j (by omega)
      obtain ⟨c', d', e', d2', f', q1, q2, -⟩ := pair_dims b1 j (by omega)
      have := hc j
      rw [dim2_of p1, dim2_of q1] at this
      rw [dim0_of p2, dim0_of q2]; exact this
  refine ⟨by omega, hc, hdim0, fun j hj => ?_, fun j hj hj2 => ?_⟩
  · obtain ⟨a, b, w1, w2, -, p1, p2, p3⟩ := around_any b1 (show j < ds.length by omega)
    have hd : (site y j).dim 2 = b := dim2_of w2
    have w : WF D (y.take (j + 1)) (ds.take (j + 1)) b := by
      have e1 : y.take (j + 1) = y.take j ++ [site y j] := by
        rw [List.take_add_one]
        simp [site, show j < y.length by omega]
      have e2 : ds.take (j + 1) = ds.take j ++ [ds.getD j 0] := by
        rw [List.take_add_one]
        simp [show j < ds.length by omega]
      rw [e1, e2]
      exact WF.append w1 (WF.single w2 p1 p2 p3)
    have := chain_left_le w fun i hi => by
      have hi' : i < j + 1 := by simp at hi; omega
      have e1 : site (y.take (j + 1)) i = site y i := by
        simp [site, List.getElem?_take, hi']
      rw [e1]; exact i1 i (by omega)
    rw [hd, hD]; exact this
  · obtain ⟨a, b, w1, w2, w3, p1, p2, p3⟩ := around_any b1 hj2
    have hd : (site y j).dim 0 = a := dim0_of w2
    have w : WF a (y.drop j) (ds.drop j) D := by
      rw [Form.drop_site (by omega), show ds.drop j = ds.getD j 0 :: ds.drop (j + 1) by rw [List.drop_eq_getElem_cons hj2]; simp [hj2]]
      exact WF.cons w2 p1 p2 p3 w3
    have := chain_right_le w fun i hi => by
      have hi' : i < y.length - j := by simpa using hi
      have e1 : site (y.drop j) i = site y (j + i) := by
        simp [site]
      rw [e1]; exact i2 (j + i) (by omega) (by omega)
    rw [hd, hD]; exact this

/-- **C132.**  `canonical_form_at(psi, k)` and `normal_form_at(psi, k)` never increase the dimension of a bond, and no bond is larger than
the dimension of the sites on its outer side. -/
theorem C132_bonds {svd : Tensor K → SvdRes K} (hg : GoodSvd svd) (eps : ℝ) {dflt : ℝ} (hd0 : 0 < dflt) {ds : List Nat}
    {ψ : List (Tensor K)} (h : IsMPS ds ψ) {k : Nat} (hk : k < ds.length) :
    BondsShrink ds k ψ (canonicalFormAt svd eps dflt ψ k).1 ∧ BondsShrink ds k ψ (normalFormAt svd eps dflt ψ k).1 := by
  have h1 := either_bonds hg eps hd0 h hk
  refine ⟨h1, ?_⟩
  set y := (canonicalFormAt svd eps dflt ψ k).1 with hy
  have e : (normalFormAt svd eps dflt ψ k).1 = y.set k (smul ((1 / frob (site y k) : ℝ) : K) (site y k)) := by
    rw [hy]
    simp [normalFormAt, canonicalFormAt, eitherForm]
  have hs : ∀ j n, (site (normalFormAt svd eps dflt ψ k).1 j).dim n = (site y j).dim n := by
    intro j n
    rw [e]
    obtain ⟨q1, -⟩ := h1
    have hl : k < y.length := by
      obtain ⟨-, D, hw⟩ := h
      rw [q1, hw.length]; exact hk
    rw [site_set _ _ _ _ hl]
    split_ifs with hj
    · subst hj; rfl
    · rfl
  obtain ⟨q1, q2, q3, q4, q5⟩ := h1
  refine ⟨by rw [e, List.length_set]; exact q1, ?_, ?_, ?_, ?_⟩
  · intro j; rw [hs]; exact q2 j
  · intro j hj; rw [hs]; exact q3 j hj
  · intro j hj; rw [hs]; exact q4 j hj
  · intro j hj hj2; rw [hs]; exact q5 j hj hj2

theorem canon_wf {svd : Tensor K → SvdRes K} (hg : GoodSvd svd) (eps : ℝ) {dflt : ℝ} (hd0 : 0 < dflt) {D : Nat} {ds : List Nat}
    {ψ : List (Tensor K)} (hw : WF D ψ ds D) {k : Nat} (hk : k < ds.length) : WF D (canonicalFormAt svd eps dflt ψ k).1 ds D := by
  have hlen := hw.length
  obtain ⟨a1, -⟩ := loopLeft_bonds hg eps hd0 k (ψ.length - 1) (ψ, 0) (by omega) hw
  obtain ⟨b1, -⟩ := loopRight_bonds hg eps hd0 k 0 (canonLoopLeft svd eps dflt k (ψ.length - 1) (ψ, 0)) (by omega) a1
  have e : canonicalFormAt svd eps dflt ψ k = canonLoopRight svd eps dflt k 0 (canonLoopLeft svd eps dflt k (ψ.length - 1) (ψ, 0)) := by
    simp only [canonicalFormAt, eitherForm]; rfl
  rw [e]; exact b1

/-- **C132.**  `canonical_form(psi, sense)` of an open chain with bonds of dimension `Dmax` at most is in canonical form with respect to one
of its ends, with bonds of dimension `Dmax` at most: a state from which the Trotter solvers may start (C130, C131), whatever `psi` is. -/
theorem C132_ready {svd : Tensor ℂ → SvdRes ℂ} (hg : GoodSvd svd) (eps : ℝ) {dflt : ℝ} (hd0 : 0 < dflt) {ds : List Nat}
    {ψ : List (Tensor ℂ)} (hne : ψ ≠ []) (hw : WF 1 ψ ds 1) {Dmax : Nat} (hD : ∀ j, 0 < j → j < ds.length → (site ψ j).dim 0 ≤ Dmax) (sense : Int) :
    AnyEndUpTo ds Dmax (canonicalForm svd eps dflt ψ sense).1 := by
  have hl := hw.length
  have hp : 0 < ψ.length := List.length_pos_iff.2 hne
  have h : IsMPS ds ψ := ⟨hne, 1, hw⟩
  unfold canonicalForm
  set k := if sense < 0 then 0 else ψ.length - 1 with hk
  have hk' : k < ds.length := by rw [hk]; split_ifs <;> omega
  obtain ⟨-, -, -, -, i1, i2⟩ := canon_core hg eps dflt h (Or.inl hd0) k hk'
  obtain ⟨q1, -, q3, -⟩ := either_bonds hg eps hd0 h hk'
  have w := canon_wf hg eps hd0 hw hk'
  refine ⟨⟨if sense < 0 then 0 else -1, w, ?_, fun hs j h0 hj => i2 j ?_ hj, fun hs j hj => i1 j ?_⟩, fun j h0 hj => (q3 j hj).trans (hD j h0 hj)⟩
  · intro e; rw [e] at q1; simp at q1; omega
  · split_ifs at hs with hc
    · rw [hk, if_pos hc]; exact h0
    · omega
  · split_ifs at hs with hc
    · omega
    · rw [hk, if_neg hc]; omega

/-- the hypotheses hold for a chain whose bond (dimension three) is larger than the dimension of each half (two): after `canonical_form`
the bond has dimension two at most -/
theorem C132_exist : ∃ svd : Tensor ℂ → SvdRes ℂ, ∃ ψ : List (Tensor ℂ), GoodSvd svd ∧ WF 1 ψ [2, 2] 1 ∧ (site ψ 1).dim 0 = 3 ∧
    (site (canonicalForm svd 0 (1 / 2) ψ (-1)).1 1).dim 0 ≤ 2 := by
  obtain ⟨svd, hg⟩ := exists_goodSvd (K := ℂ)
  have hw : WF 1 [(⟨[1, 2, 3], fun _ => (1 : ℂ)⟩ : Tensor ℂ), ⟨[3, 2, 1], fun _ => (1 : ℂ)⟩] [2, 2] 1 :=
    WF.cons rfl Nat.one_pos (by decide) (by decide) (WF.cons rfl (by decide) (by decide) Nat.one_pos (WF.nil 1))
  refine ⟨svd, _, hg, hw, by simp [site, dim], ?_⟩
  have := (either_bonds hg 0 (dflt := 1 / 2) (by norm_num) ⟨by simp, 1, hw⟩ (k := 0) (by simp)).2.2.2.2 1 (by omega) (by simp)
  simpa [canonicalForm, site, dim] using this

end MPS.Props
