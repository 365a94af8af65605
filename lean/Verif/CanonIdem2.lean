import Verif.CanonIdem

/-! # Canonical form of a state which is already in this form: the loops -/

set_option linter.unusedSectionVars false
set_option linter.unusedSimpArgs false

namespace MPS.Trotter
open MPS Tensor MPS.Props Minim
variable {K : Type} [RCLike K]

/-- all bonds are at most `B` -/
def BondsLe (P : List (Tensor K)) (B : Nat) : Prop := ∀ j, j < P.length → (site P j).dim 0 ≤ B ∧ (site P j).dim 2 ≤ B

/-- one step to the right at a site which is a left isometry, as is the next one if `i + 1 < c` -/
theorem step_right_iso {svd : Tensor K → SvdRes K} (hg : GoodSvd svd) (eps : ℝ) {dflt : ℝ} (hd0 : 0 < dflt) {ds : List Nat} {P : List (Tensor K)} {c i B : Nat}
    (h : Cent ds P c) (hc : c < ds.length) (hi : i < c) (hb : BondsLe P B) (hsm : B * max dflt eps < 1) :
    let r := setCanonical svd eps dflt P i (site P i) 1 true
    Cent ds r.1 c ∧ BondsLe r.1 B ∧ r.2 = 0 := by
  intro r
  have hlen := h.wf.length
  have hok : 0 < effTol dflt (splitTol true) := by rw [effTol_default]; exact hd0
  obtain ⟨r1, r2, r3, -, -, -, -⟩ := setCanonical_right_full hg eps hd0.le h.wf i (by omega) true (Or.inl hok)
  obtain ⟨a, b, -, w2, w3, p1, p2, p3⟩ := WF.around h.wf (show i < ds.length by omega)
  obtain ⟨a', b', -, w2', -, p1', p2', p3'⟩ := WF.around h.wf (show i + 1 < ds.length by omega)
  have hbb := hb i (by omega)
  have hbb' := hb (i + 1) (by omega)
  rw [dim0_of w2, dim2_of w2] at hbb
  rw [dim0_of w2', dim2_of w2'] at hbb'
  have hbond : b = a' := by
    rw [Form.drop_site (by omega), List.drop_eq_getElem_cons (show i + 1 < ds.length by omega)] at w3
    cases w3 with
    | cons hd _ _ _ _ => rw [w2'] at hd; simp only [List.cons.injEq] at hd; exact hd.1.symm
  subst hbond
  obtain ⟨l, hl0, hll, hUd, hVd, hUi, -, -, hex, -⟩ := splitRight_spec hg eps hd0.le w2 p1 p2 p3 true (Or.inl hok)
  have hlost := splitRight_iso hg eps hd0 w2 p1 p2 p3 (h.lo i hi) hbb.2 hsm
  have hex := hex hlost
  set q := splitRight svd eps dflt (site P i) true with hq
  have hr : r = ((P.set i q.U).set (i + 1) (fold q.V (-1) (site P (i + 1)) 0), q.lost) := by
    simp only [r, setCanonical, splitT, hq]
    rw [if_pos (by norm_num), if_neg (by omega)]
    simp
  have s1 : site r.1 (i + 1) = fold q.V (-1) (site P (i + 1)) 0 := by
    rw [hr]; simp only; rw [site_set _ _ _ _ (by rw [List.length_set]; omega), if_pos rfl]
  have s0 : site r.1 i = q.U := by
    rw [hr]; simp only; rw [site_set _ _ _ _ (by rw [List.length_set]; omega), if_neg (by omega), site_set _ _ _ _ (by omega), if_pos rfl]
  have hfd : (site r.1 (i + 1)).dims = [l, ds.getD (i + 1) 0, b'] := by rw [s1]; simp [fold, hVd, w2', nrm, rank]
  have hfg : ∀ k s y, (site r.1 (i + 1)).get [k, s, y] = ∑ x ∈ Finset.range b, q.V.get [k, x] * (site P (i + 1)).get [x, s, y] := by
    intro k s y
    rw [s1]
    simp [fold, hVd, w2', nrm, rank, dim]
  have hVV : ∀ y y', y < b → y' < b → ∑ k ∈ Finset.range l, star (q.V.get [k, y]) * q.V.get [k, y'] = if y = y' then 1 else 0 := by
    intro y y' hy hy'
    have e := h.lo i hi y y' (by rw [dim2_of w2]; exact hy) (by rw [dim2_of w2]; exact hy')
    rw [dim0_of w2, dim1_of w2] at e
    rw [← e]
    have e1 : ∀ x ∈ Finset.range a, ∀ s ∈ Finset.range (ds.getD i 0), star ((site P i).get [x, s, y]) * (site P i).get [x, s, y']
        = ∑ k ∈ Finset.range l, ∑ k' ∈ Finset.range l, (star (q.V.get [k, y]) * q.V.get [k', y']) * (star (q.U.get [x, s, k]) * q.U.get [x, s, k']) := by
      intro x hx s hs
      rw [← hex x s y (Finset.mem_range.1 hx) (Finset.mem_range.1 hs) hy, ← hex x s y' (Finset.mem_range.1 hx) (Finset.mem_range.1 hs) hy',
        star_sum, Finset.sum_mul]
      refine Finset.sum_congr rfl fun k _ => ?_
      rw [Finset.mul_sum]
      exact Finset.sum_congr rfl fun k' _ => by rw [star_mul']; ring
    rw [Finset.sum_congr rfl fun x hx => Finset.sum_congr rfl fun s hs => e1 x hx s hs]
    have e2 : ∀ k ∈ Finset.range l, ∑ k' ∈ Finset.range l, ∑ x ∈ Finset.range a, ∑ s ∈ Finset.range (ds.getD i 0),
        (star (q.V.get [k, y]) * q.V.get [k', y']) * (star (q.U.get [x, s, k]) * q.U.get [x, s, k']) = star (q.V.get [k, y]) * q.V.get [k, y'] := by
      intro k hk
      rw [Finset.sum_eq_single k]
      · have := hUi k k (by rw [dim2_of hUd]; exact Finset.mem_range.1 hk) (by rw [dim2_of hUd]; exact Finset.mem_range.1 hk)
        rw [dim0_of hUd, dim1_of hUd, if_pos rfl] at this
        simp only [← Finset.mul_sum]
        rw [this, mul_one]
      · intro k' hk' hne
        have := hUi k k' (by rw [dim2_of hUd]; exact Finset.mem_range.1 hk) (by rw [dim2_of hUd]; exact Finset.mem_range.1 hk')
        rw [dim0_of hUd, dim1_of hUd, if_neg (Ne.symm hne)] at this
        simp only [← Finset.mul_sum]
        rw [this, mul_zero]
      · intro hn; exact absurd hk hn
    rw [← Finset.sum_congr rfl e2]
    symm
    calc _ = ∑ x ∈ Finset.range a, ∑ k ∈ Finset.range l, ∑ s ∈ Finset.range (ds.getD i 0), ∑ k' ∈ Finset.range l,
          (star (q.V.get [k, y]) * q.V.get [k', y']) * (star (q.U.get [x, s, k]) * q.U.get [x, s, k']) :=
            Finset.sum_congr rfl fun x _ => Finset.sum_comm
      _ = ∑ k ∈ Finset.range l, ∑ x ∈ Finset.range a, ∑ s ∈ Finset.range (ds.getD i 0), ∑ k' ∈ Finset.range l,
          (star (q.V.get [k, y]) * q.V.get [k', y']) * (star (q.U.get [x, s, k]) * q.U.get [x, s, k']) := Finset.sum_comm
      _ = ∑ k ∈ Finset.range l, ∑ x ∈ Finset.range a, ∑ k' ∈ Finset.range l, ∑ s ∈ Finset.range (ds.getD i 0),
          (star (q.V.get [k, y]) * q.V.get [k', y']) * (star (q.U.get [x, s, k]) * q.U.get [x, s, k']) :=
            Finset.sum_congr rfl fun k _ => Finset.sum_congr rfl fun x _ => Finset.sum_comm
      _ = _ := Finset.sum_congr rfl fun k _ => Finset.sum_comm
  refine ⟨⟨r1, fun j hj => ?_, fun j hj hj2 => ?_⟩, fun j hj => ?_, by rw [hr]; exact hlost⟩
  · by_cases e0 : j = i
    · subst e0; exact r2
    by_cases e1 : j = i + 1
    · subst e1
      have hY := h.lo (i + 1) hj
      intro y y' hy hy'
      rw [dim2_of hfd] at hy hy'
      have e := hY y y' (by rw [dim2_of w2']; exact hy) (by rw [dim2_of w2']; exact hy')
      rw [dim0_of w2', dim1_of w2'] at e
      rw [dim0_of hfd, dim1_of hfd, ← e, Finset.sum_comm, Finset.sum_comm (s := Finset.range b)]
      refine Finset.sum_congr rfl fun s _ => ?_
      simp only [hfg]
      have e3 : ∀ k ∈ Finset.range l, star (∑ x ∈ Finset.range b, q.V.get [k, x] * (site P (i + 1)).get [x, s, y]) *
          ∑ x ∈ Finset.range b, q.V.get [k, x] * (site P (i + 1)).get [x, s, y'] = ∑ x ∈ Finset.range b, ∑ x' ∈ Finset.range b,
            (star (q.V.get [k, x]) * q.V.get [k, x']) * (star ((site P (i + 1)).get [x, s, y]) * (site P (i + 1)).get [x', s, y']) := by
        intro k _
        rw [star_sum, Finset.sum_mul]
        refine Finset.sum_congr rfl fun x _ => ?_
        rw [Finset.mul_sum]
        exact Finset.sum_congr rfl fun x' _ => by rw [star_mul']; ring
      rw [Finset.sum_congr rfl e3, Finset.sum_comm]
      refine Finset.sum_congr rfl fun x hx => ?_
      rw [Finset.sum_comm, Finset.sum_eq_single x]
      · rw [← Finset.sum_mul, hVV x x (Finset.mem_range.1 hx) (Finset.mem_range.1 hx), if_pos rfl, one_mul]
      · intro x' hx' hne
        rw [← Finset.sum_mul, hVV x x' (Finset.mem_range.1 hx) (Finset.mem_range.1 hx'), if_neg (Ne.symm hne), zero_mul]
      · intro hn; exact absurd hx hn
    · rw [r3 j e0 e1]; exact h.lo j hj
  · rw [r3 j (by omega) (by omega)]; exact h.hi j hj hj2
  · have hj' : j < P.length := by have e : r.1.length = ds.length := r1.length; omega
    by_cases e0 : j = i
    · subst e0; rw [s0, dim0_of hUd, dim2_of hUd]; omega
    by_cases e1 : j = i + 1
    · subst e1; rw [dim0_of hfd, dim2_of hfd]; omega
    · have := r3 j e0 e1
      rw [show site r.1 j = site P j from this]; exact hb j hj'

/-- one step to the left at a site which is a right isometry -/
theorem step_left_iso {svd : Tensor K → SvdRes K} (hg : GoodSvd svd) (eps : ℝ) {dflt : ℝ} (hd0 : 0 < dflt) {ds : List Nat} {P : List (Tensor K)} {c i B : Nat}
    (h : Cent ds P c) (hi : c < i + 1) (hi2 : i + 1 < ds.length) (hb : BondsLe P B) (hsm : B * max dflt eps < 1) :
    let r := setCanonical svd eps dflt P (i + 1) (site P (i + 1)) (-1) true
    Cent ds r.1 c ∧ BondsLe r.1 B ∧ r.2 = 0 := by
  intro r
  have hlen := h.wf.length
  have hok : 0 < effTol dflt (splitTol true) := by rw [effTol_default]; exact hd0
  obtain ⟨r1, r2, r3, -, -, -, -⟩ := setCanonical_left_full hg eps hd0.le h.wf i (by omega) true (-1) (by norm_num) (Or.inl hok)
  obtain ⟨a, b, -, w2, w3, p1, p2, p3⟩ := WF.around h.wf (show i < ds.length by omega)
  obtain ⟨a', b', -, w2', -, p1', p2', p3'⟩ := WF.around h.wf (show i + 1 < ds.length by omega)
  have hbb := hb i (by omega)
  have hbb' := hb (i + 1) (by omega)
  rw [dim0_of w2, dim2_of w2] at hbb
  rw [dim0_of w2', dim2_of w2'] at hbb'
  have hbond : b = a' := by
    rw [Form.drop_site (by omega), List.drop_eq_getElem_cons (show i + 1 < ds.length by omega)] at w3
    cases w3 with
    | cons hd _ _ _ _ => rw [w2'] at hd; simp only [List.cons.injEq] at hd; exact hd.1.symm
  subst hbond
  obtain ⟨l, hl0, hll, hUd, hVd, hUi, -, -, hex, -⟩ := splitLeft_spec hg eps hd0.le w2' p1' p2' p3' true (Or.inl hok)
  have hlost := splitLeft_iso hg eps hd0 w2' p1' p2' p3' (h.hi (i + 1) hi hi2) hbb'.1 hsm
  have hex := hex hlost
  set q := splitLeft svd eps dflt (site P (i + 1)) true with hq
  have hr : r = ((P.set (i + 1) q.U).set i (fold (site P i) (-1) q.V 0), q.lost) := by
    simp only [r, setCanonical, splitT, hq]
    rw [if_neg (by norm_num), if_neg (by omega)]
    simp
  have s1 : site r.1 (i + 1) = q.U := by
    rw [hr]; simp only; rw [site_set _ _ _ _ (by rw [List.length_set]; omega), if_neg (by omega), site_set _ _ _ _ (by omega), if_pos rfl]
  have s0 : site r.1 i = fold (site P i) (-1) q.V 0 := by
    rw [hr]; simp only; rw [site_set _ _ _ _ (by rw [List.length_set]; omega), if_pos rfl]
  have hfd : (site r.1 i).dims = [a, ds.getD i 0, l] := by rw [s0]; simp [fold, hVd, w2, nrm, rank]
  have hfg : ∀ x s k, (site r.1 i).get [x, s, k] = ∑ y ∈ Finset.range b, (site P i).get [x, s, y] * q.V.get [y, k] := by
    intro k s y
    rw [s0]
    simp [fold, hVd, w2, nrm, rank, dim]
  have hVV : ∀ y y', y < b → y' < b → ∑ k ∈ Finset.range l, q.V.get [y, k] * star (q.V.get [y', k]) = if y = y' then 1 else 0 := by
    intro y y' hy hy'
    have e := h.hi (i + 1) hi hi2 y y' (by rw [dim0_of w2']; exact hy) (by rw [dim0_of w2']; exact hy')
    rw [dim1_of w2', dim2_of w2'] at e
    rw [← e]
    have e1 : ∀ s ∈ Finset.range (ds.getD (i + 1) 0), ∀ x ∈ Finset.range b', (site P (i + 1)).get [y, s, x] * star ((site P (i + 1)).get [y', s, x])
        = ∑ k ∈ Finset.range l, ∑ k' ∈ Finset.range l, (q.V.get [y, k] * star (q.V.get [y', k'])) * (q.U.get [k, s, x] * star (q.U.get [k', s, x])) := by
      intro s hs x hx
      rw [← hex y s x hy (Finset.mem_range.1 hs) (Finset.mem_range.1 hx), ← hex y' s x hy' (Finset.mem_range.1 hs) (Finset.mem_range.1 hx),
        star_sum, Finset.sum_mul]
      refine Finset.sum_congr rfl fun k _ => ?_
      rw [Finset.mul_sum]
      exact Finset.sum_congr rfl fun k' _ => by rw [star_mul']; ring
    rw [Finset.sum_congr rfl fun x hx => Finset.sum_congr rfl fun s hs => e1 x hx s hs]
    have e2 : ∀ k ∈ Finset.range l, ∑ k' ∈ Finset.range l, ∑ s ∈ Finset.range (ds.getD (i + 1) 0), ∑ x ∈ Finset.range b',
        (q.V.get [y, k] * star (q.V.get [y', k'])) * (q.U.get [k, s, x] * star (q.U.get [k', s, x])) = q.V.get [y, k] * star (q.V.get [y', k]) := by
      intro k hk
      rw [Finset.sum_eq_single k]
      · have := hUi k k (by rw [dim0_of hUd]; exact Finset.mem_range.1 hk) (by rw [dim0_of hUd]; exact Finset.mem_range.1 hk)
        rw [dim1_of hUd, dim2_of hUd, if_pos rfl] at this
        simp only [← Finset.mul_sum]
        rw [this, mul_one]
      · intro k' hk' hne
        have := hUi k k' (by rw [dim0_of hUd]; exact Finset.mem_range.1 hk) (by rw [dim0_of hUd]; exact Finset.mem_range.1 hk')
        rw [dim1_of hUd, dim2_of hUd, if_neg (Ne.symm hne)] at this
        simp only [← Finset.mul_sum]
        rw [this, mul_zero]
      · intro hn; exact absurd hk hn
    rw [← Finset.sum_congr rfl e2]
    symm
    calc _ = ∑ s ∈ Finset.range (ds.getD (i + 1) 0), ∑ k ∈ Finset.range l, ∑ x ∈ Finset.range b', ∑ k' ∈ Finset.range l,
          (q.V.get [y, k] * star (q.V.get [y', k'])) * (q.U.get [k, s, x] * star (q.U.get [k', s, x])) :=
            Finset.sum_congr rfl fun x _ => Finset.sum_comm
      _ = ∑ k ∈ Finset.range l, ∑ s ∈ Finset.range (ds.getD (i + 1) 0), ∑ x ∈ Finset.range b', ∑ k' ∈ Finset.range l,
          (q.V.get [y, k] * star (q.V.get [y', k'])) * (q.U.get [k, s, x] * star (q.U.get [k', s, x])) := Finset.sum_comm
      _ = ∑ k ∈ Finset.range l, ∑ s ∈ Finset.range (ds.getD (i + 1) 0), ∑ k' ∈ Finset.range l, ∑ x ∈ Finset.range b',
          (q.V.get [y, k] * star (q.V.get [y', k'])) * (q.U.get [k, s, x] * star (q.U.get [k', s, x])) :=
            Finset.sum_congr rfl fun k _ => Finset.sum_congr rfl fun x _ => Finset.sum_comm
      _ = _ := Finset.sum_congr rfl fun k _ => Finset.sum_comm
  refine ⟨⟨r1, fun j hj => ?_, fun j hj hj2 => ?_⟩, fun j hj => ?_, by rw [hr]; exact hlost⟩
  · rw [r3 j (by omega) (by omega)]; exact h.lo j hj
  · by_cases e0 : j = i + 1
    · subst e0; exact r2
    by_cases e1 : j = i
    · subst e1
      have hY := h.hi j hj (by omega)
      intro y y' hy hy'
      rw [dim0_of hfd] at hy hy'
      have e := hY y y' (by rw [dim0_of w2]; exact hy) (by rw [dim0_of w2]; exact hy')
      rw [dim1_of w2, dim2_of w2] at e
      rw [dim1_of hfd, dim2_of hfd, ← e]
      refine Finset.sum_congr rfl fun s _ => ?_
      simp only [hfg]
      have e3 : ∀ k ∈ Finset.range l, (∑ x ∈ Finset.range b, (site P j).get [y, s, x] * q.V.get [x, k]) *
          star (∑ x ∈ Finset.range b, (site P j).get [y', s, x] * q.V.get [x, k]) = ∑ x ∈ Finset.range b, ∑ x' ∈ Finset.range b,
            (q.V.get [x, k] * star (q.V.get [x', k])) * ((site P j).get [y, s, x] * star ((site P j).get [y', s, x'])) := by
        intro k _
        rw [star_sum, Finset.sum_mul]
        refine Finset.sum_congr rfl fun x _ => ?_
        rw [Finset.mul_sum]
        exact Finset.sum_congr rfl fun x' _ => by rw [star_mul']; ring
      rw [Finset.sum_congr rfl e3, Finset.sum_comm]
      refine Finset.sum_congr rfl fun x hx => ?_
      rw [Finset.sum_comm, Finset.sum_eq_single x]
      · rw [← Finset.sum_mul, hVV x x (Finset.mem_range.1 hx) (Finset.mem_range.1 hx), if_pos rfl, one_mul]
      · intro x' hx' hne
        rw [← Finset.sum_mul, hVV x x' (Finset.mem_range.1 hx) (Finset.mem_range.1 hx'), if_neg (Ne.symm hne), zero_mul]
      · intro hn; exact absurd hx hn
    · rw [r3 j e1 e0]; exact h.hi j hj hj2
  · have hj' : j < P.length := by have e : r.1.length = ds.length := r1.length; omega
    by_cases e0 : j = i
    · subst e0; rw [dim0_of hfd, dim2_of hfd]; omega
    by_cases e1 : j = i + 1
    · subst e1; rw [s1, dim0_of hUd, dim2_of hUd]; omega
    · have := r3 j e0 e1
      rw [show site r.1 j = site P j from this]; exact hb j hj'

theorem loopLeft_iso {svd : Tensor K → SvdRes K} (hg : GoodSvd svd) (eps : ℝ) {dflt : ℝ} (hd0 : 0 < dflt) {ds : List Nat} {c B : Nat}
    (hsm : B * max dflt eps < 1) : ∀ (i : Nat) (x : List (Tensor K) × ℝ), i < ds.length → Cent ds x.1 c → BondsLe x.1 B → x.2 = 0 →
    let y := canonLoopLeft svd eps dflt c i x
    Cent ds y.1 c ∧ BondsLe y.1 B ∧ y.2 = 0
  | 0, x, _, h, hb, h0 => ⟨h, hb, h0⟩
  | i + 1, x, hi, h, hb, h0 => by
    rw [canonLoopLeft]
    simp only []
    split
    · next hk =>
      obtain ⟨a1, a2, a3⟩ := step_left_iso hg eps hd0 h (i := i) (by omega) (by omega) hb hsm
      exact loopLeft_iso hg eps hd0 hsm i (_, _) (by omega) a1 a2 (by simp only [h0, a3, add_zero])
    · exact ⟨h, hb, h0⟩

theorem loopRight_iso {svd : Tensor K → SvdRes K} (hg : GoodSvd svd) (eps : ℝ) {dflt : ℝ} (hd0 : 0 < dflt) {ds : List Nat} {c B : Nat}
    (hc : c < ds.length) (hsm : B * max dflt eps < 1) : ∀ (n i : Nat) (x : List (Tensor K) × ℝ), i + n = c → Cent ds x.1 c → BondsLe x.1 B → x.2 = 0 →
    let y := canonLoopRight svd eps dflt n i x
    Cent ds y.1 c ∧ BondsLe y.1 B ∧ y.2 = 0
  | 0, i, x, _, h, hb, h0 => ⟨h, hb, h0⟩
  | n + 1, i, x, hi, h, hb, h0 => by
    rw [canonLoopRight]
    obtain ⟨a1, a2, a3⟩ := step_right_iso hg eps hd0 h hc (i := i) (by omega) hb hsm
    exact loopRight_iso hg eps hd0 hc hsm n (i + 1) (_, _) (by omega) a1 a2 (by simp only [h0, a3, add_zero])

/-- nothing is lost by the canonical form of a state which is already in this form -/
theorem form_iso {svd : Tensor K → SvdRes K} (hg : GoodSvd svd) (eps : ℝ) {dflt : ℝ} (hd0 : 0 < dflt) {ds : List Nat} {P : List (Tensor K)} {c B : Nat}
    (h : Cent ds P c) (hc : c < ds.length) (hb : BondsLe P B) (hsm : B * max dflt eps < 1) :
    let y := canonicalFormAt svd eps dflt P c
    Cent ds y.1 c ∧ BondsLe y.1 B ∧ y.2 = 0 := by
  have hlen := h.wf.length
  obtain ⟨a1, a2, a3⟩ := loopLeft_iso hg eps hd0 hsm (P.length - 1) (P, 0) (by omega) h hb rfl
  have := loopRight_iso hg eps hd0 hc hsm c 0 (canonLoopLeft svd eps dflt c (P.length - 1) (P, 0)) (by omega) a1 a2 a3
  intro y
  have hy : y = canonLoopRight svd eps dflt c 0 (canonLoopLeft svd eps dflt c (P.length - 1) (P, 0)) := by
    simp only [y, canonicalFormAt, eitherForm]; rfl
  rw [hy]; exact this

end MPS.Trotter
