import Verif.TrotterTrunc4
import Verif.CanonTrunc3

/-! # A sweep of gates with truncation projects the exact state: overlaps on one side of the centre -/

set_option linter.unusedSectionVars false
set_option linter.unusedSimpArgs false

namespace MPS.Trotter
open MPS Tensor Minim Order

/-- overlap of a wave function with the block states on the left -/
def ovL (ds1 : List Nat) (pre : List (Tensor ℂ)) (T : List Nat → ℂ) (x : Nat) (r : List Nat) : ℂ :=
  sumCfg ds1 fun l => star (path pre l 0 x) * T (l ++ r)

/-- overlap of a wave function with the block states on the right -/
def ovR (ds2 : List Nat) (post : List (Tensor ℂ)) (T : List Nat → ℂ) (y : Nat) (l : List Nat) : ℂ :=
  sumCfg ds2 fun r => star (path post r y 0) * T (l ++ r)

theorem ovL_snoc {pre : List (Tensor ℂ)} {ds1 : List Nat} {c d g : Nat} (w : WF 1 pre ds1 c) {A : Tensor ℂ} (hA : A.dims = [c, d, g])
    (T : List Nat → ℂ) {m : Nat} (hm : m < g) (r : List Nat) :
    ovL (ds1 ++ [d]) (pre ++ [A]) T m r = ∑ x ∈ Finset.range c, ∑ i ∈ Finset.range d, star (A.get [x, i, m]) * ovL ds1 pre T x (i :: r) := by
  unfold ovL
  rw [sumCfg_append]
  simp only [sumCfg_single, ← sumCfg_mul_left]
  have : ∀ x, (∑ i ∈ Finset.range d, sumCfg ds1 fun l => star (A.get [x, i, m]) * (star (path pre l 0 x) * T (l ++ i :: r))) =
      sumCfg ds1 fun l => ∑ i ∈ Finset.range d, star (A.get [x, i, m]) * (star (path pre l 0 x) * T (l ++ i :: r)) := fun x => (sumCfg_sum _ _ _).symm
  rw [Finset.sum_congr rfl fun x _ => this x, ← sumCfg_sum]
  refine sumCfg_congr fun l hl => ?_
  rw [Finset.sum_comm]
  refine Finset.sum_congr rfl fun i _ => ?_
  rw [path_append w (by rw [hl.length, w.length]) Nat.one_pos, star_sum, Finset.sum_mul]
  refine Finset.sum_congr rfl fun x _ => ?_
  rw [path_single hA hm, star_mul', List.append_assoc, List.singleton_append]
  ring

theorem ovR_cons {post : List (Tensor ℂ)} {ds2 : List Nat} {c d g : Nat} {A : Tensor ℂ} (hA : A.dims = [g, d, c])
    (T : List Nat → ℂ) (m : Nat) (l : List Nat) :
    ovR (d :: ds2) (A :: post) T m l = ∑ i ∈ Finset.range d, ∑ y ∈ Finset.range c, star (A.get [m, i, y]) * ovR ds2 post T y (l ++ [i]) := by
  unfold ovR
  rw [sumCfg_cons]
  refine Finset.sum_congr rfl fun i _ => ?_
  simp only [← sumCfg_mul_left]
  rw [← sumCfg_sum]
  refine sumCfg_congr fun r hr => ?_
  rw [path_cons, dim2_of hA, star_sum, Finset.sum_mul]
  refine Finset.sum_congr rfl fun y _ => ?_
  rw [star_mul', List.append_assoc, List.singleton_append]
  ring

theorem set_app {l r : List Nat} {n q i : Nat} (h : l.length = n) : (l ++ r).set (n + q) i = l ++ r.set q i := by
  subst h; simp [List.set_append]

theorem getD_app {l r : List Nat} {n q : Nat} (h : l.length = n) : (l ++ r).getD (n + q) 0 = r.getD q 0 := by
  subst h; simp [List.getD_eq_getElem?_getD, List.getElem?_append_right]

theorem ovL_site (ds1 : List Nat) (pre : List (Tensor ℂ)) (d q : Nat) (U : Tensor ℂ) (T : List Nat → ℂ) (x : Nat) (r : List Nat) :
    ovL ds1 pre (actSite d U (ds1.length + q) T) x r = actSite d U q (ovL ds1 pre T x) r := by
  unfold ovL actSite
  simp only [← sumCfg_mul_left, Finset.mul_sum]
  rw [← sumCfg_sum]
  refine sumCfg_congr fun l hl => Finset.sum_congr rfl fun i _ => ?_
  rw [set_app hl.length, getD_app hl.length]
  ring

theorem ovL_pair (ds1 : List Nat) (pre : List (Tensor ℂ)) (d e q : Nat) (U : Tensor ℂ) (T : List Nat → ℂ) (x : Nat) (r : List Nat) :
    ovL ds1 pre (actPair d e U (ds1.length + q) T) x r = actPair d e U q (ovL ds1 pre T x) r := by
  unfold ovL actPair
  simp only [← sumCfg_mul_left, Finset.mul_sum]
  rw [Finset.sum_congr rfl fun i _ => (sumCfg_sum _ _ _).symm, ← sumCfg_sum]
  refine sumCfg_congr fun l hl => Finset.sum_congr rfl fun i _ => Finset.sum_congr rfl fun j _ => ?_
  rw [add_assoc, set_app hl.length, set_app hl.length, getD_app hl.length, getD_app hl.length]
  ring

theorem set_app_left {l r : List Nat} {q i : Nat} (h : q < l.length) : (l ++ r).set q i = l.set q i ++ r := by
  simp [List.set_append, h]

theorem getD_app_left {l r : List Nat} {q : Nat} (h : q < l.length) : (l ++ r).getD q 0 = l.getD q 0 := by
  simp [List.getD_eq_getElem?_getD, List.getElem?_append_left h]

theorem ovR_site (ds2 : List Nat) (post : List (Tensor ℂ)) (d q : Nat) (U : Tensor ℂ) (T : List Nat → ℂ) (y : Nat) {l : List Nat} (hq : q < l.length) :
    ovR ds2 post (actSite d U q T) y l = actSite d U q (ovR ds2 post T y) l := by
  unfold ovR actSite
  simp only [← sumCfg_mul_left, Finset.mul_sum]
  rw [← sumCfg_sum]
  refine sumCfg_congr fun r _ => Finset.sum_congr rfl fun i _ => ?_
  rw [set_app_left hq, getD_app_left hq]
  ring

theorem ovR_pair (ds2 : List Nat) (post : List (Tensor ℂ)) (d e q : Nat) (U : Tensor ℂ) (T : List Nat → ℂ) (y : Nat) {l : List Nat} (hq : q + 1 < l.length) :
    ovR ds2 post (actPair d e U q T) y l = actPair d e U q (ovR ds2 post T y) l := by
  unfold ovR actPair
  simp only [← sumCfg_mul_left, Finset.mul_sum]
  rw [Finset.sum_congr rfl fun i _ => (sumCfg_sum _ _ _).symm, ← sumCfg_sum]
  refine sumCfg_congr fun r _ => Finset.sum_congr rfl fun i _ => Finset.sum_congr rfl fun j _ => ?_
  rw [set_app_left (by omega), set_app_left (by simp; omega), getD_app_left (by omega), getD_app_left hq]
  ring

/-- the block states left of the centre `c` see `T` as they see the state `P` -/
def SeesL (ds : List Nat) (P : List (Tensor ℂ)) (T : List Nat → ℂ) (c : Nat) : Prop :=
  ∃ ds1 ds2 pre rest a, ds = ds1 ++ ds2 ∧ P = pre ++ rest ∧ pre.length = c ∧ WF 1 pre ds1 a ∧ WF a rest ds2 1 ∧
    ∀ x r, x < a → IsCfg ds2 r → ovL ds1 pre T x r = path rest r x 0

/-- the block states right of the centre `c` see `T` as they see the state `P` -/
def SeesR (ds : List Nat) (P : List (Tensor ℂ)) (T : List Nat → ℂ) (c : Nat) : Prop :=
  ∃ ds1 ds2 rest post b, ds = ds1 ++ ds2 ∧ P = rest ++ post ∧ rest.length = c + 1 ∧ WF 1 rest ds1 b ∧ WF b post ds2 1 ∧
    ∀ y l, y < b → IsCfg ds1 l → ovR ds2 post T y l = path rest l 0 y

/-- the overlap with the state itself -/
theorem SeesL.overlap {ds : List Nat} {P : List (Tensor ℂ)} {T : List Nat → ℂ} {c : Nat} (h : SeesL ds P T c) (hl : ∀ j < c, LeftIso (site P j))
    (hne : P ≠ []) : MPS.inner ds (amp P) T = MPS.inner ds (amp P) (amp P) := by
  obtain ⟨ds1, ds2, pre, rest, a, rfl, rfl, hc, w1, w2, h⟩ := h
  have hpre : ∀ A ∈ pre, LeftIso A := by
    refine mem_of_site (pre := []) (l := pre) rfl 0 rfl rest ?_
    intro j _ hj
    simpa using hl j (by omega)
  have hw := w1.append w2
  have ha : ∀ l r, IsCfg ds1 l → IsCfg ds2 r → amp (pre ++ rest) (l ++ r) = ∑ x ∈ Finset.range a, path pre l 0 x * path rest r x 0 := by
    intro l r h1 h2
    rw [amp_of_WF hw hne, Finset.sum_range_one, path_append w1 (by rw [h1.length, w1.length]) Nat.one_pos]
  have key : ∀ T' : List Nat → ℂ, (∀ x r, x < a → IsCfg ds2 r → ovL ds1 pre T' x r = path rest r x 0) →
      MPS.inner (ds1 ++ ds2) (amp (pre ++ rest)) T' = sumCfg ds2 fun r => ∑ x ∈ Finset.range a, star (path rest r x 0) * path rest r x 0 := by
    intro T' hT
    unfold MPS.inner
    rw [sumCfg_append, sumCfg_comm]
    refine sumCfg_congr fun r hr => ?_
    have : ∀ x ∈ Finset.range a, star (path rest r x 0) * path rest r x 0 = sumCfg ds1 fun l => star (path rest r x 0) * (star (path pre l 0 x) * T' (l ++ r)) := by
      intro x hx
      rw [sumCfg_mul_left]
      exact congrArg _ (hT x r (Finset.mem_range.1 hx) hr).symm
    rw [Finset.sum_congr rfl this, ← sumCfg_sum]
    refine sumCfg_congr fun l hl => ?_
    rw [ha l r hl hr, star_sum, Finset.sum_mul]
    refine Finset.sum_congr rfl fun x _ => ?_
    rw [star_mul']; ring
  rw [key T h, key (amp (pre ++ rest))]
  intro x r hx hr
  unfold ovL
  have e : ∀ l, IsCfg ds1 l → star (path pre l 0 x) * amp (pre ++ rest) (l ++ r) =
      ∑ x' ∈ Finset.range a, (star (path pre l 0 x) * path pre l 0 x') * path rest r x' 0 := by
    intro l hl
    rw [ha l r hl hr, Finset.mul_sum]
    exact Finset.sum_congr rfl fun _ _ => by ring
  rw [sumCfg_congr e, sumCfg_sum]
  have e2 : ∀ x' ∈ Finset.range a, (sumCfg ds1 fun l => (star (path pre l 0 x) * path pre l 0 x') * path rest r x' 0) =
      if x = x' then path rest r x' 0 else 0 := by
    intro x' hx'
    have := left_chain w1 hpre x x' hx (Finset.mem_range.1 hx')
    rw [Finset.sum_range_one] at this
    rw [sumCfg_mul_right, this]
    split <;> simp
  rw [Finset.sum_congr rfl e2, Finset.sum_ite_eq, if_pos (Finset.mem_range.2 hx)]

theorem SeesR.overlap {ds : List Nat} {P : List (Tensor ℂ)} {T : List Nat → ℂ} {c : Nat} (h : SeesR ds P T c)
    (hr : ∀ j, c < j → j < ds.length → RightIso (site P j)) (hne : P ≠ []) : MPS.inner ds (amp P) T = MPS.inner ds (amp P) (amp P) := by
  obtain ⟨ds1, ds2, rest, post, b, rfl, rfl, hc, w1, w2, h⟩ := h
  have hlen := (w1.append w2).length
  have hpost : ∀ A ∈ post, RightIso A := by
    refine mem_of_site (pre := rest) (l := post) rfl (c + 1) hc.symm [] ?_
    intro j hj hj2
    simpa using hr j (by omega) (by rw [← hlen]; simp; omega)
  have hw := w1.append w2
  have ha : ∀ l r, IsCfg ds1 l → IsCfg ds2 r → amp (rest ++ post) (l ++ r) = ∑ y ∈ Finset.range b, path rest l 0 y * path post r y 0 := by
    intro l r h1 h2
    rw [amp_of_WF hw hne, Finset.sum_range_one, path_append w1 (by rw [h1.length, w1.length]) Nat.one_pos]
  have key : ∀ T' : List Nat → ℂ, (∀ y l, y < b → IsCfg ds1 l → ovR ds2 post T' y l = path rest l 0 y) →
      MPS.inner (ds1 ++ ds2) (amp (rest ++ post)) T' = sumCfg ds1 fun l => ∑ y ∈ Finset.range b, star (path rest l 0 y) * path rest l 0 y := by
    intro T' hT
    unfold MPS.inner
    rw [sumCfg_append]
    refine sumCfg_congr fun l hl => ?_
    have : ∀ y ∈ Finset.range b, star (path rest l 0 y) * path rest l 0 y = sumCfg ds2 fun r => star (path rest l 0 y) * (star (path post r y 0) * T' (l ++ r)) := by
      intro y hy
      rw [sumCfg_mul_left]
      exact congrArg _ (hT y l (Finset.mem_range.1 hy) hl).symm
    rw [Finset.sum_congr rfl this, ← sumCfg_sum]
    refine sumCfg_congr fun r hr => ?_
    rw [ha l r hl hr, star_sum, Finset.sum_mul]
    refine Finset.sum_congr rfl fun y _ => ?_
    rw [star_mul']; ring
  rw [key T h, key (amp (rest ++ post))]
  intro y l hy hl
  unfold ovR
  have e : ∀ r, IsCfg ds2 r → star (path post r y 0) * amp (rest ++ post) (l ++ r) =
      ∑ y' ∈ Finset.range b, (path post r y' 0 * star (path post r y 0)) * path rest l 0 y' := by
    intro r hr
    rw [ha l r hl hr, Finset.mul_sum]
    exact Finset.sum_congr rfl fun _ _ => by ring
  rw [sumCfg_congr e, sumCfg_sum]
  have e2 : ∀ y' ∈ Finset.range b, (sumCfg ds2 fun r => (path post r y' 0 * star (path post r y 0)) * path rest l 0 y') =
      if y' = y then path rest l 0 y' else 0 := by
    intro y' hy'
    have := right_chain w2 hpost y' y (Finset.mem_range.1 hy') hy
    rw [Finset.sum_range_one] at this
    rw [sumCfg_mul_right, this]
    split <;> simp
  rw [Finset.sum_congr rfl e2, Finset.sum_ite_eq', if_pos (Finset.mem_range.2 hy)]

end MPS.Trotter
