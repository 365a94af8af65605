import Verif.CanonLemmas2

/-! # Norms of states in canonical form; two-site splitting -/

set_option linter.unusedSectionVars false
set_option linter.unusedSimpArgs false

namespace MPS
open Tensor MPS.Props
variable {K : Type} [RCLike K]

theorem left_chain {a c : Nat} {pre : List (Tensor K)} {ds : List Nat} (h : WF a pre ds c)
    (hiso : ∀ A ∈ pre, LeftIso A) : ∀ x x', x < c → x' < c →
    ∑ u ∈ Finset.range a, sumCfg ds (fun s => star (path pre s u x) * path pre s u x') = if x = x' then 1 else 0 := by
  induction h with
  | nil a =>
    intro x x' hx hx'
    simp only [sumCfg_nil, path_nil]
    have : ∀ u ∈ Finset.range a, star (if u = x then (1 : K) else 0) * (if u = x' then 1 else 0)
        = if u = x then (if x = x' then 1 else 0) else 0 := by
      intro u _
      by_cases h1 : u = x
      · subst h1; simp
      · simp [h1]
    rw [Finset.sum_congr rfl this, Finset.sum_ite_eq' (Finset.range a) x]
    simp [hx]
  | @cons a d c b A As ds hA ha hd hc hw ih =>
    intro x x' hx hx'
    have hA0 := hiso A (by simp)
    rw [← ih (fun B hB => hiso B (by simp [hB])) x x' hx hx']
    have hAiso : ∀ p q, p ∈ Finset.range c → q ∈ Finset.range c →
        ∑ u ∈ Finset.range a, ∑ i ∈ Finset.range d, star (A.get [u, i, p]) * A.get [u, i, q] = if p = q then 1 else 0 := by
      intro p q hp hq
      have := hA0 p q (by rw [dim2_of hA]; exact Finset.mem_range.1 hp) (by rw [dim2_of hA]; exact Finset.mem_range.1 hq)
      rwa [dim0_of hA, dim1_of hA] at this
    simp only [sumCfg_cons, path_cons, dim2_of hA, star_sum, star_mul', Finset.sum_mul_sum]
    simp only [sumCfg_sum]
    have e1 : ∀ u i p q s, star (A.get [u, i, p]) * star (path As s p x) * (A.get [u, i, q] * path As s q x')
        = star (A.get [u, i, p]) * A.get [u, i, q] * (star (path As s p x) * path As s q x') := by
      intros; ring
    simp only [e1, sumCfg_mul_left]
    calc _ = ∑ p ∈ Finset.range c, ∑ q ∈ Finset.range c, (∑ u ∈ Finset.range a, ∑ i ∈ Finset.range d,
            star (A.get [u, i, p]) * A.get [u, i, q]) * sumCfg ds (fun s => star (path As s p x) * path As s q x') := by
          simp only [Finset.sum_mul]
          rw [Finset.sum_congr rfl (fun u _ => Finset.sum_comm), Finset.sum_comm]
          refine Finset.sum_congr rfl fun p _ => ?_
          rw [Finset.sum_congr rfl (fun u _ => Finset.sum_comm), Finset.sum_comm]
      _ = ∑ p ∈ Finset.range c, sumCfg ds (fun s => star (path As s p x) * path As s p x') := by
          refine Finset.sum_congr rfl fun p hp => ?_
          rw [Finset.sum_eq_single p]
          · rw [hAiso p p hp hp, if_pos rfl, one_mul]
          · intro q hq hne
            rw [hAiso p q hp hq, if_neg (Ne.symm hne), zero_mul]
          · intro hne; exact absurd hp hne

theorem right_chain {a c : Nat} {post : List (Tensor K)} {ds : List Nat} (h : WF a post ds c)
    (hiso : ∀ A ∈ post, RightIso A) : ∀ x x', x < a → x' < a →
    ∑ v ∈ Finset.range c, sumCfg ds (fun s => path post s x v * star (path post s x' v)) = if x = x' then 1 else 0 := by
  induction h with
  | nil a =>
    intro x x' hx hx'
    simp only [sumCfg_nil, path_nil]
    have : ∀ v ∈ Finset.range a, (if x = v then (1 : K) else 0) * star (if x' = v then (1 : K) else 0)
        = if v = x then (if x = x' then 1 else 0) else 0 := by
      intro v _
      by_cases h1 : v = x
      · subst h1
        by_cases h2 : v = x'
        · subst h2; simp
        · simp [h2, Ne.symm h2]
      · simp [h1, Ne.symm h1]
    rw [Finset.sum_congr rfl this, Finset.sum_ite_eq' (Finset.range a) x]
    simp [hx]
  | @cons a d c b A As ds hA ha hd hc hw ih =>
    intro x x' hx hx'
    have hA0 := hiso A (by simp) x x' (by rw [dim0_of hA]; exact hx) (by rw [dim0_of hA]; exact hx')
    rw [dim1_of hA, dim2_of hA] at hA0
    have ih := ih (fun B hB => hiso B (by simp [hB]))
    rw [← hA0]
    simp only [sumCfg_cons, path_cons, dim2_of hA, star_sum, star_mul', Finset.sum_mul_sum]
    simp only [sumCfg_sum]
    have e1 : ∀ i p q s v, A.get [x, i, p] * path As s p v * (star (A.get [x', i, q]) * star (path As s q v))
        = A.get [x, i, p] * star (A.get [x', i, q]) * (path As s p v * star (path As s q v)) := by
      intros; ring
    simp only [e1, sumCfg_mul_left]
    rw [Finset.sum_comm]
    refine Finset.sum_congr rfl fun i _ => ?_
    rw [Finset.sum_comm]
    refine Finset.sum_congr rfl fun p hp => ?_
    rw [Finset.sum_comm]
    simp only [← Finset.mul_sum]
    rw [Finset.sum_eq_single p]
    · rw [ih p p (Finset.mem_range.1 hp) (Finset.mem_range.1 hp), if_pos rfl, mul_one]
    · intro q hq hne
      rw [ih p q (Finset.mem_range.1 hp) (Finset.mem_range.1 hq), if_neg (Ne.symm hne), mul_zero]
    · intro hne; exact absurd hp hne

/-- square norm of a combination of the columns of an isometry -/
theorem iso_norm {ι κ : Type} (S : Finset ι) (T : Finset κ) [DecidableEq κ] (V : ι → κ → K) (F : κ → K)
    (h : ∀ x ∈ T, ∀ x' ∈ T, ∑ u ∈ S, star (V u x) * V u x' = if x = x' then 1 else 0) :
    ∑ u ∈ S, star (∑ x ∈ T, V u x * F x) * (∑ x ∈ T, V u x * F x) = ∑ x ∈ T, star (F x) * F x := by
  simp only [star_sum, star_mul', Finset.sum_mul_sum]
  rw [Finset.sum_comm]
  refine Finset.sum_congr rfl fun x hx => ?_
  rw [Finset.sum_comm]
  have e1 : ∀ u y, star (V u x) * star (F x) * (V u y * F y) = (star (F x) * F y) * (star (V u x) * V u y) := by
    intros; ring
  simp only [e1, ← Finset.mul_sum]
  rw [Finset.sum_eq_single x]
  · rw [h x hx x hx, if_pos rfl, mul_one]
  · intro y hy hne
    rw [h x hx y hy, if_neg (Ne.symm hne), mul_zero]
  · intro hne; exact absurd hx hne

/-- the same for sums over an index and configurations -/
theorem iso_normL {c : Nat} (a : Nat) (ds : List Nat) (V : List Nat → Nat → Nat → K) (F : Nat → K)
    (h : ∀ x x', x < c → x' < c → ∑ u ∈ Finset.range a, sumCfg ds (fun s => star (V s u x) * V s u x') = if x = x' then 1 else 0) :
    ∑ u ∈ Finset.range a, sumCfg ds (fun s => star (∑ x ∈ Finset.range c, V s u x * F x) * (∑ x ∈ Finset.range c, V s u x * F x))
      = ∑ x ∈ Finset.range c, star (F x) * F x := by
  simp only [star_sum, star_mul', Finset.sum_mul_sum, sumCfg_sum]
  rw [Finset.sum_comm]
  refine Finset.sum_congr rfl fun x hx => ?_
  rw [Finset.sum_comm]
  have e1 : ∀ s u y, star (V s u x) * star (F x) * (V s u y * F y) = (star (F x) * F y) * (star (V s u x) * V s u y) := by
    intros; ring
  simp only [e1, sumCfg_mul_left, ← Finset.mul_sum]
  rw [Finset.sum_eq_single x]
  · rw [h x x (Finset.mem_range.1 hx) (Finset.mem_range.1 hx), if_pos rfl, mul_one]
  · intro y hy hne
    rw [h x y (Finset.mem_range.1 hx) (Finset.mem_range.1 hy), if_neg (Ne.symm hne), mul_zero]
  · intro hne; exact absurd hx hne

theorem mem_of_site {R : Type} [CommRing R] {p : Tensor R → Prop} {l : List (Tensor R)} {pre post : List (Tensor R)} (hl : l = post)
    (off : Nat) (ho : off = pre.length) (rest : List (Tensor R))
    (h : ∀ j, off ≤ j → j < off + l.length → p (site (pre ++ (l ++ rest)) j)) : ∀ A ∈ post, p A := by
  subst hl ho
  intro A hA
  obtain ⟨j, hj, rfl⟩ := List.mem_iff_getElem.1 hA
  have := h (pre.length + j) (by omega) (by omega)
  simpa [site, List.getElem?_append_right, List.getElem?_append_left hj, List.getElem?_eq_getElem hj] using this

/-- the norm of a state in canonical form around site `k` is that of its tensor at `k` -/
theorem canonical_norm {a b : Nat} {ψ : List (Tensor K)} {ds : List Nat} (h : WF a ψ ds b) (k : Nat) (hk : k < ψ.length)
    (hl : ∀ j < k, LeftIso (site ψ j)) (hr : ∀ j, k < j → j < ψ.length → RightIso (site ψ j)) :
    ∃ a' d b', (site ψ k).dims = [a', d, b'] ∧
      ∑ u ∈ Finset.range a, ∑ v ∈ Finset.range b, sumCfg ds (fun s => star (path ψ s u v) * path ψ s u v)
      = ∑ x ∈ Finset.range a', ∑ i ∈ Finset.range d, ∑ y ∈ Finset.range b', star ((site ψ k).get [x, i, y]) * (site ψ k).get [x, i, y] := by
  obtain ⟨pre, X, post, rfl, hlen⟩ := split_at ψ k hk
  have hX : site (pre ++ X :: post) k = X := by simp [site, ← hlen]
  rw [hX]
  have hpre : ∀ A ∈ pre, LeftIso A := by
    refine mem_of_site (pre := []) (l := pre) rfl 0 rfl (X :: post) ?_
    intro j _ hj
    simpa using hl j (by omega)
  have hpost : ∀ A ∈ post, RightIso A := by
    refine mem_of_site (pre := pre ++ [X]) (l := post) rfl (k + 1) (by simp [hlen]) [] ?_
    intro j hj hj2
    simpa using hr j (by omega) (by simp [hlen]; omega)
  obtain ⟨ds1, ds', c, rfl, w1, w2⟩ := h.split
  cases w2 with
  | @cons c d e b A As ds3 hXd hc hd he w3 =>
  refine ⟨c, d, e, hXd, ?_⟩
  -- left part
  have e1 : ∀ u ∈ Finset.range a, ∀ v ∈ Finset.range b,
      sumCfg (ds1 ++ d :: ds3) (fun s => star (path (pre ++ X :: post) s u v) * path (pre ++ X :: post) s u v)
      = sumCfg (d :: ds3) (fun t => sumCfg ds1 (fun s =>
          star (∑ x ∈ Finset.range c, path pre s u x * path (X :: post) t x v) *
            (∑ x ∈ Finset.range c, path pre s u x * path (X :: post) t x v))) := by
    intro u hu v _
    rw [sumCfg_append, sumCfg_comm]
    refine sumCfg_congr fun t _ => sumCfg_congr fun s hs => ?_
    rw [path_append w1 (by rw [hs.length, w1.length]) (Finset.mem_range.1 hu)]
  rw [Finset.sum_congr rfl (fun u hu => Finset.sum_congr rfl (e1 u hu)), Finset.sum_comm]
  have e2 : ∀ v ∈ Finset.range b, ∑ u ∈ Finset.range a, sumCfg (d :: ds3) (fun t => sumCfg ds1 (fun s =>
          star (∑ x ∈ Finset.range c, path pre s u x * path (X :: post) t x v) *
            (∑ x ∈ Finset.range c, path pre s u x * path (X :: post) t x v)))
      = ∑ x ∈ Finset.range c, sumCfg (d :: ds3) (fun t => star (path (X :: post) t x v) * path (X :: post) t x v) := by
    intro v _
    rw [← sumCfg_sum, ← sumCfg_sum]
    refine sumCfg_congr fun t _ => ?_
    exact iso_normL a ds1 (fun s u x => path pre s u x) (fun x => path (X :: post) t x v) (left_chain w1 hpre)
  rw [Finset.sum_congr rfl e2, Finset.sum_comm]
  refine Finset.sum_congr rfl fun x _ => ?_
  simp only [sumCfg_cons, path_cons, dim2_of hXd]
  rw [Finset.sum_comm]
  refine Finset.sum_congr rfl fun i _ => ?_
  have := iso_normL (c := e) b ds3 (fun s v y => path post s y v) (fun y => X.get [x, i, y]) ?_
  · rw [← this]
    refine Finset.sum_congr rfl fun v _ => sumCfg_congr fun s _ => ?_
    have : ∀ y, X.get [x, i, y] * path post s y v = path post s y v * X.get [x, i, y] := fun y => mul_comm _ _
    simp only [this]
  · intro y y' hy hy'
    have := right_chain w3 hpost y' y hy' hy
    rw [show (if y = y' then (1 : K) else 0) = if y' = y then 1 else 0 by simp [eq_comm], ← this]
    refine Finset.sum_congr rfl fun v _ => sumCfg_congr fun s _ => mul_comm _ _

theorem frob_sq {A : Tensor K} {a d b : Nat} (h : A.dims = [a, d, b]) :
    frob A ^ 2 = ∑ x ∈ Finset.range a, ∑ i ∈ Finset.range d, ∑ y ∈ Finset.range b, ‖A.get [x, i, y]‖ ^ 2 := by
  unfold frob
  rw [Real.sq_sqrt (Finset.sum_nonneg fun _ _ => by positivity), size3 h, mul_assoc, sum_range_mul, sum_range_mul]
  have : ∀ y ∈ Finset.range b, ∀ i ∈ Finset.range d, ∀ x ∈ Finset.range a, ‖A.lin (x + a * (i + d * y))‖ ^ 2 = ‖A.get [x, i, y]‖ ^ 2 := by
    intro y hy i hi x hx
    have : A.lin (x + a * (i + d * y)) = A.get [x, i, y] := by
      unfold lin
      have hf : x + a * (i + d * y) = flat A.dims [x, i, y] := by rw [h]; simp [flat]
      rw [hf, unflat_flat]
      rw [h]
      simp only [inB_cons, inB_nil, and_true]
      exact ⟨Finset.mem_range.1 hx, Finset.mem_range.1 hi, Finset.mem_range.1 hy⟩
    rw [this]
  rw [Finset.sum_congr rfl (fun y hy => Finset.sum_congr rfl (fun i hi => Finset.sum_congr rfl (this y hy i hi)))]
  rw [Finset.sum_comm]
  rw [Finset.sum_congr rfl (fun i _ => Finset.sum_comm)]
  rw [Finset.sum_comm]

end MPS
