import Verif.SimplifyLemmas
import Verif.ObcLemmas2

set_option linter.unusedSectionVars false
set_option linter.unusedSimpArgs false

namespace MPS.Simp
open MPS Tensor Form Minim Obc
variable {K : Type} [RCLike K]

/-! ### caches -/

/-- the caches of one vector: left parts up to `lo`, right parts from `hi` on; position `site + 1` belongs to `site` -/
structure Caches (ds : List Nat) (q P m : List (Tensor K)) (lo hi : Nat) : Prop where
  len : m.length = ds.length + 2
  start : m.getD 0 Tensor.empty = Tensor.empty
  last : m.getD (ds.length + 1) Tensor.empty = Tensor.empty
  lefts : ∀ j ≤ lo, j ≤ ds.length → LeftOk (m.getD j Tensor.empty) (P.take j) (q.take j) (ds.take j)
  rights : ∀ j, hi ≤ j → j ≤ ds.length → RightOk (m.getD (j + 1) Tensor.empty) (P.drop j) (q.drop j) (ds.drop j)

theorem Caches.mono {ds : List Nat} {q P m : List (Tensor K)} {lo hi lo' hi' : Nat} (h : Caches ds q P m lo hi) (h1 : lo' ≤ lo) (h2 : hi ≤ hi') :
    Caches ds q P m lo' hi' :=
  ⟨h.len, h.start, h.last, fun j hj => h.lefts j (by omega), fun j hj => h.rights j (by omega)⟩

/-- before the first sweep, and before turning round -/
theorem Caches.turnLeft {ds : List Nat} {q P m : List (Tensor K)} {lo hi : Nat} (h : Caches ds q P m lo hi) (hP : P.length = ds.length)
    (hq : q.length = ds.length) : Caches ds q P m lo ds.length := by
  refine ⟨h.len, h.start, h.last, h.lefts, fun j h1 h2 => ?_⟩
  obtain rfl : j = ds.length := by omega
  left
  exact ⟨by simp, h.last⟩

theorem Caches.turnRight {ds : List Nat} {q P m : List (Tensor K)} {lo hi : Nat} (h : Caches ds q P m lo hi) : Caches ds q P m 0 hi := by
  refine ⟨h.len, h.start, h.last, fun j h1 h2 => ?_, h.rights⟩
  obtain rfl : j = 0 := by omega
  left
  exact ⟨by simp, h.start⟩

theorem getD_set_eq {α : Type} (l : List α) {i : Nat} (hi : i < l.length) (x d : α) : (l.set i x).getD i d = x := by
  simp [hi]

theorem getD_set_ne {α : Type} (l : List α) {i j : Nat} (hij : i ≠ j) (x d : α) : (l.set i x).getD j d = l.getD j d := by
  simp [List.getElem?_set, hij]

theorem take_of_eq {P P' : List (Tensor K)} {k j : Nat} (h : P'.take k = P.take k) (hj : j ≤ k) : P'.take j = P.take j := by
  have := congrArg (List.take j) h
  simpa [List.take_take, Nat.min_eq_left hj] using this

theorem drop_of_eq {P P' : List (Tensor K)} {k j : Nat} (h : P'.drop k = P.drop k) (hj : k ≤ j) : P'.drop j = P.drop j := by
  have := congrArg (List.drop (j - k)) h
  simpa [List.drop_drop, Nat.add_sub_cancel' hj] using this

/-- `matrix(k) = prop_matrix(matrix(k-1), +1, X, q[k])` -/
theorem Caches.stepRight {ds : List Nat} {q P P' m : List (Tensor K)} {k : Nat} (h : Caches ds q P m k (k + 1)) (hk : k < ds.length)
    (hq : q.length = ds.length) (hP' : P'.length = ds.length) (ht : P'.take k = P.take k) (hd : P'.drop (k + 2) = P.drop (k + 2)) :
    Caches ds q P' (m.set (k + 1) (propMatrix (m.getD k Tensor.empty) 1 (site P' k) (site q k) none)) (k + 1) (k + 2) := by
  have hlen := h.len
  refine ⟨by simpa using hlen, ?_, ?_, ?_, ?_⟩
  · rw [getD_set_ne _ (by omega)]; exact h.start
  · rw [getD_set_ne _ (by omega)]; exact h.last
  · intro j hj hjN
    by_cases hjk : j = k + 1
    · subst hjk
      rw [getD_set_eq _ (by omega), take_succ_site (by omega), take_succ_site (by omega), ht,
        List.take_succ_eq_append_getElem hk]
      exact (h.lefts k (by omega) (by omega)).step
    · rw [getD_set_ne _ (by omega), take_of_eq ht (by omega)]
      exact h.lefts j (by omega) hjN
  · intro j hj hjN
    rw [getD_set_ne _ (by omega), drop_of_eq hd (by omega)]
    exact h.rights j (by omega) hjN

/-- `matrix(k) = prop_matrix(matrix(k+1), -1, X, q[k])` -/
theorem Caches.stepLeft {ds : List Nat} {q P P' m : List (Tensor K)} {k : Nat} (h : Caches ds q P m k (k + 1)) (hk : k < ds.length)
    (hq : q.length = ds.length) (hP' : P'.length = ds.length) (ht : P'.take (k - 1) = P.take (k - 1)) (hd : P'.drop (k + 1) = P.drop (k + 1)) :
    Caches ds q P' (m.set (k + 1) (propMatrix (m.getD (k + 2) Tensor.empty) (-1) (site P' k) (site q k) none)) (k - 1) k := by
  have hlen := h.len
  refine ⟨by simpa using hlen, ?_, ?_, ?_, ?_⟩
  · rw [getD_set_ne _ (by omega)]; exact h.start
  · rw [getD_set_ne _ (by omega)]; exact h.last
  · intro j hj hjN
    rw [getD_set_ne _ (by omega), take_of_eq ht (by omega)]
    exact h.lefts j (by omega) hjN
  · intro j hj hjN
    by_cases hjk : j = k
    · subst hjk
      rw [getD_set_eq _ (by omega), drop_site (K := P') (by omega), drop_site (K := q) (by omega), hd,
        List.drop_eq_getElem_cons hk]
      exact (h.rights (j + 1) (by omega) (by omega)).step
    · rw [getD_set_ne _ (by omega), drop_of_eq hd (by omega)]
      exact h.rights j (by omega) hjN

/-! ### the new tensor -/

/-- `X` is the new tensor of site `k`: the gradient of the overlap with `q` -/
structure Proj (ds : List Nat) (q : List Nat → K) (P : List (Tensor K)) (k a b : Nat) (X : Tensor K) : Prop where
  dims : X.dims = [a, ds.getD k 0, b]
  inner : ∀ Y : Tensor K, Y.dims = [a, ds.getD k 0, b] →
    MPS.inner ds (amp (P.set k Y)) q = sumCfg [a, ds.getD k 0, b] fun I => star (Y.get I) * X.get I

/-- the chain around a site: the two parts fit, whatever is at the site -/
structure Gap (ds : List Nat) (P : List (Tensor K)) (k a b : Nat) : Prop where
  lt : k < ds.length
  len : P.length = ds.length
  pos : ∀ d ∈ ds, 0 < d
  wl : WF 1 (P.take k) (ds.take k) a
  wr : WF b (P.drop (k + 1)) (ds.drop (k + 1)) 1

theorem Gap.pa {ds : List Nat} {P : List (Tensor K)} {k a b : Nat} (h : Gap ds P k a b) : 0 < a := h.wl.pos_right one_pos
theorem Gap.pb {ds : List Nat} {P : List (Tensor K)} {k a b : Nat} (h : Gap ds P k a b) : 0 < b := Form.WF.pos_left h.wr one_pos
theorem Gap.pd {ds : List Nat} {P : List (Tensor K)} {k a b : Nat} (h : Gap ds P k a b) : 0 < ds.getD k 0 := by
  rw [List.getD_eq_getElem _ _ h.lt]; exact h.pos _ (List.getElem_mem h.lt)

theorem ds_cut {ds : List Nat} {k : Nat} (hk : k < ds.length) : ds.take k ++ ds.getD k 0 :: ds.drop (k + 1) = ds := by
  have : ds.drop k = ds.getD k 0 :: ds.drop (k + 1) := by rw [List.drop_eq_getElem_cons hk]; simp [hk]
  rw [← this, List.take_append_drop]

theorem Gap.wf {ds : List Nat} {P : List (Tensor K)} {k a b : Nat} (h : Gap ds P k a b) {Y : Tensor K} (hY : Y.dims = [a, ds.getD k 0, b]) :
    WF 1 (P.set k Y) ds 1 := WF.replace h.lt h.len h.wl h.wr hY h.pa h.pd h.pb

theorem WF.phys_pos {a b : Nat} {P : List (Tensor K)} {ds : List Nat} (h : WF a P ds b) : ∀ d ∈ ds, 0 < d := by
  induction h with
  | nil => simp
  | cons _ _ h3 _ _ ih =>
    intro d hd
    rcases List.mem_cons.1 hd with rfl | hd
    · exact h3
    · exact ih d hd

theorem Gap.of_WF {ds : List Nat} {P : List (Tensor K)} (h : WF 1 P ds 1) {k : Nat} (hk : k < ds.length) :
    ∃ a b, Gap ds P k a b ∧ (site P k).dims = [a, ds.getD k 0, b] := by
  obtain ⟨a, b, w1, w2, w3, -, -, -⟩ := WF.around h hk
  exact ⟨a, b, ⟨hk, h.length, WF.phys_pos h, w1, w3⟩, w2⟩

/-- one vector -/
theorem proj_one {ds : List Nat} {q P m : List (Tensor K)} {k a b : Nat} (hg : Gap ds P k a b) (hq : WF 1 q ds 1)
    (hc : Caches ds q P m k (k + 1)) :
    Proj ds (amp q) P k a b (nextProjector (m.getD k Tensor.empty) (m.getD (k + 2) Tensor.empty) (site q k)) ∧
    (1 < ds.length → buildNextProjector (m.getD k Tensor.empty) (m.getD (k + 2) Tensor.empty) (site q k) =
      nextProjector (m.getD k Tensor.empty) (m.getD (k + 2) Tensor.empty) (site q k)) := by
  have hk := hg.lt
  obtain ⟨u, v, w1, w2, w3, -, -, -⟩ := WF.around hq hk
  have cl := hc.lefts k (by omega) (by omega)
  have cr := hc.rights (k + 1) (by omega) (by omega)
  obtain ⟨n1, -, n3⟩ := next_get cl cr hg.wl w1 hg.wr w3 w2
  refine ⟨⟨n1, fun Y hY => ?_⟩, fun h1 => n3 ?_⟩
  · rw [set_split (by rw [hg.len]; exact hk)]
    have := next_inner cl cr hg.wl w1 hg.wr w3 w2 hY hg.pd
    rw [ds_cut hk] at this
    rw [← this]
    congr 2
    rw [← drop_site (by rw [hq.length]; exact hk), List.take_append_drop]
  · rcases Nat.eq_zero_or_pos k with rfl | hp
    · right
      intro h0
      have := congrArg List.length h0
      simp at this; omega
    · left
      intro h0
      have := congrArg List.length h0
      rw [List.length_take] at this
      simp only [List.length_nil] at this; omega

/-- the sum of the contributions of several vectors -/
theorem foldl_add (F : Nat → Tensor K) (dm : List Nat) (n : Nat) (hn : 0 < n) (hd : ∀ k, k < n → (F k).dims = dm) :
    ((List.range n).foldl (fun out k => if k ≠ 0 then add out (F k) else F k) Tensor.empty).dims = dm ∧
    ∀ i, ((List.range n).foldl (fun out k => if k ≠ 0 then add out (F k) else F k) Tensor.empty).get i = ∑ k ∈ Finset.range n, (F k).get i := by
  induction n with
  | zero => omega
  | succ n ih =>
    rw [List.range_succ, List.foldl_append]
    simp only [List.foldl_cons, List.foldl_nil]
    rcases Nat.eq_zero_or_pos n with rfl | hp
    · simp [hd]
    · obtain ⟨i1, i2⟩ := ih hp fun k hk => hd k (by omega)
      rw [if_pos (by omega)]
      simp only [add]
      refine ⟨i1, fun i => ?_⟩
      rw [Finset.sum_range_succ]
      congr 1
      exact i2 i

theorem inner_superpose_right {ds : List Nat} (w : List K) (Q : List (List (Tensor K))) (χ : List Nat → K) :
    MPS.inner ds χ (superpose w Q) = ∑ n ∈ Finset.range Q.length, w.getD n 0 * MPS.inner ds χ (amp (Q.getD n [])) := by
  rw [← Props.inner_star', Props.inner_superpose, star_sum]
  refine Finset.sum_congr rfl fun n _ => ?_
  rw [star_mul', star_star, Props.inner_star']

/-- the caches of all vectors -/
def AllCaches (ds : List Nat) (Q : List (List (Tensor K))) (P : List (Tensor K)) (mat : List (List (Tensor K))) (lo hi : Nat) : Prop :=
  mat.length = Q.length ∧ ∀ n < Q.length, Caches ds (Q.getD n []) P (mat.getD n []) lo hi

theorem proj_many {ds : List Nat} {P : List (Tensor K)} {m : Many K} {k a b : Nat} (hg : Gap ds P k a b) (hne : m.Q ≠ [])
    (hq : ∀ q ∈ m.Q, WF 1 q ds 1) (hc : AllCaches ds m.Q P m.mat k (k + 1)) : Proj ds (superpose m.weights m.Q) P k a b (m.next k) := by
  have hl : 0 < m.Q.length := List.length_pos_iff.mpr hne
  have h1 := fun n (hn : n < m.Q.length) => (proj_one hg (hq _ (Props.getD_mem hn [])) (hc.2 n hn)).1
  obtain ⟨f1, f2⟩ := foldl_add (fun n => smul (m.weights.getD n 0) (nextProjector (m.matrix k n) (m.matrix (k + 2) n) (site (m.Q.getD n []) k)))
    [a, ds.getD k 0, b] m.Q.length hl (fun n hn => (h1 n hn).dims)
  refine ⟨f1, fun Y hY => ?_⟩
  have e : ∀ I, (m.next k).get I = ∑ n ∈ Finset.range m.Q.length, m.weights.getD n 0 *
      (nextProjector (m.matrix k n) (m.matrix (k + 2) n) (site (m.Q.getD n []) k)).get I := fun I => f2 I
  rw [inner_superpose_right]
  simp only [e, Finset.mul_sum]
  rw [sumCfg_sum]
  refine Finset.sum_congr rfl fun n hn => ?_
  rw [(h1 n (Finset.mem_range.1 hn)).inner Y hY, ← sumCfg_mul_left]
  refine sumCfg_congr fun I _ => ?_
  simp only [Many.matrix]
  ring

/-! ### distances -/

theorem normSq_set {ds : List Nat} {P : List (Tensor K)} {k a b : Nat} (hg : Gap ds P k a b) (hlo : ∀ j < k, LeftIso (site P j))
    (hhi : ∀ j, k < j → j < ds.length → RightIso (site P j)) {Y : Tensor K} (hY : Y.dims = [a, ds.getD k 0, b]) :
    normSq ds (P.set k Y) = sumCfg [a, ds.getD k 0, b] fun I => ‖Y.get I‖ ^ 2 := by
  have hk := hg.lt
  have hl := hg.len
  rw [normSq_at (hg.wf hY) hk, site_set_self (by omega), hY]
  · intro j hj; rw [site_set _ _ _ _ (by omega), if_neg (by omega)]; exact hlo j hj
  · intro j hj hj2; rw [site_set _ _ _ _ (by omega), if_neg (by omega)]; exact hhi j hj hj2

theorem Proj.inner' {ds : List Nat} {q : List Nat → K} {P : List (Tensor K)} {k a b : Nat} {X : Tensor K} (h : Proj ds q P k a b X)
    {Y : Tensor K} (hY : Y.dims = [a, ds.getD k 0, b]) :
    MPS.inner ds q (amp (P.set k Y)) = sumCfg [a, ds.getD k 0, b] fun I => star (X.get I) * Y.get I := by
  rw [← Props.inner_star', h.inner Y hY, sumCfg_star]
  refine sumCfg_congr fun I _ => ?_
  rw [star_mul', star_star, mul_comm]

/-- distances of the states that differ at `k` -/
theorem Proj.dist {ds : List Nat} {q : List Nat → K} {P : List (Tensor K)} {k a b : Nat} {X : Tensor K} (h : Proj ds q P k a b X)
    (hg : Gap ds P k a b) (hlo : ∀ j < k, LeftIso (site P j)) (hhi : ∀ j, k < j → j < ds.length → RightIso (site P j))
    {Y : Tensor K} (hY : Y.dims = [a, ds.getD k 0, b]) :
    distTo ds q (P.set k Y) = normSqOf ds q - sumCfg [a, ds.getD k 0, b] (fun I => ‖X.get I‖ ^ 2) +
      sumCfg [a, ds.getD k 0, b] fun I => ‖X.get I - Y.get I‖ ^ 2 :=
  dist_core (h.inner' hY) (normSq_set hg hlo hhi hY)

theorem Proj.closest {ds : List Nat} {q : List Nat → K} {P : List (Tensor K)} {k a b : Nat} {X : Tensor K} (h : Proj ds q P k a b X)
    (hg : Gap ds P k a b) (hlo : ∀ j < k, LeftIso (site P j)) (hhi : ∀ j, k < j → j < ds.length → RightIso (site P j))
    {Y : Tensor K} (hY : Y.dims = [a, ds.getD k 0, b]) : distTo ds q (P.set k X) ≤ distTo ds q (P.set k Y) := by
  rw [h.dist hg hlo hhi hY, h.dist hg hlo hhi h.dims]
  have : 0 ≤ sumCfg [a, ds.getD k 0, b] fun I => ‖X.get I - Y.get I‖ ^ 2 := sumCfg_nonneg _ _ fun _ _ => by positivity
  have e : (sumCfg [a, ds.getD k 0, b] fun I => ‖X.get I - X.get I‖ ^ 2) = 0 := by simp
  linarith

/-- the final tensor of a sweep is the best one -/
theorem Proj.best {ds : List Nat} {q : List Nat → K} {P : List (Tensor K)} {k a b : Nat} {X : Tensor K} (h : Proj ds q P k a b X)
    (hg : Gap ds P k a b) (hlo : ∀ j < k, LeftIso (site P j)) (hhi : ∀ j, k < j → j < ds.length → RightIso (site P j)) :
    Best ds q (P.set k X) k := by
  have hk := hg.lt
  have hl := hg.len
  refine best_of (by simp; omega) fun Y hY => ?_
  rw [site_set_self (by omega)] at hY ⊢
  rw [h.dims] at hY
  rw [List.set_set, hY]
  exact ⟨normSq_set hg hlo hhi hY, h.inner' hY⟩

theorem distTo_congr {ds : List Nat} {q : List Nat → K} {φ ψ : List (Tensor K)} (h : ∀ s, IsCfg ds s → amp φ s = amp ψ s) :
    distTo ds q φ = distTo ds q ψ := sumCfg_congr fun s hs => by rw [h s hs]

theorem inner_congr' {ds : List Nat} {q : List Nat → K} {φ ψ : List (Tensor K)} (h : ∀ s, IsCfg ds s → amp φ s = amp ψ s) :
    MPS.inner ds (amp φ) q = MPS.inner ds (amp ψ) q := sumCfg_congr fun s hs => by rw [h s hs]

/-- a new tensor that is not zero is followed by one that is not zero -/
theorem Proj.next_ne_zero {ds : List Nat} {q : List Nat → K} {P P' : List (Tensor K)} {k a b k' a' b' : Nat} {X X' Y : Tensor K}
    (h : Proj ds q P k a b X) (h' : Proj ds q P' k' a' b' X') (hY : Y.dims = [a', ds.getD k' 0, b'])
    (e : ∀ s, IsCfg ds s → amp (P'.set k' Y) s = amp (P.set k X) s) (hz : (sumCfg X.dims fun I => ‖X.get I‖ ^ 2) ≠ 0) :
    (sumCfg X'.dims fun I => ‖X'.get I‖ ^ 2) ≠ 0 := by
  intro h0
  apply hz
  have z : ∀ I, IsCfg X'.dims I → X'.get I = 0 := by
    intro I hI
    have hle : ‖X'.get I‖ ^ 2 ≤ sumCfg X'.dims fun I => ‖X'.get I‖ ^ 2 := by
      have := sumCfg_if X'.dims (fun J => ‖X'.get J‖ ^ 2) hI
      rw [← this]
      have h2 : 0 ≤ sumCfg X'.dims fun J => (‖X'.get J‖ ^ 2 - if J = I then ‖X'.get J‖ ^ 2 else 0) := by
        refine sumCfg_nonneg _ _ fun J _ => ?_
        split_ifs
        · simp
        · simp
      rw [sumCfg_sub] at h2
      linarith
    rw [h0] at hle
    have : ‖X'.get I‖ ^ 2 = 0 := le_antisymm hle (by positivity)
    simpa using this
  have i1 := h.inner X h.dims
  rw [← inner_congr' e, h'.inner Y hY, ← h'.dims, sumCfg_congr fun I hI => by rw [z I hI, mul_zero], sumCfg_zero, ← h.dims] at i1
  have : ((sumCfg X.dims fun I => ‖X.get I‖ ^ 2 : ℝ) : K) = 0 := by
    rw [sumCfg_ofReal, i1]
    exact sumCfg_congr fun I _ => by rw [ofReal_normSq]
  exact_mod_cast this

end MPS.Simp
