import Verif.SimplifyLemmas2
import Verif.SimplifySpec
import Verif.CanonLemmas3

set_option linter.unusedSectionVars false
set_option linter.unusedSimpArgs false

namespace MPS.Simp
open MPS Tensor Form Minim Obc
variable {K : Type} [RCLike K]

/-! ### normalize_this -/

theorem normalizeThis_right {svd : Tensor K → SvdRes K} (hg : GoodSvd svd) {X : Tensor K} {a d b : Nat} (h : X.dims = [a, d, b])
    (ha : 0 < a) (hd : 0 < d) (hb : 0 < b) :
    ∃ g, 0 < g ∧ g ≤ b ∧ (normalizeThis svd X 1).dims = [a, d, g] ∧ LeftIso (normalizeThis svd X 1) ∧
      ∃ G : Tensor K, G.dims = [g, b] ∧ ∀ x i y, x < a → i < d → y < b →
        X.get [x, i, y] = ∑ m ∈ Finset.range g, (normalizeThis svd X 1).get [x, i, m] * G.get [m, y] := by
  have e0 : X.dim 0 = a := by simp [dim, h]
  have e1 : X.dim 1 = d := by simp [dim, h]
  have e2 : X.dim 2 = b := by simp [dim, h]
  have hm : 0 < a * d := Nat.mul_pos ha hd
  have hs := hg (reshape X [a * d, b]) (a * d) b rfl hm hb
  have hAget : ∀ x i y, x < a → i < d → y < b → (reshape X [a * d, b]).get [x + a * i, y] = X.get [x, i, y] := by
    intro x i y hx hi hy
    apply reshape_get
    · rw [h]; exact .cons hx (.cons hi (.cons hy .nil))
    · rw [h]; simp only [flat]; ring
  set r := svd (reshape X [a * d, b]) with hr
  have hU : normalizeThis svd X 1 = reshape r.U [a, d, min (a * d) b] := by
    simp [normalizeThis, e0, e1, e2, hr]
  have hUget : ∀ x i m, x < a → i < d → m < min (a * d) b → (normalizeThis svd X 1).get [x, i, m] = r.U.get [x + a * i, m] := by
    intro x i m hx hi hm
    rw [hU]
    apply reshape_get
    · rw [hs.dimsU]; exact .cons (add_mul_lt hx hi) (.cons hm .nil)
    · rw [hs.dimsU]; simp only [flat]; ring
  refine ⟨min (a * d) b, by omega, by omega, by rw [hU]; rfl, ?_, ⟨[min (a * d) b, b], fun I => ((r.s.getD (I.getD 0 0) 0 : ℝ) : K) * r.V.get I⟩, rfl, ?_⟩
  · have k0 : (normalizeThis svd X 1).dim 0 = a := by rw [hU]; rfl
    have k1 : (normalizeThis svd X 1).dim 1 = d := by rw [hU]; rfl
    have k2 : (normalizeThis svd X 1).dim 2 = min (a * d) b := by rw [hU]; rfl
    intro y y' hy hy'
    rw [k2] at hy hy'
    rw [k0, k1, ← hs.isoU y y' hy hy', sum_range_mul, Finset.sum_comm]
    refine Finset.sum_congr rfl fun i hi => Finset.sum_congr rfl fun x hx => ?_
    rw [hUget x i y (Finset.mem_range.1 hx) (Finset.mem_range.1 hi) hy, hUget x i y' (Finset.mem_range.1 hx) (Finset.mem_range.1 hi) hy']
  · intro x i y hx hi hy
    rw [← hAget x i y hx hi hy, ← hs.prod _ _ (add_mul_lt hx hi) hy]
    refine Finset.sum_congr rfl fun m hm => ?_
    rw [hUget x i m hx hi (Finset.mem_range.1 hm)]
    simp only [List.getD_cons_zero]
    ring

theorem normalizeThis_left {svd : Tensor K → SvdRes K} (hg : GoodSvd svd) {X : Tensor K} {a d b : Nat} (h : X.dims = [a, d, b])
    (ha : 0 < a) (hd : 0 < d) (hb : 0 < b) :
    ∃ g, 0 < g ∧ g ≤ a ∧ (normalizeThis svd X (-1)).dims = [g, d, b] ∧ RightIso (normalizeThis svd X (-1)) ∧
      ∃ G : Tensor K, G.dims = [a, g] ∧ ∀ x i y, x < a → i < d → y < b →
        X.get [x, i, y] = ∑ m ∈ Finset.range g, G.get [x, m] * (normalizeThis svd X (-1)).get [m, i, y] := by
  have e0 : X.dim 0 = a := by simp [dim, h]
  have e1 : X.dim 1 = d := by simp [dim, h]
  have e2 : X.dim 2 = b := by simp [dim, h]
  have hm : 0 < d * b := Nat.mul_pos hd hb
  have hs := hg (reshape X [a, d * b]) a (d * b) rfl ha hm
  have hAget : ∀ x i y, x < a → i < d → y < b → (reshape X [a, d * b]).get [x, i + d * y] = X.get [x, i, y] := by
    intro x i y hx hi hy
    apply reshape_get
    · rw [h]; exact .cons hx (.cons hi (.cons hy .nil))
    · rw [h]; simp only [flat]; ring
  set r := svd (reshape X [a, d * b]) with hr
  have hU : normalizeThis svd X (-1) = reshape r.V [min a (d * b), d, b] := by
    simp [normalizeThis, e0, e1, e2, hr]
  have hUget : ∀ m i y, m < min a (d * b) → i < d → y < b → (normalizeThis svd X (-1)).get [m, i, y] = r.V.get [m, i + d * y] := by
    intro m i y hm hi hy
    rw [hU]
    apply reshape_get
    · rw [hs.dimsV]; exact .cons hm (.cons (add_mul_lt hi hy) .nil)
    · rw [hs.dimsV]; simp only [flat]; ring
  refine ⟨min a (d * b), by omega, by omega, by rw [hU]; rfl, ?_, ⟨[a, min a (d * b)], fun I => r.U.get I * ((r.s.getD (I.getD 1 0) 0 : ℝ) : K)⟩, rfl, ?_⟩
  · have k0 : (normalizeThis svd X (-1)).dim 0 = min a (d * b) := by rw [hU]; rfl
    have k1 : (normalizeThis svd X (-1)).dim 1 = d := by rw [hU]; rfl
    have k2 : (normalizeThis svd X (-1)).dim 2 = b := by rw [hU]; rfl
    intro x x' hx hx'
    rw [k0] at hx hx'
    rw [k1, k2, ← hs.isoV x x' hx hx', sum_range_mul, Finset.sum_comm]
    refine Finset.sum_congr rfl fun y hy => Finset.sum_congr rfl fun i hi => ?_
    rw [hUget x i y hx (Finset.mem_range.1 hi) (Finset.mem_range.1 hy), hUget x' i y hx' (Finset.mem_range.1 hi) (Finset.mem_range.1 hy)]
  · intro x i y hx hi hy
    rw [← hAget x i y hx hi hy, ← hs.prod _ _ hx (add_mul_lt hi hy)]
    refine Finset.sum_congr rfl fun m hm => ?_
    rw [hUget m i y (Finset.mem_range.1 hm) hi hy]
    simp only [List.getD_cons_succ, List.getD_cons_zero]

/-! ### what was split off goes to the neighbour -/

theorem ds_cut2 {ds : List Nat} {k : Nat} (hk : k + 1 < ds.length) :
    ds.take k ++ ([ds.getD k 0, ds.getD (k + 1) 0] ++ ds.drop (k + 2)) = ds := by
  have h1 := ds_cut (ds := ds) (k := k) (by omega)
  have h2 : ds.drop (k + 1) = ds.getD (k + 1) 0 :: ds.drop (k + 2) := by rw [List.drop_eq_getElem_cons hk]; simp [hk]
  rw [h2] at h1
  simpa using h1

theorem Gap.next {ds : List Nat} {P : List (Tensor K)} {k a b : Nat} (hg : Gap ds P k a b) (hk : k + 1 < ds.length) :
    ∃ c, (site P (k + 1)).dims = [b, ds.getD (k + 1) 0, c] ∧ WF c (P.drop (k + 2)) (ds.drop (k + 2)) 1 ∧ 0 < c ∧ 0 < ds.getD (k + 1) 0 := by
  have h := hg.wr
  have hl := hg.len
  rw [drop_site (by omega), List.drop_eq_getElem_cons hk] at h
  cases h with
  | cons k1 k2 k3 k4 k5 =>
    refine ⟨_, ?_, k5, k4, ?_⟩
    · rw [k1]; simp [hk]
    · simpa [hk] using k3

theorem Gap.prev {ds : List Nat} {P : List (Tensor K)} {k a b : Nat} (hg : Gap ds P (k + 1) a b) :
    ∃ c, (site P k).dims = [c, ds.getD k 0, a] ∧ WF 1 (P.take k) (ds.take k) c ∧ 0 < c ∧ 0 < ds.getD k 0 := by
  have h := hg.wl
  have hl := hg.len
  have hk := hg.lt
  rw [take_succ_site (by omega), List.take_succ_eq_append_getElem (by omega)] at h
  obtain ⟨c, h1, h2, h3, h4, h5⟩ := Form.WF.snoc h
  refine ⟨c, ?_, h1, h3, ?_⟩
  · rw [h2]; simp [show k < ds.length by omega]
  · simpa [show k < ds.length by omega] using h4

/-- the same products for a pair of tensors, the same state -/
theorem amp_pair {ds : List Nat} {P : List (Tensor K)} {k a b c b' : Nat} (hk : k + 1 < ds.length) (hl : P.length = ds.length)
    (pos : ∀ d ∈ ds, 0 < d) (w1 : WF 1 (P.take k) (ds.take k) a) (w2 : WF c (P.drop (k + 2)) (ds.drop (k + 2)) 1)
    {A B A' B' : Tensor K} (hA : A.dims = [a, ds.getD k 0, b]) (hB : B.dims = [b, ds.getD (k + 1) 0, c])
    (hA' : A'.dims = [a, ds.getD k 0, b']) (hB' : B'.dims = [b', ds.getD (k + 1) 0, c]) (hb : 0 < b) (hb' : 0 < b')
    (h : ∀ x i j y, x < a → i < ds.getD k 0 → j < ds.getD (k + 1) 0 → y < c →
      ∑ m ∈ Finset.range b, A.get [x, i, m] * B.get [m, j, y] = ∑ m ∈ Finset.range b', A'.get [x, i, m] * B'.get [m, j, y]) :
    ∀ s, IsCfg ds s → amp ((P.set k A).set (k + 1) B) s = amp ((P.set k A').set (k + 1) B') s := by
  have pa : 0 < a := w1.pos_right one_pos
  have pc : 0 < c := Form.WF.pos_left w2 one_pos
  have pd : 0 < ds.getD k 0 := by rw [List.getD_eq_getElem _ _ (by omega)]; exact pos _ (List.getElem_mem _)
  have pd' : 0 < ds.getD (k + 1) 0 := by rw [List.getD_eq_getElem _ _ hk]; exact pos _ (List.getElem_mem _)
  have form : ∀ A B : Tensor K, (P.set k A).set (k + 1) B = P.take k ++ ([A, B] ++ P.drop (k + 2)) := by
    intro A B
    rw [set_split (by simp; omega), take_succ_site (by simp; omega), site_set_self (by omega), take_set_ge _ _ le_rfl,
      drop_set_lt _ _ (by omega)]
    simp
  have wA : ∀ {A B : Tensor K} {b : Nat}, A.dims = [a, ds.getD k 0, b] → B.dims = [b, ds.getD (k + 1) 0, c] → 0 < b →
      WF a [A, B] [ds.getD k 0, ds.getD (k + 1) 0] c := fun hA hB hb => WF.cons hA pa pd hb (WF.cons hB hb pd' pc (WF.nil _))
  have hp := path_replace w1 (wA hA hB hb) (wA hA' hB' hb') w2 (by
    intro s hs x hx y hy
    match s, hs with
    | [i, j], hs =>
      obtain ⟨hi, hs'⟩ := isCfg_cons.1 hs
      obtain ⟨hj, -⟩ := isCfg_cons.1 hs'
      rw [path_pair hA hB i j x y hy, path_pair hA' hB' i j x y hy, h x i j y hx hi hj hy])
  rw [ds_cut2 hk] at hp
  intro s hs
  have w : ∀ {A B : Tensor K} {b : Nat}, A.dims = [a, ds.getD k 0, b] → B.dims = [b, ds.getD (k + 1) 0, c] → 0 < b →
      WF 1 (P.take k ++ ([A, B] ++ P.drop (k + 2))) ds 1 := by
    intro A B b hA hB hb
    have := w1.append ((wA hA hB hb).append w2)
    rwa [ds_cut2 hk] at this
  rw [form, form, amp_open (w hA hB hb) (by simp), amp_open (w hA' hB' hb') (by simp)]
  exact hp s hs 0 one_pos 0

theorem absorb_right {ds : List Nat} {P : List (Tensor K)} {k a b g : Nat} (hg : Gap ds P k a b) (hk : k + 1 < ds.length) {X U G : Tensor K}
    (hX : X.dims = [a, ds.getD k 0, b]) (hU : U.dims = [a, ds.getD k 0, g]) (h0 : 0 < g) (hG : G.dims = [g, b])
    (h : ∀ x i y, x < a → i < ds.getD k 0 → y < b → X.get [x, i, y] = ∑ m ∈ Finset.range g, U.get [x, i, m] * G.get [m, y]) :
    ∃ c, Gap ds (P.set k U) (k + 1) g c ∧ ∃ Y : Tensor K, Y.dims = [g, ds.getD (k + 1) 0, c] ∧
      ∀ s, IsCfg ds s → amp ((P.set k U).set (k + 1) Y) s = amp (P.set k X) s := by
  obtain ⟨c, B1, w2, pc, pd'⟩ := hg.next hk
  have hl := hg.len
  obtain ⟨Y1, Y2⟩ := fold_VB hG B1
  refine ⟨c, ⟨hk, by simpa using hl, hg.pos, ?_, ?_⟩, fold G (-1) (site P (k + 1)) 0, Y1, fun s hs => ?_⟩
  · rw [take_succ_site (by simp; omega), site_set_self (by omega), take_set_ge _ _ le_rfl, List.take_succ_eq_append_getElem (by omega)]
    refine hg.wl.append (WF.cons ?_ hg.pa ?_ h0 (WF.nil _))
    · rw [hU]; simp [show k < ds.length by omega]
    · exact hg.pos _ (List.getElem_mem _)
  · rw [drop_set_lt _ _ (by omega)]; exact w2
  · have e : P.set k X = (P.set k X).set (k + 1) (site P (k + 1)) := by
      rw [← site_set P k (k + 1) X (by omega) |>.trans (if_neg (by omega)), set_site_self' (by simp; omega)]
    rw [e]
    refine amp_pair hk hl hg.pos hg.wl w2 hU Y1 hX B1 h0 hg.pb ?_ s hs
    intro x i j y hx hi hj hy
    have e1 : ∀ m, (fold G (-1) (site P (k + 1)) 0).get [m, j, y] = ∑ z ∈ Finset.range b, G.get [m, z] * (site P (k + 1)).get [z, j, y] := fun m => Y2 m j y
    simp only [e1, Finset.mul_sum]
    rw [Finset.sum_comm]
    refine Finset.sum_congr rfl fun z hz => ?_
    rw [h x i z hx hi (Finset.mem_range.1 hz), Finset.sum_mul]
    exact Finset.sum_congr rfl fun m _ => by ring

theorem absorb_left {ds : List Nat} {P : List (Tensor K)} {k a b g : Nat} (hg : Gap ds P (k + 1) a b) {X U G : Tensor K}
    (hX : X.dims = [a, ds.getD (k + 1) 0, b]) (hU : U.dims = [g, ds.getD (k + 1) 0, b]) (h0 : 0 < g) (hG : G.dims = [a, g])
    (h : ∀ x i y, x < a → i < ds.getD (k + 1) 0 → y < b → X.get [x, i, y] = ∑ m ∈ Finset.range g, G.get [x, m] * U.get [m, i, y]) :
    ∃ c, Gap ds (P.set (k + 1) U) k c g ∧ ∃ Y : Tensor K, Y.dims = [c, ds.getD k 0, g] ∧
      ∀ s, IsCfg ds s → amp ((P.set (k + 1) U).set k Y) s = amp (P.set (k + 1) X) s := by
  obtain ⟨c, B1, w2, pc, pd'⟩ := hg.prev
  have hl := hg.len
  have hk := hg.lt
  obtain ⟨Y1, Y2⟩ := fold_BV hG B1
  refine ⟨c, ⟨by omega, by simpa using hl, hg.pos, ?_, ?_⟩, fold (site P k) (-1) G 0, Y1, fun s hs => ?_⟩
  · rw [take_set_ge _ _ (by omega)]; exact w2
  · rw [drop_site (by simp; omega), site_set_self (by omega), drop_set_lt _ _ (by omega), List.drop_eq_getElem_cons hk]
    refine WF.cons ?_ h0 ?_ hg.pb hg.wr
    · rw [hU]; simp [hk]
    · exact hg.pos _ (List.getElem_mem _)
  · have e : P.set (k + 1) X = (P.set k (site P k)).set (k + 1) X := by
      rw [set_site_self' (by omega)]
    rw [e, List.set_comm _ _ (by omega)]
    refine amp_pair hk hl hg.pos w2 hg.wr Y1 hU B1 hX h0 hg.pa ?_ s hs
    intro x i j y hx hi hj hy
    have e1 : ∀ m, (fold (site P k) (-1) G 0).get [x, i, m] = ∑ z ∈ Finset.range a, (site P k).get [x, i, z] * G.get [z, m] := fun m => Y2 x i m
    simp only [e1, Finset.sum_mul]
    rw [Finset.sum_comm]
    refine Finset.sum_congr rfl fun z hz => ?_
    rw [h z j y (Finset.mem_range.1 hz) hj hy, Finset.mul_sum]
    exact Finset.sum_congr rfl fun m _ => by ring

/-! ### the invariants of the sweeps -/

/-- in the middle of a sweep to the right -/
structure RInv (ds : List Nat) (q : List Nat → K) (P0 P : List (Tensor K)) (k a b : Nat) (X : Tensor K) : Prop where
  gap : Gap ds P k a b
  proj : Proj ds q P k a b X
  lo : ∀ j < k, LeftIso (site P j)
  rest : P.drop (k + 1) = P0.drop (k + 1)
  bond : ∀ j < k, (site P j).dim 2 ≤ (site P0 j).dim 2
  closer : (∀ j, 0 < j → j < ds.length → RightIso (site P0 j)) → distTo ds q (P.set k X) ≤ distTo ds q P0
  nz : MPS.inner ds (amp P0) q ≠ 0 → (sumCfg X.dims fun I => ‖X.get I‖ ^ 2) ≠ 0

/-- in the middle of a sweep to the left -/
structure LSInv (ds : List Nat) (q : List Nat → K) (P0 P : List (Tensor K)) (k a b : Nat) (X : Tensor K) : Prop where
  gap : Gap ds P k a b
  proj : Proj ds q P k a b X
  hi : ∀ j, k < j → j < ds.length → RightIso (site P j)
  rest : P.take k = P0.take k
  bond : ∀ j, k ≤ j → j + 1 < ds.length → (site P (j + 1)).dim 0 ≤ (site P0 j).dim 2
  closer : (∀ j, j + 1 < ds.length → LeftIso (site P0 j)) → distTo ds q (P.set k X) ≤ distTo ds q P0
  nz : MPS.inner ds (amp P0) q ≠ 0 → (sumCfg X.dims fun I => ‖X.get I‖ ^ 2) ≠ 0

theorem site_of_drop {P P' : List (Tensor K)} {k j : Nat} (h : P'.drop k = P.drop k) (hj : k ≤ j) : site P' j = site P j := by
  have h1 := congrArg (fun l => l.getD (j - k) Tensor.empty) h
  simp only [List.getD_eq_getElem?_getD, List.getElem?_drop, Nat.add_sub_cancel' hj] at h1
  simpa [site] using h1

theorem site_of_take {P P' : List (Tensor K)} {k j : Nat} (h : P'.take k = P.take k) (hj : j < k) : site P' j = site P j := by
  have h1 := congrArg (fun l => l.getD j Tensor.empty) h
  simp only [List.getD_eq_getElem?_getD, List.getElem?_take, hj, if_true] at h1
  simpa [site] using h1

/-- the sum of squares is not zero if the overlap is not -/
theorem Proj.ne_zero_start {ds : List Nat} {q : List Nat → K} {P : List (Tensor K)} {k a b : Nat} {X : Tensor K} (h : Proj ds q P k a b X)
    (hk : k < P.length) (hd : (site P k).dims = [a, ds.getD k 0, b]) (hz : MPS.inner ds (amp P) q ≠ 0) :
    (sumCfg X.dims fun I => ‖X.get I‖ ^ 2) ≠ 0 := by
  intro h0
  apply hz
  have h1 := h.inner (site P k) hd
  rw [set_site_self' hk] at h1
  rw [h1, ← h.dims]
  have h2 : ∀ I, IsCfg X.dims I → X.get I = 0 := by
    intro I hI
    have hle : ‖X.get I‖ ^ 2 ≤ sumCfg X.dims fun I => ‖X.get I‖ ^ 2 := by
      rw [← sumCfg_if X.dims (fun J => ‖X.get J‖ ^ 2) hI]
      have h2 : 0 ≤ sumCfg X.dims fun J => (‖X.get J‖ ^ 2 - if J = I then ‖X.get J‖ ^ 2 else 0) := by
        refine sumCfg_nonneg _ _ fun J _ => ?_
        split_ifs
        · simp
        · simp
      rw [sumCfg_sub] at h2
      linarith
    rw [h0] at hle
    have : ‖X.get I‖ ^ 2 = 0 := le_antisymm hle (by positivity)
    simpa using this
  rw [sumCfg_congr fun I hI => by rw [h2 I hI, mul_zero], sumCfg_zero]

theorem RInv.start {ds : List Nat} {q : List Nat → K} {P : List (Tensor K)} {a b : Nat} {X : Tensor K} (hg : Gap ds P 0 a b)
    (hd : (site P 0).dims = [a, ds.getD 0 0, b]) (hp : Proj ds q P 0 a b X) : RInv ds q P P 0 a b X := by
  have hl := hg.len
  have hk := hg.lt
  refine ⟨hg, hp, by omega, rfl, by omega, fun hi => ?_, hp.ne_zero_start (by omega) hd⟩
  have := hp.closest hg (by omega) hi hd
  rwa [set_site_self' (by omega)] at this

theorem LSInv.start {ds : List Nat} {q : List Nat → K} {P : List (Tensor K)} {k a b : Nat} {X : Tensor K} (hk : k + 1 = ds.length) (hg : Gap ds P k a b)
    (hd : (site P k).dims = [a, ds.getD k 0, b]) (hp : Proj ds q P k a b X) : LSInv ds q P P k a b X := by
  have hl := hg.len
  refine ⟨hg, hp, by omega, rfl, by omega, fun lo => ?_, hp.ne_zero_start (by omega) hd⟩
  have := hp.closest hg (fun j hj => lo j (by omega)) (by omega) hd
  rwa [set_site_self' (by omega)] at this

theorem RInv.step {ds : List Nat} {q : List Nat → K} {P0 P P' : List (Tensor K)} {k a b g c : Nat} {X X' Y : Tensor K}
    (h : RInv ds q P0 P k a b X) (h0 : WF 1 P0 ds 1) (hk : k + 1 < ds.length) (ht : P'.take k = P.take k) (hdr : P'.drop (k + 2) = P.drop (k + 2))
    (hiso : LeftIso (site P' k)) (hgb : g ≤ b) (hg : Gap ds P' (k + 1) g c) (hY : Y.dims = [g, ds.getD (k + 1) 0, c])
    (e : ∀ s, IsCfg ds s → amp (P'.set (k + 1) Y) s = amp (P.set k X) s) (hp : Proj ds q P' (k + 1) g c X') :
    RInv ds q P0 P' (k + 1) g c X' := by
  have hl0 := h0.length
  have lo' : ∀ j < k + 1, LeftIso (site P' j) := by
    intro j hj
    by_cases hjk : j = k
    · rw [hjk]; exact hiso
    · rw [site_of_take ht (by omega)]; exact h.lo j (by omega)
  have rest' : P'.drop (k + 2) = P0.drop (k + 2) := hdr.trans (drop_of_eq h.rest (by omega))
  refine ⟨hg, hp, lo', rest', ?_, fun hi => ?_, fun hz => ?_⟩
  · intro j hj
    by_cases hjk : j = k
    · subst hjk
      obtain ⟨x, h1, -⟩ := hg.prev
      obtain ⟨a0, b0, g0, d0⟩ := Gap.of_WF h0 (k := j) (by omega)
      obtain ⟨c0, h2, -⟩ := g0.next hk
      obtain ⟨c1, h3, -⟩ := h.gap.next hk
      rw [site_of_drop h.rest le_rfl, h2] at h3
      have : b0 = b := by simpa using (List.cons.inj h3).1
      rw [dim2_of h1, dim2_of d0, this]; exact hgb
    · rw [site_of_take ht (by omega)]; exact h.bond j (by omega)
  · refine le_trans (hp.closest hg lo' (fun j h1 h2 => ?_) hY) ?_
    · rw [site_of_drop rest' (by omega)]; exact hi j (by omega) h2
    · rw [distTo_congr e]; exact h.closer hi
  · exact h.proj.next_ne_zero hp hY e (h.nz hz)

theorem LSInv.step {ds : List Nat} {q : List Nat → K} {P0 P P' : List (Tensor K)} {k a b g c : Nat} {X X' Y : Tensor K}
    (h : LSInv ds q P0 P (k + 1) a b X) (h0 : WF 1 P0 ds 1) (ht : P'.take k = P.take k) (hdr : P'.drop (k + 2) = P.drop (k + 2))
    (hiso : RightIso (site P' (k + 1))) (hga : g ≤ a) (hg : Gap ds P' k c g) (hY : Y.dims = [c, ds.getD k 0, g])
    (e : ∀ s, IsCfg ds s → amp (P'.set k Y) s = amp (P.set (k + 1) X) s) (hp : Proj ds q P' k c g X') :
    LSInv ds q P0 P' k c g X' := by
  have hl0 := h0.length
  have hk := h.gap.lt
  have hi' : ∀ j, k < j → j < ds.length → RightIso (site P' j) := by
    intro j hj hj2
    by_cases hjk : j = k + 1
    · rw [hjk]; exact hiso
    · rw [site_of_drop hdr (by omega)]; exact h.hi j (by omega) hj2
  have rest' : P'.take k = P0.take k := ht.trans (take_of_eq h.rest (by omega))
  refine ⟨hg, hp, hi', rest', ?_, fun lo => ?_, fun hz => ?_⟩
  · intro j hj hj2
    by_cases hjk : j = k
    · subst hjk
      obtain ⟨x, h1, -⟩ := hg.next hk
      obtain ⟨a0, b0, g0, d0⟩ := Gap.of_WF h0 (k := j) (by omega)
      obtain ⟨c1, h3, -⟩ := h.gap.prev
      rw [site_of_take h.rest (by omega), d0] at h3
      have : b0 = a := by simpa using (List.cons.inj (List.cons.inj (List.cons.inj h3).2).2).1
      rw [dim0_of h1, dim2_of d0, this]; exact hga
    · rw [site_of_drop hdr (by omega)]; exact h.bond j (by omega) hj2
  · refine le_trans (hp.closest hg (fun j h1 => ?_) hi' hY) ?_
    · rw [site_of_take rest' h1]; exact lo j (by omega)
    · rw [distTo_congr e]; exact h.closer lo
  · exact h.proj.next_ne_zero hp hY e (h.nz hz)

theorem RInv.finish {ds : List Nat} {q : List Nat → K} {P0 P : List (Tensor K)} {k a b : Nat} {X : Tensor K}
    (h : RInv ds q P0 P k a b X) (hk : k + 1 = ds.length) : Swept ds q P0 1 (P.set k X) := by
  have hl := h.gap.len
  have hb := h.proj.best h.gap h.lo (by omega)
  refine ⟨h.gap.wf h.proj.dims, ?_, ?_, ?_, fun hd => ?_, fun hz => ?_⟩
  · simp only [Described, show ¬ (1 : Int) < 0 by decide, if_false]
    intro j hj
    rw [site_set _ _ _ _ (by omega), if_neg (by omega)]; exact h.lo j (by omega)
  · simp only [centreOf, show ¬ (1 : Int) < 0 by decide, if_false]
    rwa [show ds.length - 1 = k by omega]
  · intro j hj
    rw [site_set _ _ _ _ (by omega), if_neg (by omega)]; exact h.bond j (by omega)
  · refine h.closer ?_
    simpa [Described] using hd
  · rw [normSq_set h.gap h.lo (by omega) h.proj.dims, ← h.proj.dims]
    exact h.nz hz

theorem LSInv.finish {ds : List Nat} {q : List Nat → K} {P0 P : List (Tensor K)} {a b : Nat} {X : Tensor K}
    (h : LSInv ds q P0 P 0 a b X) : Swept ds q P0 (-1) (P.set 0 X) := by
  have hl := h.gap.len
  have hk := h.gap.lt
  have hb := h.proj.best h.gap (by omega) h.hi
  have hw := h.gap.wf h.proj.dims
  refine ⟨hw, ?_, ?_, ?_, fun hd => ?_, fun hz => ?_⟩
  · simp only [Described, show (-1 : Int) < 0 by decide, if_true]
    intro j hj hj2
    rw [site_set _ _ _ _ (by omega), if_neg (by omega)]; exact h.hi j hj hj2
  · simpa [centreOf] using hb
  · intro j hj
    obtain ⟨a0, b0, g0, d0⟩ := Gap.of_WF hw (k := j) (by omega)
    obtain ⟨c0, h2, -⟩ := g0.next hj
    have h3 := h.bond j (by omega) hj
    rw [site_set _ _ _ _ (by omega), if_neg (by omega)] at h2
    rw [dim0_of h2] at h3
    rw [dim2_of d0]; exact h3
  · refine h.closer ?_
    simpa [Described] using hd
  · rw [normSq_set h.gap (by omega) h.hi h.proj.dims, ← h.proj.dims]
    exact h.nz hz

end MPS.Simp
