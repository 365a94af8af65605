import Verif.DmrgModel
import Verif.FormQLemmas
import Verif.MinimizerLemmas5
import Verif.Props.HamProps4

/-! Expectation values of products of one-site operators, site by site. -/

set_option linter.unusedSectionVars false
set_option linter.unusedSimpArgs false

namespace MPS.Dmrg
open MPS Tensor Form Minim
variable {K : Type} [RCLike K]

/-- a product of one-site operators as a matrix product operator -/
def prodMPO : List Nat → (Nat → Tensor K) → List (Tensor K)
  | [], _ => []
  | d :: ds, f => ⟨[1, d, d, 1], fun i => (f 0).get [i.getD 1 0, i.getD 2 0]⟩ :: prodMPO ds fun j => f (j + 1)

theorem prodMPO_append (ds es : List Nat) (f : Nat → Tensor K) :
    prodMPO (ds ++ es) f = prodMPO ds f ++ prodMPO es fun j => f (ds.length + j) := by
  induction ds generalizing f with
  | nil => simp [prodMPO]
  | cons d ds ih =>
    simp only [List.cons_append, prodMPO, ih, List.length_cons]
    congr 3
    funext j; congr 1; omega

theorem prodMPO_WFO {ds : List Nat} (h : ∀ d ∈ ds, 0 < d) (f : Nat → Tensor K) : WFO 1 (prodMPO ds f) ds 1 := by
  induction ds generalizing f with
  | nil => exact WFO.nil 1
  | cons d ds ih => exact WFO.cons rfl Nat.one_pos (h d (by simp)) Nat.one_pos (ih (fun x hx => h x (by simp [hx])) _)

theorem tensorOp_cons (n : Nat) (f : Nat → Tensor K) (i j : Nat) (s t : List Nat) :
    tensorOp (n + 1) f (i :: s) (j :: t) = (f 0).get [i, j] * tensorOp n (fun l => f (l + 1)) s t := by
  unfold tensorOp
  rw [Finset.prod_range_succ', mul_comm]
  simp

theorem prodMPO_path {ds : List Nat} (f : Nat → Tensor K) {s t : List Nat} (hs : IsCfg ds s) (ht : IsCfg ds t) :
    opPath (prodMPO ds f) s t 0 0 = tensorOp ds.length f s t := by
  induction ds generalizing f s t with
  | nil =>
    cases hs; cases ht
    simp [prodMPO, opPath, tensorOp]
  | cons d ds ih =>
    cases hs with
    | cons h1 h2 =>
      cases ht with
      | cons h3 h4 =>
        rw [List.length_cons, tensorOp_cons, prodMPO, opPath, ← ih _ h2 h4]
        simp [dim, nrm]

/-- `⟨path(Q)| f_0 ⊗ f_1 ⊗ ⋯ |path(P)⟩` for given outer bonds -/
def env (Q P : List (Tensor K)) (ds : List Nat) (f : Nat → Tensor K) (u v x y : Nat) : K :=
  envG Q (prodMPO ds f) P ds u 0 v x 0 y

theorem env_append {Q1 Q2 P1 P2 : List (Tensor K)} {d1 d2 : List Nat} {a0 a b0 b : Nat} (hd : ∀ d ∈ d1, 0 < d) (f : Nat → Tensor K)
    (hQ : WF a0 Q1 d1 a) (hP : WF b0 P1 d1 b) {u v : Nat} (hu : u < a0) (hv : v < b0) (z w : Nat) :
    env (Q1 ++ Q2) (P1 ++ P2) (d1 ++ d2) f u v z w = ∑ x ∈ Finset.range a, ∑ y ∈ Finset.range b,
      env Q1 P1 d1 f u v x y * env Q2 P2 d2 (fun j => f (d1.length + j)) x y z w := by
  unfold env
  rw [prodMPO_append, envG_append hQ (prodMPO_WFO hd f) hP hu Nat.one_pos hv]
  refine Finset.sum_congr rfl fun x _ => ?_
  rw [Finset.sum_range_one]

theorem env_single {B X : Tensor K} {a d a' b b' : Nat} (f : Nat → Tensor K) (hB : B.dims = [a, d, a']) (hX : X.dims = [b, d, b'])
    {x y x' y' : Nat} (hx : x' < a') (hy : y' < b') :
    env [B] [X] [d] f x y x' y' =
      ∑ i ∈ Finset.range d, ∑ j ∈ Finset.range d, star (B.get [x, i, x']) * (f 0).get [i, j] * X.get [y, j, y'] := by
  unfold env
  rw [show prodMPO [d] f = [⟨[1, d, d, 1], fun i => (f 0).get [i.getD 1 0, i.getD 2 0]⟩] from rfl,
    envG_single hB rfl hX hx Nat.one_pos hy]
  simp

theorem expect_env {Q P : List (Tensor K)} {ds : List Nat} (f : Nat → Tensor K) (hQ : WF 1 Q ds 1) (hP : WF 1 P ds 1) (hne : ds ≠ [])
    (hd : ∀ d ∈ ds, 0 < d) :
    MPS.inner ds (amp Q) (actOp ds (tensorOp ds.length f) (amp P)) = env Q P ds f 0 0 0 0 := by
  have hO := prodMPO_WFO hd f
  have n2 : prodMPO ds f ≠ [] := by intro h; have := hO.length; rw [h] at this; exact hne (List.length_eq_zero_iff.1 this.symm)
  unfold env
  rw [← expect_envG hQ hO hP hne]
  unfold MPS.inner actOp
  refine sumCfg_congr fun s hs => ?_
  congr 1
  refine sumCfg_congr fun t ht => ?_
  rw [opElt_of_WFO hO n2, Finset.sum_range_one, prodMPO_path f hs ht]

/-- left environment of the bond before site `k` -/
def EL (ds : List Nat) (P : List (Tensor K)) (k : Nat) (f : Nat → Tensor K) (x y : Nat) : K :=
  env (P.take k) (P.take k) (ds.take k) f 0 0 x y

/-- right environment of the bond before site `k` -/
def ER (ds : List Nat) (P : List (Tensor K)) (k : Nat) (f : Nat → Tensor K) (x y : Nat) : K :=
  env (P.drop k) (P.drop k) (ds.drop k) (fun j => f (k + j)) x y 0 0

/-- one site between two environments -/
def oneSite (d : Nat) (B : Tensor K) (o : Tensor K) (X : Tensor K) (x x' y y' : Nat) : K :=
  ∑ i ∈ Finset.range d, ∑ j ∈ Finset.range d, star (B.get [x, i, y]) * o.get [i, j] * X.get [x', j, y']

theorem EL_zero (ds : List Nat) (P : List (Tensor K)) (f : Nat → Tensor K) : EL ds P 0 f 0 0 = 1 := by
  simp [EL, env, envG, path, opPath, prodMPO]

theorem ER_last {ds : List Nat} {P : List (Tensor K)} (hl : P.length = ds.length) (f : Nat → Tensor K) : ER ds P ds.length f 0 0 = 1 := by
  unfold ER
  rw [List.drop_length, show P.drop ds.length = [] by rw [← hl, List.drop_length]]
  simp [env, envG, path, opPath, prodMPO]

theorem take_dims_succ {ds : List Nat} {k : Nat} (hk : k < ds.length) : ds.take (k + 1) = ds.take k ++ [ds.getD k 0] := by
  rw [List.take_succ_eq_append_getElem hk, List.getD_eq_getElem _ _ hk]

theorem drop_dims {ds : List Nat} {k : Nat} (hk : k < ds.length) : ds.drop k = [ds.getD k 0] ++ ds.drop (k + 1) := by
  rw [List.drop_eq_getElem_cons hk, List.getD_eq_getElem _ _ hk]; rfl

theorem EL_succ {ds : List Nat} {P : List (Tensor K)} (h : WF 1 P ds 1) (hd : ∀ d ∈ ds, 0 < d) {k a b : Nat} (hk : k < ds.length)
    (hX : (site P k).dims = [a, ds.getD k 0, b]) (f : Nat → Tensor K) {x y : Nat} (hx : x < b) (hy : y < b) :
    EL ds P (k + 1) f x y = ∑ u ∈ Finset.range a, ∑ v ∈ Finset.range a,
      EL ds P k f u v * oneSite (ds.getD k 0) (site P k) (f k) (site P k) u v x y := by
  have hl := h.length
  obtain ⟨a', b', h1, h2, -, -, -, -⟩ := WF.around h hk
  rw [h2] at hX
  simp only [List.cons.injEq, and_true, true_and] at hX
  obtain ⟨rfl, rfl⟩ := hX
  unfold EL
  rw [take_dims_succ hk, take_succ_site (by omega), env_append (fun d hdd => hd d (List.mem_of_mem_take hdd)) f h1 h1 Nat.one_pos Nat.one_pos]
  refine Finset.sum_congr rfl fun u _ => Finset.sum_congr rfl fun v _ => ?_
  rw [env_single _ h2 h2 hx hy]
  simp only [List.length_take, Nat.min_eq_left hk.le, Nat.add_zero]
  rfl

theorem ER_succ {ds : List Nat} {P : List (Tensor K)} (h : WF 1 P ds 1) (hd : ∀ d ∈ ds, 0 < d) {k a b : Nat} (hk : k < ds.length)
    (hX : (site P k).dims = [a, ds.getD k 0, b]) (f : Nat → Tensor K) {x y : Nat} (hx : x < a) (hy : y < a) :
    ER ds P k f x y = ∑ u ∈ Finset.range b, ∑ v ∈ Finset.range b,
      oneSite (ds.getD k 0) (site P k) (f k) (site P k) x y u v * ER ds P (k + 1) f u v := by
  have hl := h.length
  obtain ⟨a', b', h1, h2, h3, p1, p2, p3⟩ := WF.around h hk
  rw [h2] at hX
  simp only [List.cons.injEq, and_true, true_and] at hX
  obtain ⟨rfl, rfl⟩ := hX
  unfold ER
  have hW : WF a' [site P k] [ds.getD k 0] b' := WF.cons h2 p1 p2 p3 (WF.nil _)
  have hs : P.drop k = [site P k] ++ P.drop (k + 1) := drop_site (by omega)
  rw [drop_dims hk, hs, env_append (fun d hdd => by simp at hdd; rw [hdd]; exact p2) _ hW hW hx hy]
  refine Finset.sum_congr rfl fun u hu => Finset.sum_congr rfl fun v hv => ?_
  rw [env_single _ h2 h2 (Finset.mem_range.1 hu) (Finset.mem_range.1 hv)]
  simp only [Nat.add_zero, List.length_singleton]
  congr 2
  funext j; congr 1; omega

/-- the expectation value of a product operator in a state with the tensors `Y` and `X` at site `k` -/
theorem expect_at {ds : List Nat} {P : List (Tensor K)} (h : WF 1 P ds 1) (hd : ∀ d ∈ ds, 0 < d) {k a b : Nat} (hk : k < ds.length)
    (hP : (site P k).dims = [a, ds.getD k 0, b]) (f : Nat → Tensor K) {Y X : Tensor K} (hY : Y.dims = [a, ds.getD k 0, b])
    (hX : X.dims = [a, ds.getD k 0, b]) :
    MPS.inner ds (amp (P.set k Y)) (actOp ds (tensorOp ds.length f) (amp (P.set k X))) =
      ∑ u ∈ Finset.range a, ∑ v ∈ Finset.range a, ∑ x ∈ Finset.range b, ∑ y ∈ Finset.range b,
        EL ds P k f u v * oneSite (ds.getD k 0) Y (f k) X u v x y * ER ds P (k + 1) f x y := by
  have hl := h.length
  obtain ⟨a', b', h1, h2, h3, p1, p2, p3⟩ := WF.around h hk
  rw [h2] at hP
  simp only [List.cons.injEq, and_true, true_and] at hP
  obtain ⟨rfl, rfl⟩ := hP
  have hne : ds ≠ [] := by rintro rfl; simp at hk
  rw [expect_env f (WF.replace hk hl h1 h3 hY p1 p2 p3) (WF.replace hk hl h1 h3 hX p1 p2 p3) hne hd, set_split (by omega), set_split (by omega)]
  have e : ds = ds.take k ++ ([ds.getD k 0] ++ ds.drop (k + 1)) := by rw [← drop_dims hk, List.take_append_drop]
  conv_lhs => rw [e]
  rw [env_append (fun d hdd => hd d (List.mem_of_mem_take hdd)) f h1 h1 Nat.one_pos Nat.one_pos]
  refine Finset.sum_congr rfl fun u hu => Finset.sum_congr rfl fun v hv => ?_
  have hu := Finset.mem_range.1 hu
  have hv := Finset.mem_range.1 hv
  rw [show ∀ Z : Tensor K, Z :: P.drop (k + 1) = [Z] ++ P.drop (k + 1) from fun _ => rfl, show ∀ Z : Tensor K, Z :: P.drop (k + 1) = [Z] ++ P.drop (k + 1) from fun _ => rfl,
    env_append (fun d hdd => by simp at hdd; rw [hdd]; exact p2) _ (WF.cons hY p1 p2 p3 (WF.nil _)) (WF.cons hX p1 p2 p3 (WF.nil _)) hu hv, Finset.mul_sum]
  refine Finset.sum_congr rfl fun x hx => ?_
  rw [Finset.mul_sum]
  refine Finset.sum_congr rfl fun y hy => ?_
  rw [env_single _ hY hX (Finset.mem_range.1 hx) (Finset.mem_range.1 hy), ← mul_assoc]
  simp only [List.length_take, Nat.min_eq_left hk.le, Nat.add_zero, List.length_singleton]
  unfold EL ER oneSite
  congr 3
  funext j; congr 1; omega

/-- the one-site operator is the identity -/
theorem oneSite_id {d : Nat} {B o X : Tensor K} (ho : IsIdentity d o) (x x' y y' : Nat) :
    oneSite d B o X x x' y y' = ∑ i ∈ Finset.range d, star (B.get [x, i, y]) * X.get [x', i, y'] := by
  unfold oneSite
  refine Finset.sum_congr rfl fun i hi => ?_
  rw [Finset.sum_eq_single i]
  · rw [ho i i (Finset.mem_range.1 hi) (Finset.mem_range.1 hi)]; simp
  · intro j hj hne
    rw [ho i j (Finset.mem_range.1 hi) (Finset.mem_range.1 hj), if_neg (Ne.symm hne)]; simp
  · intro hn; exact absurd hi hn

theorem sum_delta {n : Nat} (F : Nat → Nat → K) :
    ∑ u ∈ Finset.range n, ∑ v ∈ Finset.range n, (if u = v then (1 : K) else 0) * F u v = ∑ u ∈ Finset.range n, F u u := by
  refine Finset.sum_congr rfl fun u hu => ?_
  rw [Finset.sum_eq_single u]
  · simp
  · intro v _ hne; rw [if_neg (Ne.symm hne), zero_mul]
  · intro hn; exact absurd hu hn

theorem EL_id {ds : List Nat} {P : List (Tensor K)} (h : WF 1 P ds 1) (hd : ∀ d ∈ ds, 0 < d) {k : Nat} (hk : k ≤ ds.length)
    (hl : ∀ j < k, LeftIso (site P j)) (f : Nat → Tensor K) (hf : ∀ j < k, IsIdentity (ds.getD j 0) (f j)) :
    ∀ a, WF 1 (P.take k) (ds.take k) a → ∀ x y, x < a → y < a → EL ds P k f x y = if x = y then 1 else 0 := by
  induction k with
  | zero =>
    intro a ha x y hx hy
    simp only [List.take_zero] at ha
    cases ha
    obtain rfl : x = 0 := by omega
    obtain rfl : y = 0 := by omega
    rw [EL_zero]; simp
  | succ k ih =>
    intro b hb x y hx hy
    obtain ⟨a, b', h1, h2, h3, p1, p2, p3⟩ := WF.around h (show k < ds.length by omega)
    have : b = b' := by
      have := h1.append (WF.cons h2 p1 p2 p3 (WF.nil _))
      rw [← take_succ_site (by rw [h.length]; omega), ← take_dims_succ (by omega)] at this
      exact WF_right hb this
    subst this
    rw [EL_succ h hd (by omega) h2 f hx hy]
    have e : ∀ u ∈ Finset.range a, ∀ v ∈ Finset.range a, EL ds P k f u v * oneSite (ds.getD k 0) (site P k) (f k) (site P k) u v x y =
        (if u = v then 1 else 0) * ∑ i ∈ Finset.range (ds.getD k 0), star ((site P k).get [u, i, x]) * (site P k).get [v, i, y] := by
      intro u hu v hv
      rw [ih (by omega) (fun j hj => hl j (by omega)) (fun j hj => hf j (by omega)) a h1 u v (Finset.mem_range.1 hu) (Finset.mem_range.1 hv),
        oneSite_id (hf k (by omega))]
    rw [Finset.sum_congr rfl fun u hu => Finset.sum_congr rfl (e u hu), sum_delta]
    have := hl k (by omega) x y (by rw [dim2_of h2]; exact hx) (by rw [dim2_of h2]; exact hy)
    rwa [dim0_of h2, dim1_of h2] at this

theorem ER_id {ds : List Nat} {P : List (Tensor K)} (h : WF 1 P ds 1) (hd : ∀ d ∈ ds, 0 < d) {k : Nat} (hk : k ≤ ds.length)
    (hr : ∀ j, k ≤ j → j < ds.length → RightIso (site P j)) (f : Nat → Tensor K)
    (hf : ∀ j, k ≤ j → j < ds.length → IsIdentity (ds.getD j 0) (f j)) :
    ∀ a, WF a (P.drop k) (ds.drop k) 1 → ∀ x y, x < a → y < a → ER ds P k f x y = if x = y then 1 else 0 := by
  induction hn : ds.length - k generalizing k with
  | zero =>
    intro a ha x y hx hy
    obtain rfl : k = ds.length := by omega
    rw [List.drop_length, show P.drop ds.length = [] by rw [← h.length, List.drop_length]] at ha
    cases ha
    obtain rfl : x = 0 := by omega
    obtain rfl : y = 0 := by omega
    rw [ER_last h.length]; simp
  | succ n ih =>
    intro a ha x y hx hy
    obtain ⟨a', b, h1, h2, h3, p1, p2, p3⟩ := WF.around h (show k < ds.length by omega)
    have : a = a' := by
      have := WF.cons h2 p1 p2 p3 h3
      rw [← drop_site (by rw [h.length]; omega), show ds.getD k 0 :: ds.drop (k + 1) = [ds.getD k 0] ++ ds.drop (k + 1) from rfl, ← drop_dims (by omega)] at this
      exact WF_left ha this
    subst this
    rw [ER_succ h hd (by omega) h2 f hx hy]
    have e : ∀ u ∈ Finset.range b, ∀ v ∈ Finset.range b, oneSite (ds.getD k 0) (site P k) (f k) (site P k) x y u v * ER ds P (k + 1) f u v =
        (if u = v then 1 else 0) * ∑ i ∈ Finset.range (ds.getD k 0), star ((site P k).get [x, i, u]) * (site P k).get [y, i, v] := by
      intro u hu v hv
      rw [ih (by omega) (fun j hj => hr j (by omega)) (fun j hj => hf j (by omega)) (by omega) b h3 u v (Finset.mem_range.1 hu) (Finset.mem_range.1 hv),
        oneSite_id (hf k (by omega) (by omega)), mul_comm]
    rw [Finset.sum_congr rfl fun u hu => Finset.sum_congr rfl (e u hu), sum_delta, Finset.sum_comm]
    have := hr k (by omega) (by omega) y x (by rw [dim0_of h2]; exact hy) (by rw [dim0_of h2]; exact hx)
    rw [dim1_of h2, dim2_of h2] at this
    simp only [mul_comm (star _)]
    rw [this]
    simp only [eq_comm]

end MPS.Dmrg
