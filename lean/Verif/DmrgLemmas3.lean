import Verif.DmrgLemmas2
import Verif.DmrgSpec

/-! The matrices kept by the object. -/

set_option linter.unusedSectionVars false
set_option linter.unusedSimpArgs false

namespace MPS.Dmrg
open MPS Tensor Form Minim
variable {K : Type} [RCLike K]

/-- a matrix whose rows and columns are pairs of indices, the first one fastest -/
def IsBlk (M : Tensor K) (m n : Nat) (F : Nat → Nat → Nat → Nat → K) : Prop :=
  M.dims = [m * n, m * n] ∧ ∀ i x j y, i < m → x < n → j < m → y < n → M.get [i + m * x, j + m * y] = F i x j y

/-- Hermitian, as a matrix of pairs of indices -/
def HermF (m n : Nat) (F : Nat → Nat → Nat → Nat → K) : Prop :=
  ∀ i x j y, i < m → x < n → j < m → y < n → star (F i x j y) = F j y i x

theorem IsBlk.congr {M : Tensor K} {m n : Nat} {F G : Nat → Nat → Nat → Nat → K} (h : IsBlk M m n F)
    (hFG : ∀ i x j y, i < m → x < n → j < m → y < n → F i x j y = G i x j y) : IsBlk M m n G :=
  ⟨h.1, fun i x j y hi hx hj hy => by rw [h.2 i x j y hi hx hj hy, hFG i x j y hi hx hj hy]⟩

theorem IsBlk.kron2 {A B : Tensor K} {m n : Nat} (hA : A.dims = [m, m]) (hB : B.dims = [n, n]) :
    IsBlk (kron2 A B) m n fun i x j y => A.get [i, j] * B.get [x, y] :=
  ⟨Props.kron2_dims hA hB, fun i x j y hi _ hj _ => Props.kron2_get hA hi hj⟩

theorem IsBlk.add {A B : Tensor K} {m n : Nat} {F G : Nat → Nat → Nat → Nat → K} (hA : IsBlk A m n F) (hB : IsBlk B m n G) :
    IsBlk (Tensor.add A B) m n fun i x j y => F i x j y + G i x j y :=
  ⟨hA.1, fun i x j y hi hx hj hy => by simp only [Tensor.add]; rw [hA.2 i x j y hi hx hj hy, hB.2 i x j y hi hx hj hy]⟩

theorem IsBlk.foldl {A : Tensor K} {m n : Nat} {F : Nat → Nat → Nat → Nat → K} (hA : IsBlk A m n F) (B : Nat → Tensor K)
    (G : Nat → Nat → Nat → Nat → Nat → K) (N : Nat) (hB : ∀ l < N, IsBlk (B l) m n (G l)) :
    IsBlk ((List.range N).foldl (fun M l => Tensor.add M (B l)) A) m n fun i x j y => F i x j y + ∑ l ∈ Finset.range N, G l i x j y := by
  induction N with
  | zero => exact hA.congr fun i x j y _ _ _ _ => by simp
  | succ N ih =>
    rw [List.range_succ, List.foldl_append]
    exact ((ih fun l hl => hB l (by omega)).add (hB N (by omega))).congr fun i x j y _ _ _ _ => by rw [Finset.sum_range_succ]; ring

theorem adjoint_get {M : Tensor K} {n : Nat} (h : M.dims = [n, n]) (i j : Nat) : (adjoint M).get [i, j] = star (M.get [j, i]) := by
  simp [adjoint, transpose, permute, swapIdx]

theorem IsBlk.herm {M : Tensor K} {m n : Nat} {F : Nat → Nat → Nat → Nat → K} (h : IsBlk M m n F) (hF : HermF m n F) :
    IsBlk (ensureHermitian M) m n F := by
  refine ⟨h.1, fun i x j y hi hx hj hy => ?_⟩
  unfold ensureHermitian
  simp only [smul, Tensor.add]
  rw [adjoint_get h.1, h.2 i x j y hi hx hj hy, h.2 j y i x hj hy hi hx, hF j y i x hj hy hi hx]
  ring

theorem IsBlk.reshape {M : Tensor K} {m n : Nat} {F : Nat → Nat → Nat → Nat → K} (h : IsBlk M m n F) :
    IsBlk (Tensor.reshape M [m * n, m * n]) m n F := by
  refine ⟨rfl, fun i x j y hi hx hj hy => ?_⟩
  rw [reshape_get (idx := [i + m * x, j + m * y]), h.2 i x j y hi hx hj hy]
  · rw [h.1]; exact .cons (add_mul_lt hi hx) (.cons (add_mul_lt hj hy) .nil)
  · rw [h.1]

theorem reshape_right {B : Tensor K} {a d b : Nat} (h : B.dims = [a, d, b]) {x i y : Nat} (hx : x < a) (hi : i < d) (hy : y < b) :
    (reshape B [a, d * b]).get [x, i + d * y] = B.get [x, i, y] := by
  apply reshape_get
  · rw [h]; exact .cons hx (.cons hi (.cons hy .nil))
  · rw [h]; simp only [flat]; ring

theorem reshape_left {B : Tensor K} {a d b : Nat} (h : B.dims = [a, d, b]) {x i y : Nat} (hx : x < a) (hi : i < d) (hy : y < b) :
    (reshape B [a * d, b]).get [x + a * i, y] = B.get [x, i, y] := by
  apply reshape_get
  · rw [h]; exact .cons hx (.cons hi (.cons hy .nil))
  · rw [h]; simp only [flat]; ring

theorem foldin_site {o B : Tensor K} {a d b : Nat} (ho : o.dims = [d, d]) (h : B.dims = [a, d, b]) :
    (foldin o (-1) B 1).dims = [a, d, b] ∧ ∀ x i y, (foldin o (-1) B 1).get [x, i, y] = ∑ j ∈ Finset.range d, o.get [i, j] * B.get [x, j, y] := by
  refine ⟨by simp [foldin, ho, h, nrm], fun x i y => by simp [foldin, ho, h, nrm]⟩

theorem interactionRight_spec {ds : List Nat} {H : Ham K} (hH : HamOk ds H) {P : List (Tensor K)} {k a b m : Nat} (hk : k + 1 < ds.length)
    (hm : m < H.depth k) (hX : (site P (k + 1)).dims = [a, ds.getD (k + 1) 0, b]) :
    (interactionRight H P k m).dims = [a, a] ∧ ∀ x y, x < a → y < a → (interactionRight H P k m).get [x, y] =
      ∑ c ∈ Finset.range b, ∑ i ∈ Finset.range (ds.getD (k + 1) 0), ∑ j ∈ Finset.range (ds.getD (k + 1) 0),
        star ((site P (k + 1)).get [x, i, c]) * (H.right k m).get [i, j] * (site P (k + 1)).get [y, j, c] := by
  obtain ⟨f1, f2⟩ := foldin_site (hH.right k m hk hm) hX
  unfold interactionRight
  simp only [dim0_of hX, dim1_of hX, dim2_of hX]
  refine ⟨by simp [foldc, fold, nrm], fun x y hx hy => ?_⟩
  have e : (foldc (reshape (site P (k + 1)) [a, ds.getD (k + 1) 0 * b]) (-1)
      (reshape (foldin (H.right k m) (-1) (site P (k + 1)) 1) [a, ds.getD (k + 1) 0 * b]) (-1)).get [x, y] =
      ∑ n ∈ Finset.range (ds.getD (k + 1) 0 * b), star ((reshape (site P (k + 1)) [a, ds.getD (k + 1) 0 * b]).get [x, n]) *
        (reshape (foldin (H.right k m) (-1) (site P (k + 1)) 1) [a, ds.getD (k + 1) 0 * b]).get [y, n] := by
    simp [foldc, fold, nrm]
  rw [e, sum_range_mul]
  refine Finset.sum_congr rfl fun c hc => Finset.sum_congr rfl fun i hi => ?_
  have hc := Finset.mem_range.1 hc
  have hi := Finset.mem_range.1 hi
  rw [reshape_right hX hx hi hc, reshape_right f1 hy hi hc, f2, Finset.mul_sum]
  exact Finset.sum_congr rfl fun j _ => by ring

theorem interactionLeft_spec {ds : List Nat} {H : Ham K} (hH : HamOk ds H) {P : List (Tensor K)} {k a b m : Nat} (hk : k + 1 < ds.length)
    (hm : m < H.depth k) (hX : (site P k).dims = [a, ds.getD k 0, b]) :
    (interactionLeft H P (k + 1) m).dims = [b, b] ∧ ∀ x y, x < b → y < b → (interactionLeft H P (k + 1) m).get [x, y] =
      ∑ i ∈ Finset.range (ds.getD k 0), ∑ c ∈ Finset.range a, ∑ j ∈ Finset.range (ds.getD k 0),
        star ((site P k).get [c, i, x]) * (H.left k m).get [i, j] * (site P k).get [c, j, y] := by
  obtain ⟨f1, f2⟩ := foldin_site (hH.left k m hk hm) hX
  unfold interactionLeft
  simp only [Nat.add_sub_cancel, dim0_of hX, dim1_of hX, dim2_of hX]
  refine ⟨by simp [foldc, fold, nrm], fun x y hx hy => ?_⟩
  have e : (foldc (reshape (site P k) [a * ds.getD k 0, b]) 0
      (reshape (foldin (H.left k m) (-1) (site P k) 1) [a * ds.getD k 0, b]) 0).get [x, y] =
      ∑ n ∈ Finset.range (a * ds.getD k 0), star ((reshape (site P k) [a * ds.getD k 0, b]).get [n, x]) *
        (reshape (foldin (H.left k m) (-1) (site P k) 1) [a * ds.getD k 0, b]).get [n, y] := by
    simp [foldc, fold, nrm]
  rw [e, sum_range_mul]
  refine Finset.sum_congr rfl fun i hi => Finset.sum_congr rfl fun c hc => ?_
  have hc := Finset.mem_range.1 hc
  have hi := Finset.mem_range.1 hi
  rw [reshape_left hX hc hi hx, reshape_left f1 hc hi hy, f2, Finset.mul_sum]
  exact Finset.sum_congr rfl fun j _ => by ring

/-- the interaction of site `k` with the block to its right -/
theorem ER_border {ds : List Nat} {P : List (Tensor K)} (h : WF 1 P ds 1) (hd : ∀ d ∈ ds, 0 < d) (H : Ham K) {k a b : Nat} (m : Nat)
    (hk : k + 1 < ds.length) (hX : (site P (k + 1)).dims = [a, ds.getD (k + 1) 0, b])
    (hr : ∀ j, k + 1 < j → j < ds.length → RightIso (site P j)) {x y : Nat} (hx : x < a) (hy : y < a) :
    ER ds P (k + 1) (ft ds H k m) x y =
      ∑ c ∈ Finset.range b, ∑ i ∈ Finset.range (ds.getD (k + 1) 0), ∑ j ∈ Finset.range (ds.getD (k + 1) 0),
        star ((site P (k + 1)).get [x, i, c]) * (H.right k m).get [i, j] * (site P (k + 1)).get [y, j, c] := by
  have hW : WF b (P.drop (k + 1 + 1)) (ds.drop (k + 1 + 1)) 1 := by
    obtain ⟨a', b', h1, h2, h3, -⟩ := WF.around h hk
    rw [h2] at hX
    simp only [List.cons.injEq, and_true, true_and] at hX
    rw [← hX.2]; exact h3
  rw [ER_succ h hd hk hX _ hx hy]
  have e : ∀ u ∈ Finset.range b, ∀ v ∈ Finset.range b,
      oneSite (ds.getD (k + 1) 0) (site P (k + 1)) (ft ds H k m (k + 1)) (site P (k + 1)) x y u v * ER ds P (k + 1 + 1) (ft ds H k m) u v =
      (if u = v then 1 else 0) * oneSite (ds.getD (k + 1) 0) (site P (k + 1)) (H.right k m) (site P (k + 1)) x y u v := by
    intro u hu v hv
    rw [ft_right, ER_id h hd (by omega) (fun j hj hj2 => hr j (by omega) hj2) _ (fun l hl _ => ft_id H m (by omega) (by omega)) b hW u v
      (Finset.mem_range.1 hu) (Finset.mem_range.1 hv), mul_comm]
  rw [Finset.sum_congr rfl fun u hu => Finset.sum_congr rfl (e u hu), sum_delta]
  rfl

/-- the interaction of site `k + 1` with the block to its left -/
theorem EL_border {ds : List Nat} {P : List (Tensor K)} (h : WF 1 P ds 1) (hd : ∀ d ∈ ds, 0 < d) (H : Ham K) {k a b : Nat} (m : Nat)
    (hk : k + 1 < ds.length) (hX : (site P k).dims = [a, ds.getD k 0, b]) (hl : ∀ j < k, LeftIso (site P j)) {x y : Nat} (hx : x < b) (hy : y < b) :
    EL ds P (k + 1) (ft ds H k m) x y =
      ∑ i ∈ Finset.range (ds.getD k 0), ∑ c ∈ Finset.range a, ∑ j ∈ Finset.range (ds.getD k 0),
        star ((site P k).get [c, i, x]) * (H.left k m).get [i, j] * (site P k).get [c, j, y] := by
  have hW : WF 1 (P.take k) (ds.take k) a := by
    obtain ⟨a', b', h1, h2, h3, -⟩ := WF.around h (show k < ds.length by omega)
    rw [h2] at hX
    simp only [List.cons.injEq, and_true, true_and] at hX
    rw [← hX.1]; exact h1
  rw [EL_succ h hd (by omega) hX _ hx hy]
  have e : ∀ u ∈ Finset.range a, ∀ v ∈ Finset.range a,
      EL ds P k (ft ds H k m) u v * oneSite (ds.getD k 0) (site P k) (ft ds H k m k) (site P k) u v x y =
      (if u = v then 1 else 0) * oneSite (ds.getD k 0) (site P k) (H.left k m) (site P k) u v x y := by
    intro u hu v hv
    rw [ft_left, EL_id h hd (by omega) hl _ (fun l hl => ft_id H m (by omega) (by omega)) a hW u v (Finset.mem_range.1 hu) (Finset.mem_range.1 hv)]
  rw [Finset.sum_congr rfl fun u hu => Finset.sum_congr rfl (e u hu), sum_delta]
  unfold oneSite
  rw [Finset.sum_comm]

/-- `Hr_[j]` is the operator of the block which starts at site `j` -/
def RGood (ds : List Nat) (H : Ham K) (P A : List (Tensor K)) (j : Nat) : Prop :=
  (site A j).dims = [(site P j).dim 0, (site P j).dim 0] ∧ ∀ x y, x < (site P j).dim 0 → y < (site P j).dim 0 →
    (site A j).get [x, y] = RA ds H P j x y ∧ star ((site A j).get [x, y]) = (site A j).get [y, x]

/-- `Hl_[j]` is the operator of the block which ends at site `j` -/
def LGood (ds : List Nat) (H : Ham K) (P A : List (Tensor K)) (j : Nat) : Prop :=
  (site A j).dims = [(site P j).dim 2, (site P j).dim 2] ∧ ∀ x y, x < (site P j).dim 2 → y < (site P j).dim 2 →
    (site A j).get [x, y] = LA ds H P (j + 1) x y ∧ star ((site A j).get [x, y]) = (site A j).get [y, x]

theorem BR_herm {ds : List Nat} {P : List (Tensor K)} (h : WF 1 P ds 1) {H : Ham K} (hH : HamOk ds H) {k b : Nat}
    (hk : k < ds.length) (hb : k + 1 < ds.length → (site P (k + 1)).dim 0 = b) (hr : ∀ j, k < j → j < ds.length → RightIso (site P j))
    (hA : ∀ x y, x < b → y < b → star (RA ds H P (k + 1) x y) = RA ds H P (k + 1) y x) : HermF (ds.getD k 0) b (BR ds H P k) := by
  intro i x j y hi hx hj hy
  unfold BR
  rw [star_add, star_mul', hA x y hx hy]
  congr 1
  · congr 1
    by_cases hij : i = j
    · simp [hij]
    · simp [hij, Ne.symm hij]
  · by_cases hk1 : k + 1 < ds.length
    · simp only [if_pos hk1]
      obtain ⟨a', c, h1, h2, h3, -⟩ := WF.around h hk1
      have ha' : a' = b := by rw [← hb hk1, dim0_of h2]
      subst ha'
      have e : ∀ (x y i j : Nat), x < a' → y < a' → ∑ n ∈ Finset.range (H.depth k), (H.left k n).get [i, j] * ER ds P (k + 1) (ft ds H k n) x y =
          ∑ e ∈ Finset.range c, ∑ p ∈ Finset.range (ds.getD (k + 1) 0), ∑ q ∈ Finset.range (ds.getD (k + 1) 0),
            star ((site P (k + 1)).get [x, p, e]) * (∑ n ∈ Finset.range (H.depth k), (H.left k n).get [i, j] * (H.right k n).get [p, q]) *
              (site P (k + 1)).get [y, q, e] := by
        intro x y i j hx hy
        have : ∀ n ∈ Finset.range (H.depth k), (H.left k n).get [i, j] * ER ds P (k + 1) (ft ds H k n) x y =
            ∑ e ∈ Finset.range c, ∑ p ∈ Finset.range (ds.getD (k + 1) 0), ∑ q ∈ Finset.range (ds.getD (k + 1) 0),
            star ((site P (k + 1)).get [x, p, e]) * ((H.left k n).get [i, j] * (H.right k n).get [p, q]) * (site P (k + 1)).get [y, q, e] := by
          intro n _
          rw [ER_border h hH.pos H n hk1 h2 (fun j hj hj2 => hr j (by omega) hj2) hx hy, Finset.mul_sum]
          refine Finset.sum_congr rfl fun e _ => ?_
          rw [Finset.mul_sum]
          refine Finset.sum_congr rfl fun p _ => ?_
          rw [Finset.mul_sum]
          exact Finset.sum_congr rfl fun q _ => by ring
        rw [Finset.sum_congr rfl this, Finset.sum_comm]
        refine Finset.sum_congr rfl fun e _ => ?_
        rw [Finset.sum_comm]
        refine Finset.sum_congr rfl fun p _ => ?_
        rw [Finset.sum_comm]
        refine Finset.sum_congr rfl fun q _ => ?_
        rw [Finset.mul_sum, Finset.sum_mul]
      rw [e x y i j hx hy, e y x j i hy hx]
      simp only [star_sum, star_mul', star_star]
      refine Finset.sum_congr rfl fun e _ => ?_
      rw [Finset.sum_comm]
      refine Finset.sum_congr rfl fun p hp => Finset.sum_congr rfl fun q hq => ?_
      have := hH.bondHerm k hk1 i j q p hi hj (Finset.mem_range.1 hq) (Finset.mem_range.1 hp)
      simp only [star_sum, star_mul'] at this
      rw [this]
      ring
    · simp only [if_neg hk1, star_zero]

theorem BL_herm {ds : List Nat} {P : List (Tensor K)} (h : WF 1 P ds 1) {H : Ham K} (hH : HamOk ds H) {k a : Nat}
    (hk : k < ds.length) (ha : 0 < k → (site P (k - 1)).dim 2 = a) (hl : ∀ j < k, LeftIso (site P j))
    (hA : ∀ x y, x < a → y < a → star (LA ds H P k x y) = LA ds H P k y x) : HermF a (ds.getD k 0) (BL ds H P k) := by
  intro x i y j hx hi hy hj
  unfold BL
  rw [star_add, star_mul', hA x y hx hy]
  congr 1
  · congr 1
    by_cases hij : i = j
    · simp [hij]
    · simp [hij, Ne.symm hij]
  · rcases k with _ | k
    · simp
    · simp only [Nat.succ_pos, if_true, Nat.add_sub_cancel]
      obtain ⟨c, b', h1, h2, h3, -⟩ := WF.around h (show k < ds.length by omega)
      have ha' : b' = a := by rw [← ha (by omega), Nat.add_sub_cancel, dim2_of h2]
      subst ha'
      have e : ∀ (x y i j : Nat), x < b' → y < b' → ∑ n ∈ Finset.range (H.depth k), EL ds P (k + 1) (ft ds H k n) x y * (H.right k n).get [i, j] =
          ∑ p ∈ Finset.range (ds.getD k 0), ∑ e ∈ Finset.range c, ∑ q ∈ Finset.range (ds.getD k 0),
            star ((site P k).get [e, p, x]) * (∑ n ∈ Finset.range (H.depth k), (H.left k n).get [p, q] * (H.right k n).get [i, j]) *
              (site P k).get [e, q, y] := by
        intro x y i j hx hy
        have : ∀ n ∈ Finset.range (H.depth k), EL ds P (k + 1) (ft ds H k n) x y * (H.right k n).get [i, j] =
            ∑ p ∈ Finset.range (ds.getD k 0), ∑ e ∈ Finset.range c, ∑ q ∈ Finset.range (ds.getD k 0),
            star ((site P k).get [e, p, x]) * ((H.left k n).get [p, q] * (H.right k n).get [i, j]) * (site P k).get [e, q, y] := by
          intro n _
          rw [EL_border h hH.pos H n hk h2 (fun j hj => hl j (by omega)) hx hy, Finset.sum_mul]
          refine Finset.sum_congr rfl fun e _ => ?_
          rw [Finset.sum_mul]
          refine Finset.sum_congr rfl fun p _ => ?_
          rw [Finset.sum_mul]
          exact Finset.sum_congr rfl fun q _ => by ring
        rw [Finset.sum_congr rfl this, Finset.sum_comm]
        refine Finset.sum_congr rfl fun e _ => ?_
        rw [Finset.sum_comm]
        refine Finset.sum_congr rfl fun p _ => ?_
        rw [Finset.sum_comm]
        refine Finset.sum_congr rfl fun q _ => ?_
        rw [Finset.mul_sum, Finset.sum_mul]
      rw [e x y i j hx hy, e y x j i hy hx]
      simp only [star_sum, star_mul', star_star]
      have sw : ∀ F : Nat → Nat → Nat → K, ∑ p ∈ Finset.range (ds.getD k 0), ∑ e ∈ Finset.range c, ∑ q ∈ Finset.range (ds.getD k 0), F p e q =
          ∑ p ∈ Finset.range (ds.getD k 0), ∑ e ∈ Finset.range c, ∑ q ∈ Finset.range (ds.getD k 0), F q e p := by
        intro F
        rw [Finset.sum_comm, Finset.sum_comm (s := Finset.range (ds.getD k 0))]
        refine Finset.sum_congr rfl fun e _ => Finset.sum_comm
      rw [sw]
      refine Finset.sum_congr rfl fun p hp => Finset.sum_congr rfl fun e _ => Finset.sum_congr rfl fun q hq => ?_
      have := hH.bondHerm k hk q p i j (Finset.mem_range.1 hq) (Finset.mem_range.1 hp) hi hj
      simp only [star_sum, star_mul'] at this
      rw [this]
      ring

/-- the right neighbour has a matching bond -/
theorem next_dims {P : List (Tensor K)} {ds : List Nat} (h : WF 1 P ds 1) {k a b : Nat} (hk : k + 1 < ds.length)
    (hX : (site P k).dims = [a, ds.getD k 0, b]) : ∃ c, (site P (k + 1)).dims = [b, ds.getD (k + 1) 0, c] := by
  obtain ⟨a', b', h1, h2, h3, -⟩ := WF.around h (show k < ds.length by omega)
  obtain ⟨a2, c, g1, g2, g3, q1, q2, q3⟩ := WF.around h hk
  rw [h2] at hX
  simp only [List.cons.injEq, and_true, true_and] at hX
  obtain ⟨rfl, rfl⟩ := hX
  have := WF.cons g2 q1 q2 q3 g3
  rw [← drop_site (by rw [h.length]; omega), show ds.getD (k + 1) 0 :: ds.drop (k + 1 + 1) = [ds.getD (k + 1) 0] ++ ds.drop (k + 1 + 1) from rfl,
    ← drop_dims (by omega)] at this
  rw [WF_left h3 this]
  exact ⟨c, g2⟩

theorem RA_last {ds : List Nat} (H : Ham K) (P : List (Tensor K)) {k : Nat} (hk : ds.length ≤ k) (x y : Nat) : RA ds H P k x y = 0 := by
  unfold RA
  rw [Finset.Ico_eq_empty_of_le hk, Finset.Ico_eq_empty_of_le (by omega)]
  simp

theorem LA_zero {ds : List Nat} (H : Ham K) (P : List (Tensor K)) (x y : Nat) : LA ds H P 0 x y = 0 := by simp [LA]

theorem IsBlk.zeros (m n : Nat) : IsBlk (Tensor.zeros [m * n, m * n] : Tensor K) m n fun _ _ _ _ => 0 := ⟨rfl, fun _ _ _ _ _ _ _ _ => rfl⟩

theorem blockRight_spec {ds : List Nat} {P A : List (Tensor K)} (h : WF 1 P ds 1) {H : Ham K} (hH : HamOk ds H) {k a b : Nat} (hk : k < ds.length)
    (hX : (site P k).dims = [a, ds.getD k 0, b]) (hr : ∀ j, k < j → j < ds.length → RightIso (site P j))
    (hA : k + 1 < ds.length → RGood ds H P A (k + 1)) :
    IsBlk (blockRight H P A k) (ds.getD k 0) b (BR ds H P k) ∧ HermF (ds.getD k 0) b (BR ds H P k) := by
  have hb : k + 1 < ds.length → (site P (k + 1)).dim 0 = b := fun hk1 => by
    obtain ⟨c, hc⟩ := next_dims h hk1 hX; exact dim0_of hc
  have hherm : HermF (ds.getD k 0) b (BR ds H P k) := by
    refine BR_herm h hH hk hb hr fun x y hx hy => ?_
    by_cases hk1 : k + 1 < ds.length
    · obtain ⟨-, g2⟩ := hA hk1
      rw [hb hk1] at g2
      rw [← (g2 x y hx hy).1, ← (g2 y x hy hx).1]; exact (g2 x y hx hy).2
    · rw [RA_last H P (by omega), RA_last H P (by omega), star_zero]
  refine ⟨?_, hherm⟩
  unfold blockRight
  simp only [dim1_of hX, dim2_of hX]
  refine IsBlk.herm ?_ hherm
  rw [hH.size]
  by_cases hk1 : k + 1 < ds.length
  · rw [if_pos hk1]
    obtain ⟨g1, g2⟩ := hA hk1
    rw [hb hk1] at g1 g2
    obtain ⟨c, hc⟩ := next_dims h hk1 hX
    refine ((IsBlk.kron2 (show (eye (ds.getD k 0) : Tensor K).dims = _ from rfl) g1).foldl _
      (fun m i x j y => (H.left k m).get [i, j] * (interactionRight H P k m).get [x, y]) _
      (fun m hm => IsBlk.kron2 (hH.left k m hk1 hm) (interactionRight_spec hH hk1 hm hc).1)).congr fun i x j y hi hx hj hy => ?_
    unfold BR
    rw [if_pos hk1, (g2 x y hx hy).1]
    congr 1
    refine Finset.sum_congr rfl fun m hm => ?_
    rw [(interactionRight_spec hH hk1 (Finset.mem_range.1 hm) hc).2 x y hx hy,
      ER_border h hH.pos H m hk1 hc (fun j hj hj2 => hr j (by omega) hj2) hx hy]
  · rw [if_neg hk1]
    refine (IsBlk.zeros _ _).congr fun i x j y _ _ _ _ => ?_
    unfold BR
    rw [if_neg hk1, RA_last H P (by omega)]; simp

theorem prev_dims {P : List (Tensor K)} {ds : List Nat} (h : WF 1 P ds 1) {k a b : Nat} (hk : k + 1 < ds.length)
    (hX : (site P (k + 1)).dims = [a, ds.getD (k + 1) 0, b]) : ∃ c, (site P k).dims = [c, ds.getD k 0, a] := by
  obtain ⟨c, e, h1, h2, h3, -⟩ := WF.around h (show k < ds.length by omega)
  obtain ⟨f, hf⟩ := next_dims h hk h2
  rw [hX] at hf
  simp only [List.cons.injEq, and_true, true_and] at hf
  exact ⟨c, by rw [h2, hf.1]⟩

theorem blockLeft_spec {ds : List Nat} {P A : List (Tensor K)} (h : WF 1 P ds 1) {H : Ham K} (hH : HamOk ds H) {k a b : Nat} (hk : k < ds.length)
    (hX : (site P k).dims = [a, ds.getD k 0, b]) (hl : ∀ j < k, LeftIso (site P j)) (hA : 0 < k → LGood ds H P A (k - 1)) :
    IsBlk (blockLeft H P A k) a (ds.getD k 0) (BL ds H P k) ∧ HermF a (ds.getD k 0) (BL ds H P k) := by
  rcases k with _ | k
  · have e : ∀ x i y j, BL ds H P 0 x i y j = 0 := by intro x i y j; simp [BL, LA_zero]
    refine ⟨?_, fun i x j y _ _ _ _ => by rw [e, e, star_zero]⟩
    unfold blockLeft
    simp only [dim0_of hX, dim1_of hX]
    exact (IsBlk.zeros _ _).congr fun i x j y _ _ _ _ => (e _ _ _ _).symm
  obtain ⟨c, hc⟩ := prev_dims h hk hX
  obtain ⟨g1, g2⟩ := hA (by omega)
  simp only [Nat.add_sub_cancel, dim2_of hc] at g1 g2
  have hherm : HermF a (ds.getD (k + 1) 0) (BL ds H P (k + 1)) := by
    refine BL_herm h hH hk (fun _ => by rw [Nat.add_sub_cancel, dim2_of hc]) hl fun x y hx hy => ?_
    rw [← (g2 x y hx hy).1, ← (g2 y x hy hx).1]; exact (g2 x y hx hy).2
  refine ⟨?_, hherm⟩
  unfold blockLeft
  simp only [dim0_of hX, dim1_of hX, gt_iff_lt, Nat.succ_pos, if_true, Nat.add_sub_cancel]
  refine ((IsBlk.kron2 g1 (show (eye (ds.getD (k + 1) 0) : Tensor K).dims = _ from rfl)).foldl _
      (fun m x i y j => (interactionLeft H P (k + 1) m).get [x, y] * (H.right k m).get [i, j]) _
      (fun m hm => IsBlk.kron2 (interactionLeft_spec hH hk hm hc).1 (hH.right k m hk hm))).congr fun x i y j hx hi hy hj => ?_
  unfold BL
  simp only [Nat.succ_pos, if_true, Nat.add_sub_cancel]
  rw [(g2 x y hx hy).1]
  congr 1
  refine Finset.sum_congr rfl fun m hm => ?_
  rw [(interactionLeft_spec hH hk (Finset.mem_range.1 hm) hc).2 x y hx hy, EL_border h hH.pos H m hk hc (fun j hj => hl j (by omega)) hx hy]

end MPS.Dmrg
