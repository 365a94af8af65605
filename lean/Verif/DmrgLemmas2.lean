import Verif.DmrgLemmas

/-! The terms of the Hamiltonian, sorted with respect to a site. -/

set_option linter.unusedSectionVars false
set_option linter.unusedSimpArgs false

namespace MPS.Dmrg
open MPS Tensor Form Minim
variable {K : Type} [RCLike K]

/-- factors of the local term of site `j` -/
def fs (ds : List Nat) (H : Ham K) (j : Nat) : Nat → Tensor K := onSite ds j (H.loc j)

/-- factors of the interaction `n` of the bond `j` -/
def ft (ds : List Nat) (H : Ham K) (j n : Nat) : Nat → Tensor K :=
  onTwo ds j (H.left j n) (j + 1) (H.right j n) fun l => eye (ds.getD l 0)

/-- everything to the left of the bond before site `k` -/
def LA (ds : List Nat) (H : Ham K) (P : List (Tensor K)) (k x y : Nat) : K :=
  ∑ j ∈ Finset.range k, EL ds P k (fs ds H j) x y + ∑ j ∈ Finset.range (k - 1), ∑ n ∈ Finset.range (H.depth j), EL ds P k (ft ds H j n) x y

/-- everything to the right of the bond before site `k` -/
def RA (ds : List Nat) (H : Ham K) (P : List (Tensor K)) (k x y : Nat) : K :=
  ∑ j ∈ Finset.Ico k ds.length, ER ds P k (fs ds H j) x y +
  ∑ j ∈ Finset.Ico k (ds.length - 1), ∑ n ∈ Finset.range (H.depth j), ER ds P k (ft ds H j n) x y

/-- everything to the left of site `k`, and the interactions with it -/
def BL (ds : List Nat) (H : Ham K) (P : List (Tensor K)) (k x i y j : Nat) : K :=
  LA ds H P k x y * (if i = j then 1 else 0) +
  if 0 < k then ∑ n ∈ Finset.range (H.depth (k - 1)), EL ds P k (ft ds H (k - 1) n) x y * (H.right (k - 1) n).get [i, j] else 0

/-- everything to the right of site `k`, and the interactions with it -/
def BR (ds : List Nat) (H : Ham K) (P : List (Tensor K)) (k i x j y : Nat) : K :=
  (if i = j then 1 else 0) * RA ds H P (k + 1) x y +
  if k + 1 < ds.length then ∑ n ∈ Finset.range (H.depth k), (H.left k n).get [i, j] * ER ds P (k + 1) (ft ds H k n) x y else 0

theorem fs_id {ds : List Nat} (H : Ham K) {j k : Nat} (h : k ≠ j) : IsIdentity (ds.getD k 0) (fs ds H j k) := by
  intro x y _ _
  simp [fs, onSite, h, eye]

theorem ft_id {ds : List Nat} (H : Ham K) {j k : Nat} (n : Nat) (h : k ≠ j) (h' : k ≠ j + 1) : IsIdentity (ds.getD k 0) (ft ds H j n k) := by
  intro x y _ _
  simp [ft, onTwo, h, h', eye]

theorem fs_same {ds : List Nat} (H : Ham K) (j : Nat) : fs ds H j j = H.loc j := by simp [fs, onSite]

theorem ft_left {ds : List Nat} (H : Ham K) (j n : Nat) : ft ds H j n j = H.left j n := by simp [ft, onTwo]

theorem ft_right {ds : List Nat} (H : Ham K) (j n : Nat) : ft ds H j n (j + 1) = H.right j n := by simp [ft, onTwo]

/-- the terms to the left of site `k`, with their factors at site `k` -/
theorem BL_sum {ds : List Nat} (H : Ham K) (P : List (Tensor K)) (k x y : Nat) {i j : Nat} (hi : i < ds.getD k 0) (hj : j < ds.getD k 0) :
    ∑ l ∈ Finset.range k, EL ds P k (fs ds H l) x y * (fs ds H l k).get [i, j] +
    ∑ l ∈ Finset.range k, ∑ n ∈ Finset.range (H.depth l), EL ds P k (ft ds H l n) x y * (ft ds H l n k).get [i, j] = BL ds H P k x i y j := by
  have e1 : ∑ l ∈ Finset.range k, EL ds P k (fs ds H l) x y * (fs ds H l k).get [i, j] =
      (∑ l ∈ Finset.range k, EL ds P k (fs ds H l) x y) * (if i = j then 1 else 0) := by
    rw [Finset.sum_mul]
    refine Finset.sum_congr rfl fun l hl => ?_
    rw [fs_id H (by have := Finset.mem_range.1 hl; omega) i j hi hj]
  have e2 : ∀ m, m < k → ∑ l ∈ Finset.range m, ∑ n ∈ Finset.range (H.depth l), EL ds P k (ft ds H l n) x y * (ft ds H l n k).get [i, j] =
      (∑ l ∈ Finset.range m, ∑ n ∈ Finset.range (H.depth l), EL ds P k (ft ds H l n) x y) * (if i = j then 1 else 0) := by
    intro m hm
    rw [Finset.sum_mul]
    refine Finset.sum_congr rfl fun l hl => ?_
    have := Finset.mem_range.1 hl
    rw [Finset.sum_mul]
    refine Finset.sum_congr rfl fun n _ => ?_
    rw [ft_id H n (by omega) (by omega) i j hi hj]
  unfold BL LA
  rw [e1]
  rcases k with _ | k
  · simp
  · rw [Finset.sum_range_succ _ k, Finset.sum_range_succ _ k, e2 k (by omega)]
    simp only [Nat.add_sub_cancel, ft_right, Nat.succ_pos, if_true]
    ring

/-- the terms to the right of site `k`, with their factors at site `k` -/
theorem BR_sum {ds : List Nat} (H : Ham K) (P : List (Tensor K)) {k : Nat} (hk : k < ds.length) (x y : Nat) {i j : Nat}
    (hi : i < ds.getD k 0) (hj : j < ds.getD k 0) :
    ∑ l ∈ Finset.Ico (k + 1) ds.length, (fs ds H l k).get [i, j] * ER ds P (k + 1) (fs ds H l) x y +
    ∑ l ∈ Finset.Ico k (ds.length - 1), ∑ n ∈ Finset.range (H.depth l), (ft ds H l n k).get [i, j] * ER ds P (k + 1) (ft ds H l n) x y =
      BR ds H P k i x j y := by
  have e1 : ∑ l ∈ Finset.Ico (k + 1) ds.length, (fs ds H l k).get [i, j] * ER ds P (k + 1) (fs ds H l) x y =
      (if i = j then 1 else 0) * ∑ l ∈ Finset.Ico (k + 1) ds.length, ER ds P (k + 1) (fs ds H l) x y := by
    rw [Finset.mul_sum]
    refine Finset.sum_congr rfl fun l hl => ?_
    rw [fs_id H (by have := (Finset.mem_Ico.1 hl).1; omega) i j hi hj]
  have e2 : ∑ l ∈ Finset.Ico (k + 1) (ds.length - 1), ∑ n ∈ Finset.range (H.depth l), (ft ds H l n k).get [i, j] * ER ds P (k + 1) (ft ds H l n) x y =
      (if i = j then 1 else 0) * ∑ l ∈ Finset.Ico (k + 1) (ds.length - 1), ∑ n ∈ Finset.range (H.depth l), ER ds P (k + 1) (ft ds H l n) x y := by
    rw [Finset.mul_sum]
    refine Finset.sum_congr rfl fun l hl => ?_
    have := (Finset.mem_Ico.1 hl).1
    rw [Finset.mul_sum]
    refine Finset.sum_congr rfl fun n _ => ?_
    rw [ft_id H n (by omega) (by omega) i j hi hj]
  unfold BR RA
  rw [e1]
  by_cases h : k + 1 < ds.length
  · rw [if_pos h, Finset.sum_eq_sum_Ico_succ_bot (by omega : k < ds.length - 1), e2]
    simp only [ft_left]
    ring
  · rw [if_neg h, Finset.Ico_eq_empty_of_le (by omega : ds.length - 1 ≤ k), Finset.Ico_eq_empty_of_le (by omega : ds.length - 1 ≤ k + 1)]
    simp

/-- `∑ star(P[u,i,x]) C(u,i,v,j) P[v,j,y]` -/
def sandL (a d : Nat) (B : Tensor K) (C : Nat → Nat → Nat → Nat → K) (x y : Nat) : K :=
  ∑ u ∈ Finset.range a, ∑ v ∈ Finset.range a, ∑ i ∈ Finset.range d, ∑ j ∈ Finset.range d,
    star (B.get [u, i, x]) * C u i v j * B.get [v, j, y]

/-- `∑ star(P[x,i,u]) C(i,u,j,v) P[y,j,v]` -/
def sandR (d b : Nat) (B : Tensor K) (C : Nat → Nat → Nat → Nat → K) (x y : Nat) : K :=
  ∑ u ∈ Finset.range b, ∑ v ∈ Finset.range b, ∑ i ∈ Finset.range d, ∑ j ∈ Finset.range d,
    star (B.get [x, i, u]) * C i u j v * B.get [y, j, v]

theorem sandL_congr {a d : Nat} {B : Tensor K} {C C' : Nat → Nat → Nat → Nat → K}
    (h : ∀ u i v j, u < a → i < d → v < a → j < d → C u i v j = C' u i v j) (x y : Nat) : sandL a d B C x y = sandL a d B C' x y := by
  unfold sandL
  refine Finset.sum_congr rfl fun u hu => Finset.sum_congr rfl fun v hv => Finset.sum_congr rfl fun i hi => Finset.sum_congr rfl fun j hj => ?_
  rw [h u i v j (Finset.mem_range.1 hu) (Finset.mem_range.1 hi) (Finset.mem_range.1 hv) (Finset.mem_range.1 hj)]

theorem sandR_congr {d b : Nat} {B : Tensor K} {C C' : Nat → Nat → Nat → Nat → K}
    (h : ∀ i u j v, i < d → u < b → j < d → v < b → C i u j v = C' i u j v) (x y : Nat) : sandR d b B C x y = sandR d b B C' x y := by
  unfold sandR
  refine Finset.sum_congr rfl fun u hu => Finset.sum_congr rfl fun v hv => Finset.sum_congr rfl fun i hi => Finset.sum_congr rfl fun j hj => ?_
  rw [h i u j v (Finset.mem_range.1 hi) (Finset.mem_range.1 hu) (Finset.mem_range.1 hj) (Finset.mem_range.1 hv)]

theorem sandL_add (a d : Nat) (B : Tensor K) (C C' : Nat → Nat → Nat → Nat → K) (x y : Nat) :
    sandL a d B (fun u i v j => C u i v j + C' u i v j) x y = sandL a d B C x y + sandL a d B C' x y := by
  simp only [sandL, mul_add, add_mul, Finset.sum_add_distrib]

theorem sandR_add (d b : Nat) (B : Tensor K) (C C' : Nat → Nat → Nat → Nat → K) (x y : Nat) :
    sandR d b B (fun u i v j => C u i v j + C' u i v j) x y = sandR d b B C x y + sandR d b B C' x y := by
  simp only [sandR, mul_add, add_mul, Finset.sum_add_distrib]

theorem sandL_sum {ι : Type} (a d : Nat) (B : Tensor K) (S : Finset ι) (C : ι → Nat → Nat → Nat → Nat → K) (x y : Nat) :
    sandL a d B (fun u i v j => ∑ l ∈ S, C l u i v j) x y = ∑ l ∈ S, sandL a d B (C l) x y := by
  classical
  induction S using Finset.induction_on with
  | empty => simp [sandL]
  | insert l S hl ih => simp only [Finset.sum_insert hl, sandL_add, ih]

theorem sandR_sum {ι : Type} (d b : Nat) (B : Tensor K) (S : Finset ι) (C : ι → Nat → Nat → Nat → Nat → K) (x y : Nat) :
    sandR d b B (fun u i v j => ∑ l ∈ S, C l u i v j) x y = ∑ l ∈ S, sandR d b B (C l) x y := by
  classical
  induction S using Finset.induction_on with
  | empty => simp [sandR]
  | insert l S hl ih => simp only [Finset.sum_insert hl, sandR_add, ih]

theorem EL_sand {ds : List Nat} {P : List (Tensor K)} (h : WF 1 P ds 1) (hd : ∀ d ∈ ds, 0 < d) {k a b : Nat} (hk : k < ds.length)
    (hX : (site P k).dims = [a, ds.getD k 0, b]) (f : Nat → Tensor K) {x y : Nat} (hx : x < b) (hy : y < b) :
    EL ds P (k + 1) f x y = sandL a (ds.getD k 0) (site P k) (fun u i v j => EL ds P k f u v * (f k).get [i, j]) x y := by
  rw [EL_succ h hd hk hX f hx hy]
  unfold sandL oneSite
  refine Finset.sum_congr rfl fun u _ => Finset.sum_congr rfl fun v _ => ?_
  rw [Finset.mul_sum]
  refine Finset.sum_congr rfl fun i _ => ?_
  rw [Finset.mul_sum]
  exact Finset.sum_congr rfl fun j _ => by ring

theorem ER_sand {ds : List Nat} {P : List (Tensor K)} (h : WF 1 P ds 1) (hd : ∀ d ∈ ds, 0 < d) {k a b : Nat} (hk : k < ds.length)
    (hX : (site P k).dims = [a, ds.getD k 0, b]) (f : Nat → Tensor K) {x y : Nat} (hx : x < a) (hy : y < a) :
    ER ds P k f x y = sandR (ds.getD k 0) b (site P k) (fun i u j v => (f k).get [i, j] * ER ds P (k + 1) f u v) x y := by
  rw [ER_succ h hd hk hX f hx hy]
  unfold sandR oneSite
  refine Finset.sum_congr rfl fun u _ => Finset.sum_congr rfl fun v _ => ?_
  rw [Finset.sum_mul]
  refine Finset.sum_congr rfl fun i _ => ?_
  rw [Finset.sum_mul]
  exact Finset.sum_congr rfl fun j _ => by ring

/-- the operator of the block which includes site `k` -/
theorem LA_succ {ds : List Nat} {P : List (Tensor K)} (h : WF 1 P ds 1) (hd : ∀ d ∈ ds, 0 < d) (H : Ham K) {k a b : Nat} (hk : k < ds.length)
    (hX : (site P k).dims = [a, ds.getD k 0, b]) (hl : ∀ j < k, LeftIso (site P j)) {x y : Nat} (hx : x < b) (hy : y < b) :
    LA ds H P (k + 1) x y = sandL a (ds.getD k 0) (site P k)
      (fun u i v j => BL ds H P k u i v j + (if u = v then 1 else 0) * (H.loc k).get [i, j]) x y := by
  have hW : WF 1 (P.take k) (ds.take k) a := by
    obtain ⟨a', b', h1, h2, -⟩ := WF.around h hk
    rw [h2] at hX
    simp only [List.cons.injEq, and_true, true_and] at hX
    rw [← hX.1]; exact h1
  have e1 : ∀ u i v j, u < a → i < ds.getD k 0 → v < a → j < ds.getD k 0 →
      BL ds H P k u i v j + (if u = v then 1 else 0) * (H.loc k).get [i, j] =
      ∑ l ∈ Finset.range (k + 1), EL ds P k (fs ds H l) u v * (fs ds H l k).get [i, j] +
      ∑ l ∈ Finset.range k, ∑ n ∈ Finset.range (H.depth l), EL ds P k (ft ds H l n) u v * (ft ds H l n k).get [i, j] := by
    intro u i v j hu hi hv hj
    rw [← BL_sum H P k u v hi hj, Finset.sum_range_succ, fs_same,
      EL_id h hd hk.le hl (fs ds H k) (fun l hl => fs_id H (by omega)) a hW u v hu hv]
    ring
  rw [sandL_congr e1, sandL_add, sandL_sum, sandL_sum]
  simp only [sandL_sum]
  unfold LA
  rw [Nat.add_sub_cancel]
  congr 1
  · exact Finset.sum_congr rfl fun l _ => EL_sand h hd hk hX _ hx hy
  · exact Finset.sum_congr rfl fun l _ => Finset.sum_congr rfl fun n _ => EL_sand h hd hk hX _ hx hy

theorem RA_succ {ds : List Nat} {P : List (Tensor K)} (h : WF 1 P ds 1) (hd : ∀ d ∈ ds, 0 < d) (H : Ham K) {k a b : Nat} (hk : k < ds.length)
    (hX : (site P k).dims = [a, ds.getD k 0, b]) (hr : ∀ j, k < j → j < ds.length → RightIso (site P j)) {x y : Nat} (hx : x < a) (hy : y < a) :
    RA ds H P k x y = sandR (ds.getD k 0) b (site P k)
      (fun i u j v => BR ds H P k i u j v + (H.loc k).get [i, j] * (if u = v then 1 else 0)) x y := by
  have hW : WF b (P.drop (k + 1)) (ds.drop (k + 1)) 1 := by
    obtain ⟨a', b', h1, h2, h3, -⟩ := WF.around h hk
    rw [h2] at hX
    simp only [List.cons.injEq, and_true, true_and] at hX
    rw [← hX.2]; exact h3
  have e1 : ∀ i u j v, i < ds.getD k 0 → u < b → j < ds.getD k 0 → v < b →
      BR ds H P k i u j v + (H.loc k).get [i, j] * (if u = v then 1 else 0) =
      ∑ l ∈ Finset.Ico k ds.length, (fs ds H l k).get [i, j] * ER ds P (k + 1) (fs ds H l) u v +
      ∑ l ∈ Finset.Ico k (ds.length - 1), ∑ n ∈ Finset.range (H.depth l), (ft ds H l n k).get [i, j] * ER ds P (k + 1) (ft ds H l n) u v := by
    intro i u j v hi hu hj hv
    rw [← BR_sum H P hk u v hi hj, Finset.sum_eq_sum_Ico_succ_bot hk, fs_same,
      ER_id h hd hk (fun j hj hj2 => hr j (by omega) hj2) (fs ds H k) (fun l hl _ => fs_id H (by omega)) b hW u v hu hv]
    ring
  rw [sandR_congr e1, sandR_add, sandR_sum, sandR_sum]
  simp only [sandR_sum]
  unfold RA
  congr 1
  · exact Finset.sum_congr rfl fun l _ => ER_sand h hd hk hX _ hx hy
  · exact Finset.sum_congr rfl fun l _ => Finset.sum_congr rfl fun n _ => ER_sand h hd hk hX _ hx hy

/-- the effective Hamiltonian of site `k` -/
def effM (ds : List Nat) (H : Ham K) (P : List (Tensor K)) (k u i x v j y : Nat) : K :=
  (BL ds H P k u i v j + (if u = v then 1 else 0) * (H.loc k).get [i, j]) * (if x = y then 1 else 0) +
  (if u = v then 1 else 0) * BR ds H P k i x j y

theorem eff_sum {ds : List Nat} {P : List (Tensor K)} (h : WF 1 P ds 1) (hd : ∀ d ∈ ds, 0 < d) (H : Ham K) {k a b : Nat} (hk : k < ds.length)
    (hX : (site P k).dims = [a, ds.getD k 0, b]) (hl : ∀ j < k, LeftIso (site P j)) (hr : ∀ j, k < j → j < ds.length → RightIso (site P j))
    {u i x v j y : Nat} (hu : u < a) (hi : i < ds.getD k 0) (hx : x < b) (hv : v < a) (hj : j < ds.getD k 0) (hy : y < b) :
    ∑ l ∈ Finset.range ds.length, EL ds P k (fs ds H l) u v * (fs ds H l k).get [i, j] * ER ds P (k + 1) (fs ds H l) x y +
    ∑ l ∈ Finset.range (ds.length - 1), ∑ n ∈ Finset.range (H.depth l),
      EL ds P k (ft ds H l n) u v * (ft ds H l n k).get [i, j] * ER ds P (k + 1) (ft ds H l n) x y = effM ds H P k u i x v j y := by
  obtain ⟨a', b', h1, h2, h3, -⟩ := WF.around h hk
  rw [h2] at hX
  simp only [List.cons.injEq, and_true, true_and] at hX
  obtain ⟨rfl, rfl⟩ := hX
  have eL : ∀ f : Nat → Tensor K, (∀ l < k, IsIdentity (ds.getD l 0) (f l)) → EL ds P k f u v = if u = v then 1 else 0 :=
    fun f hf => EL_id h hd hk.le hl f hf a' h1 u v hu hv
  have eR : ∀ f : Nat → Tensor K, (∀ l, k + 1 ≤ l → l < ds.length → IsIdentity (ds.getD l 0) (f l)) → ER ds P (k + 1) f x y = if x = y then 1 else 0 :=
    fun f hf => ER_id h hd hk (fun j hj hj2 => hr j (by omega) hj2) f hf b' h3 x y hx hy
  unfold effM
  rw [← BL_sum H P k u v hi hj, ← BR_sum H P hk x y hi hj]
  rw [← Finset.sum_range_add_sum_Ico _ (show k ≤ ds.length by omega), Finset.sum_eq_sum_Ico_succ_bot hk, fs_same,
    ← Finset.sum_range_add_sum_Ico _ (show k ≤ ds.length - 1 by omega)]
  rw [eL (fs ds H k) (fun l hl => fs_id H (by omega)), eR (fs ds H k) (fun l hl _ => fs_id H (by omega))]
  have s1 : ∑ l ∈ Finset.range k, EL ds P k (fs ds H l) u v * (fs ds H l k).get [i, j] * ER ds P (k + 1) (fs ds H l) x y =
      (∑ l ∈ Finset.range k, EL ds P k (fs ds H l) u v * (fs ds H l k).get [i, j]) * (if x = y then 1 else 0) := by
    rw [Finset.sum_mul]
    refine Finset.sum_congr rfl fun l hl => ?_
    rw [eR _ (fun m hm _ => fs_id H (by have := Finset.mem_range.1 hl; omega))]
  have s2 : ∑ l ∈ Finset.range k, ∑ n ∈ Finset.range (H.depth l), EL ds P k (ft ds H l n) u v * (ft ds H l n k).get [i, j] * ER ds P (k + 1) (ft ds H l n) x y =
      (∑ l ∈ Finset.range k, ∑ n ∈ Finset.range (H.depth l), EL ds P k (ft ds H l n) u v * (ft ds H l n k).get [i, j]) * (if x = y then 1 else 0) := by
    rw [Finset.sum_mul]
    refine Finset.sum_congr rfl fun l hl => ?_
    rw [Finset.sum_mul]
    refine Finset.sum_congr rfl fun n _ => ?_
    rw [eR _ (fun m hm _ => ft_id H n (by have := Finset.mem_range.1 hl; omega) (by have := Finset.mem_range.1 hl; omega))]
  have s3 : ∑ l ∈ Finset.Ico (k + 1) ds.length, EL ds P k (fs ds H l) u v * (fs ds H l k).get [i, j] * ER ds P (k + 1) (fs ds H l) x y =
      (if u = v then 1 else 0) * ∑ l ∈ Finset.Ico (k + 1) ds.length, (fs ds H l k).get [i, j] * ER ds P (k + 1) (fs ds H l) x y := by
    rw [Finset.mul_sum]
    refine Finset.sum_congr rfl fun l hl => ?_
    rw [eL _ (fun m hm => fs_id H (by have := (Finset.mem_Ico.1 hl).1; omega)), mul_assoc]
  have s4 : ∑ l ∈ Finset.Ico k (ds.length - 1), ∑ n ∈ Finset.range (H.depth l), EL ds P k (ft ds H l n) u v * (ft ds H l n k).get [i, j] * ER ds P (k + 1) (ft ds H l n) x y =
      (if u = v then 1 else 0) * ∑ l ∈ Finset.Ico k (ds.length - 1), ∑ n ∈ Finset.range (H.depth l), (ft ds H l n k).get [i, j] * ER ds P (k + 1) (ft ds H l n) x y := by
    rw [Finset.mul_sum]
    refine Finset.sum_congr rfl fun l hl => ?_
    rw [Finset.mul_sum]
    refine Finset.sum_congr rfl fun n _ => ?_
    have := (Finset.mem_Ico.1 hl).1
    rw [eL _ (fun m hm => ft_id H n (by omega) (by omega)), mul_assoc]
  rw [s1, s2, s3, s4]
  ring

/-- the expectation value of the Hamiltonian, in a state with the tensors `Y` and `X` at site `k` -/
theorem ham_at {ds : List Nat} {P : List (Tensor K)} (h : WF 1 P ds 1) (hd : ∀ d ∈ ds, 0 < d) (H : Ham K) {k a b : Nat} (hk : k < ds.length)
    (hP : (site P k).dims = [a, ds.getD k 0, b]) (hl : ∀ j < k, LeftIso (site P j)) (hr : ∀ j, k < j → j < ds.length → RightIso (site P j))
    {Y X : Tensor K} (hY : Y.dims = [a, ds.getD k 0, b]) (hX : X.dims = [a, ds.getD k 0, b]) :
    MPS.inner ds (amp (P.set k Y)) (actOp ds (Props.hamElt ds H) (amp (P.set k X))) =
      ∑ u ∈ Finset.range a, ∑ i ∈ Finset.range (ds.getD k 0), ∑ x ∈ Finset.range b,
      ∑ v ∈ Finset.range a, ∑ j ∈ Finset.range (ds.getD k 0), ∑ y ∈ Finset.range b,
        star (Y.get [u, i, x]) * effM ds H P k u i x v j y * X.get [v, j, y] := by
  have e0 : ∀ f : Nat → Tensor K, MPS.inner ds (amp (P.set k Y)) (actOp ds (tensorOp ds.length f) (amp (P.set k X))) =
      ∑ u ∈ Finset.range a, ∑ i ∈ Finset.range (ds.getD k 0), ∑ x ∈ Finset.range b,
      ∑ v ∈ Finset.range a, ∑ j ∈ Finset.range (ds.getD k 0), ∑ y ∈ Finset.range b,
        star (Y.get [u, i, x]) * (EL ds P k f u v * (f k).get [i, j] * ER ds P (k + 1) f x y) * X.get [v, j, y] := by
    intro f
    rw [expect_at h hd hk hP f hY hX]
    refine Finset.sum_congr rfl fun u _ => ?_
    have : ∀ v ∈ Finset.range a, ∑ x ∈ Finset.range b, ∑ y ∈ Finset.range b, EL ds P k f u v * oneSite (ds.getD k 0) Y (f k) X u v x y * ER ds P (k + 1) f x y =
        ∑ i ∈ Finset.range (ds.getD k 0), ∑ x ∈ Finset.range b, ∑ j ∈ Finset.range (ds.getD k 0), ∑ y ∈ Finset.range b,
        star (Y.get [u, i, x]) * (EL ds P k f u v * (f k).get [i, j] * ER ds P (k + 1) f x y) * X.get [v, j, y] := by
      intro v _
      rw [Finset.sum_comm (s := Finset.range (ds.getD k 0))]
      refine Finset.sum_congr rfl fun x _ => ?_
      have h2 : ∀ y ∈ Finset.range b, EL ds P k f u v * oneSite (ds.getD k 0) Y (f k) X u v x y * ER ds P (k + 1) f x y =
          ∑ i ∈ Finset.range (ds.getD k 0), ∑ j ∈ Finset.range (ds.getD k 0),
          star (Y.get [u, i, x]) * (EL ds P k f u v * (f k).get [i, j] * ER ds P (k + 1) f x y) * X.get [v, j, y] := by
        intro y _
        unfold oneSite
        rw [Finset.mul_sum, Finset.sum_mul]
        refine Finset.sum_congr rfl fun i _ => ?_
        rw [Finset.mul_sum, Finset.sum_mul]
        exact Finset.sum_congr rfl fun j _ => by ring
      rw [Finset.sum_congr rfl h2, Finset.sum_comm]
      exact Finset.sum_congr rfl fun i _ => Finset.sum_comm
    rw [Finset.sum_congr rfl this, Finset.sum_comm]
    exact Finset.sum_congr rfl fun i _ => Finset.sum_comm
  have lin : MPS.inner ds (amp (P.set k Y)) (actOp ds (Props.hamElt ds H) (amp (P.set k X))) =
      ∑ l ∈ Finset.range ds.length, MPS.inner ds (amp (P.set k Y)) (actOp ds (tensorOp ds.length (fs ds H l)) (amp (P.set k X))) +
      ∑ l ∈ Finset.range (ds.length - 1), ∑ n ∈ Finset.range (H.depth l),
        MPS.inner ds (amp (P.set k Y)) (actOp ds (tensorOp ds.length (ft ds H l n)) (amp (P.set k X))) := by
    unfold MPS.inner actOp
    simp only [← sumCfg_sum, ← sumCfg_add]
    refine sumCfg_congr fun s _ => ?_
    simp only [← Finset.mul_sum, ← mul_add]
    congr 1
    simp only [← sumCfg_sum, ← sumCfg_add]
    refine sumCfg_congr fun t _ => ?_
    simp only [← Finset.sum_mul, ← add_mul]
    rfl
  rw [lin]
  simp only [e0]
  have sw : ∀ (S : Finset Nat) (F : Nat → Nat → Nat → Nat → Nat → Nat → Nat → K),
      ∑ l ∈ S, ∑ u ∈ Finset.range a, ∑ i ∈ Finset.range (ds.getD k 0), ∑ x ∈ Finset.range b,
      ∑ v ∈ Finset.range a, ∑ j ∈ Finset.range (ds.getD k 0), ∑ y ∈ Finset.range b, F l u i x v j y =
      ∑ u ∈ Finset.range a, ∑ i ∈ Finset.range (ds.getD k 0), ∑ x ∈ Finset.range b,
      ∑ v ∈ Finset.range a, ∑ j ∈ Finset.range (ds.getD k 0), ∑ y ∈ Finset.range b, ∑ l ∈ S, F l u i x v j y := by
    intro S F
    rw [Finset.sum_comm]; refine Finset.sum_congr rfl fun u _ => ?_
    rw [Finset.sum_comm]; refine Finset.sum_congr rfl fun i _ => ?_
    rw [Finset.sum_comm]; refine Finset.sum_congr rfl fun x _ => ?_
    rw [Finset.sum_comm]; refine Finset.sum_congr rfl fun v _ => ?_
    rw [Finset.sum_comm]; refine Finset.sum_congr rfl fun j _ => ?_
    rw [Finset.sum_comm]
  simp only [sw, ← Finset.sum_add_distrib]
  refine Finset.sum_congr rfl fun u hu => Finset.sum_congr rfl fun i hi => Finset.sum_congr rfl fun x hx => Finset.sum_congr rfl fun v hv =>
    Finset.sum_congr rfl fun j hj => Finset.sum_congr rfl fun y hy => ?_
  rw [← eff_sum h hd H hk hP hl hr (Finset.mem_range.1 hu) (Finset.mem_range.1 hi) (Finset.mem_range.1 hx) (Finset.mem_range.1 hv) (Finset.mem_range.1 hj)
    (Finset.mem_range.1 hy)]
  simp only [← Finset.mul_sum, ← Finset.sum_mul, ← mul_add, ← add_mul]

end MPS.Dmrg
