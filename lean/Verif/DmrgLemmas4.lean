import Verif.DmrgLemmas3

/-! The updates of the matrices kept by the object. -/

set_option linter.unusedSectionVars false
set_option linter.unusedSimpArgs false

namespace MPS.Dmrg
open MPS Tensor Form Minim
variable {K : Type} [RCLike K]

theorem HermF.add {m n : Nat} {F G : Nat → Nat → Nat → Nat → K} (hF : HermF m n F) (hG : HermF m n G) :
    HermF m n fun i x j y => F i x j y + G i x j y := fun i x j y hi hx hj hy => by
  rw [star_add, hF i x j y hi hx hj hy, hG i x j y hi hx hj hy]

theorem star_delta (x y : Nat) : star (if x = y then (1 : K) else 0) = if y = x then 1 else 0 := by
  by_cases h : x = y
  · simp [h]
  · simp [h, Ne.symm h]

theorem eye_get (n i j : Nat) : (eye n : Tensor K).get [i, j] = if i = j then 1 else 0 := by simp [eye]

/-- a Hermitian matrix between two copies of a tensor -/
theorem sandR_herm {d b : Nat} {B : Tensor K} {C : Nat → Nat → Nat → Nat → K} (hC : HermF d b C) (x y : Nat) :
    star (sandR d b B C x y) = sandR d b B C y x := by
  unfold sandR
  simp only [star_sum, star_mul', star_star]
  rw [Finset.sum_comm]
  refine Finset.sum_congr rfl fun u hu => Finset.sum_congr rfl fun v hv => ?_
  rw [Finset.sum_comm]
  refine Finset.sum_congr rfl fun i hi => Finset.sum_congr rfl fun j hj => ?_
  rw [hC _ _ _ _ (Finset.mem_range.1 hj) (Finset.mem_range.1 hv) (Finset.mem_range.1 hi) (Finset.mem_range.1 hu)]
  ring

theorem sandL_herm {a d : Nat} {B : Tensor K} {C : Nat → Nat → Nat → Nat → K} (hC : HermF a d C) (x y : Nat) :
    star (sandL a d B C x y) = sandL a d B C y x := by
  unfold sandL
  simp only [star_sum, star_mul', star_star]
  rw [Finset.sum_comm]
  refine Finset.sum_congr rfl fun u hu => Finset.sum_congr rfl fun v hv => ?_
  rw [Finset.sum_comm]
  refine Finset.sum_congr rfl fun i hi => Finset.sum_congr rfl fun j hj => ?_
  rw [hC _ _ _ _ (Finset.mem_range.1 hv) (Finset.mem_range.1 hj) (Finset.mem_range.1 hu) (Finset.mem_range.1 hi)]
  ring

theorem loc_right_herm {ds : List Nat} {H : Ham K} (hH : HamOk ds H) {k : Nat} (hk : k < ds.length) (b : Nat) :
    HermF (ds.getD k 0) b fun i u j v => (H.loc k).get [i, j] * (if u = v then 1 else 0) := fun i x j y hi _ hj _ => by
  rw [star_mul', hH.locHerm k hk i j hi hj, star_delta]

theorem loc_left_herm {ds : List Nat} {H : Ham K} (hH : HamOk ds H) {k : Nat} (hk : k < ds.length) (a : Nat) :
    HermF a (ds.getD k 0) fun u i v j => (if u = v then 1 else 0) * (H.loc k).get [i, j] := fun i x j y _ hx _ hy => by
  rw [star_mul', hH.locHerm k hk x y hx hy, star_delta]

theorem rightMatrix_spec {ds : List Nat} {P A : List (Tensor K)} (h : WF 1 P ds 1) {H : Ham K} (hH : HamOk ds H) {k a b : Nat} (hk : k < ds.length)
    (hX : (site P k).dims = [a, ds.getD k 0, b]) (hr : ∀ j, k < j → j < ds.length → RightIso (site P j))
    (hA : k + 1 < ds.length → RGood ds H P A (k + 1)) :
    (rightMatrix H P A k).dims = [a, a] ∧ ∀ x y, x < a → y < a →
      (rightMatrix H P A k).get [x, y] = RA ds H P k x y ∧ star (RA ds H P k x y) = RA ds H P k y x := by
  obtain ⟨b1, b2⟩ := blockRight_spec h hH hk hX hr hA
  have hC := b2.add (loc_right_herm hH hk b)
  have hB := ((b1.add (IsBlk.kron2 (hH.loc k hk) (show (eye b : Tensor K).dims = [b, b] from rfl))).congr
    (fun i x j y _ _ _ _ => by rw [eye_get])).herm hC
  have hR := hB.reshape
  unfold rightMatrix
  simp only [dim0_of hX, dim1_of hX, dim2_of hX]
  set M := reshape (ensureHermitian (Tensor.add (blockRight H P A k) (kron2 (H.loc k) (eye b)))) [ds.getD k 0 * b, ds.getD k 0 * b] with hM
  refine ⟨by simp [foldc, fold, nrm, hR.1], fun x y hx hy => ⟨?_, ?_⟩⟩
  · rw [RA_succ h hH.pos H hk hX hr hx hy]
    have e : (fold (foldc (reshape (site P k) [a, ds.getD k 0 * b]) (-1) M 0) (-1) (reshape (site P k) [a, ds.getD k 0 * b]) (-1)).get [x, y] =
        ∑ n ∈ Finset.range (ds.getD k 0 * b), (∑ l ∈ Finset.range (ds.getD k 0 * b), star ((reshape (site P k) [a, ds.getD k 0 * b]).get [x, l]) *
          M.get [l, n]) * (reshape (site P k) [a, ds.getD k 0 * b]).get [y, n] := by
      simp [foldc, fold, nrm, hR.1]
    rw [e]
    unfold sandR
    simp only [sum_range_mul]
    rw [Finset.sum_comm (s := Finset.range b) (t := Finset.range b)]
    refine Finset.sum_congr rfl fun v hv => ?_
    have e2 : ∀ j ∈ Finset.range (ds.getD k 0), (∑ u ∈ Finset.range b, ∑ i ∈ Finset.range (ds.getD k 0),
        star ((reshape (site P k) [a, ds.getD k 0 * b]).get [x, i + ds.getD k 0 * u]) * M.get [i + ds.getD k 0 * u, j + ds.getD k 0 * v]) *
          (reshape (site P k) [a, ds.getD k 0 * b]).get [y, j + ds.getD k 0 * v] =
        ∑ u ∈ Finset.range b, ∑ i ∈ Finset.range (ds.getD k 0), star ((site P k).get [x, i, u]) *
          (BR ds H P k i u j v + (H.loc k).get [i, j] * (if u = v then 1 else 0)) * (site P k).get [y, j, v] := by
      intro j hj
      rw [Finset.sum_mul]
      refine Finset.sum_congr rfl fun u hu => ?_
      rw [Finset.sum_mul]
      refine Finset.sum_congr rfl fun i hi => ?_
      rw [reshape_right hX hx (Finset.mem_range.1 hi) (Finset.mem_range.1 hu), reshape_right hX hy (Finset.mem_range.1 hj) (Finset.mem_range.1 hv),
        hR.2 i u j v (Finset.mem_range.1 hi) (Finset.mem_range.1 hu) (Finset.mem_range.1 hj) (Finset.mem_range.1 hv)]
    rw [Finset.sum_congr rfl e2, Finset.sum_comm]
    exact Finset.sum_congr rfl fun u _ => Finset.sum_comm
  · rw [RA_succ h hH.pos H hk hX hr hx hy, RA_succ h hH.pos H hk hX hr hy hx, sandR_herm hC]

theorem leftMatrix_spec {ds : List Nat} {P A : List (Tensor K)} (h : WF 1 P ds 1) {H : Ham K} (hH : HamOk ds H) {k a b : Nat} (hk : k < ds.length)
    (hX : (site P k).dims = [a, ds.getD k 0, b]) (hl : ∀ j < k, LeftIso (site P j)) (hA : 0 < k → LGood ds H P A (k - 1)) :
    (leftMatrix H P A k).dims = [b, b] ∧ ∀ x y, x < b → y < b →
      (leftMatrix H P A k).get [x, y] = LA ds H P (k + 1) x y ∧ star (LA ds H P (k + 1) x y) = LA ds H P (k + 1) y x := by
  obtain ⟨b1, b2⟩ := blockLeft_spec h hH hk hX hl hA
  have hC := b2.add (loc_left_herm hH hk a)
  have hB := ((b1.add (IsBlk.kron2 (show (eye a : Tensor K).dims = [a, a] from rfl) (hH.loc k hk))).congr
    (fun i x j y _ _ _ _ => by rw [eye_get])).herm hC
  have hR := hB.reshape
  unfold leftMatrix
  simp only [dim0_of hX, dim1_of hX, dim2_of hX]
  set M := reshape (ensureHermitian (Tensor.add (blockLeft H P A k) (kron2 (eye a) (H.loc k)))) [a * ds.getD k 0, a * ds.getD k 0] with hM
  refine ⟨by simp [foldc, fold, mmult, nrm, hR.1], fun x y hx hy => ⟨?_, ?_⟩⟩
  · rw [LA_succ h hH.pos H hk hX hl hx hy]
    have e : (foldc (reshape (site P k) [a * ds.getD k 0, b]) 0 (mmult M (reshape (site P k) [a * ds.getD k 0, b])) 0).get [x, y] =
        ∑ l ∈ Finset.range (a * ds.getD k 0), star ((reshape (site P k) [a * ds.getD k 0, b]).get [l, x]) *
          ∑ n ∈ Finset.range (a * ds.getD k 0), M.get [l, n] * (reshape (site P k) [a * ds.getD k 0, b]).get [n, y] := by
      simp [foldc, fold, mmult, nrm, hR.1]
    rw [e]
    unfold sandL
    simp only [sum_range_mul]
    rw [Finset.sum_comm]
    refine Finset.sum_congr rfl fun u hu => ?_
    have e2 : ∀ i ∈ Finset.range (ds.getD k 0), star ((reshape (site P k) [a * ds.getD k 0, b]).get [u + a * i, x]) *
        (∑ j ∈ Finset.range (ds.getD k 0), ∑ v ∈ Finset.range a, M.get [u + a * i, v + a * j] *
          (reshape (site P k) [a * ds.getD k 0, b]).get [v + a * j, y]) =
        ∑ v ∈ Finset.range a, ∑ j ∈ Finset.range (ds.getD k 0), star ((site P k).get [u, i, x]) *
          (BL ds H P k u i v j + (if u = v then 1 else 0) * (H.loc k).get [i, j]) * (site P k).get [v, j, y] := by
      intro i hi
      simp only [Finset.mul_sum]
      rw [Finset.sum_comm]
      refine Finset.sum_congr rfl fun v hv => Finset.sum_congr rfl fun j hj => ?_
      rw [reshape_left hX (Finset.mem_range.1 hu) (Finset.mem_range.1 hi) hx, reshape_left hX (Finset.mem_range.1 hv) (Finset.mem_range.1 hj) hy,
        hR.2 u i v j (Finset.mem_range.1 hu) (Finset.mem_range.1 hi) (Finset.mem_range.1 hv) (Finset.mem_range.1 hj)]
      ring
    rw [Finset.sum_congr rfl e2, Finset.sum_comm]
  · rw [LA_succ h hH.pos H hk hX hl hx hy, LA_succ h hH.pos H hk hX hl hy hx, sandL_herm hC]

theorem RGood.congr {ds : List Nat} {H : Ham K} {P P' A A' : List (Tensor K)} {j : Nat} (h : RGood ds H P A j) (hlen : P'.length = P.length)
    (hj : j < P.length) (hP : ∀ l, j ≤ l → l < P.length → site P' l = site P l) (hA : site A' j = site A j) : RGood ds H P' A' j := by
  have hd : P'.drop j = P.drop j := drop_ext hlen (fun l h1 h2 => hP l h1 (by omega))
  have hR : ∀ x y, RA ds H P' j x y = RA ds H P j x y := by
    intro x y; unfold RA ER; simp only [hd]
  unfold RGood
  rw [hA, hP j le_rfl hj]
  simp only [hR]
  exact h

theorem LGood.congr {ds : List Nat} {H : Ham K} {P P' A A' : List (Tensor K)} {j : Nat} (h : LGood ds H P A j) (hlen : P'.length = P.length)
    (hj : j < P.length) (hP : ∀ l, l ≤ j → site P' l = site P l) (hA : site A' j = site A j) : LGood ds H P' A' j := by
  have hd : P'.take (j + 1) = P.take (j + 1) := take_ext hlen (by omega) (fun l h1 => hP l (by omega))
  have hR : ∀ x y, LA ds H P' (j + 1) x y = LA ds H P (j + 1) x y := by
    intro x y; unfold LA EL; simp only [hd]
  unfold LGood
  rw [hA, hP j le_rfl]
  simp only [hR]
  exact h

end MPS.Dmrg
