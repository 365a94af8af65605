import Verif.SimplifyLemmas3
import Verif.ObcLemmas4

set_option linter.unusedSectionVars false
set_option linter.unusedSimpArgs false

namespace MPS.Simp
open MPS Tensor Form Minim Obc
variable {K : Type} [RCLike K]

/-! ### the list `A` of the program, with the two empty matrices at the ends -/

/-- `A` with an empty matrix on either side -/
def ext (A : List (Tensor K)) : List (Tensor K) := Tensor.empty :: (A ++ [Tensor.empty])

theorem ext_length (A : List (Tensor K)) : (ext A).length = A.length + 2 := by simp [ext]

theorem ext_get {A : List (Tensor K)} {j : Nat} (hj : j < A.length) : (ext A).getD (j + 1) Tensor.empty = A.getD j Tensor.empty := by
  simp [ext, List.getElem?_append, hj]

theorem ext_get_if {A : List (Tensor K)} {j : Nat} (hj : j ≤ A.length) :
    (ext A).getD (j + 1) Tensor.empty = if j < A.length then A.getD j Tensor.empty else Tensor.empty := by
  split_ifs with h
  · exact ext_get h
  · obtain rfl : j = A.length := by omega
    simp [ext]

theorem ext_set {A : List (Tensor K)} {j : Nat} (hj : j < A.length) (M : Tensor K) : ext (A.set j M) = (ext A).set (j + 1) M := by
  simp [ext, List.set_append, hj]

theorem ext_set_get {A : List (Tensor K)} {j : Nat} (hj : j < A.length) (M : Tensor K) :
    (ext (A.set j M)).getD (j + 1) Tensor.empty = M := by
  rw [ext_get (by simpa using hj), getD_set_eq _ hj]

theorem lin_transfer {M : Tensor K} {P q : List (Tensor K)} {ds : List Nat} (hM : IsTransfer M P q ds 1 1 1 1) (hP : WF 1 P ds 1)
    (hq : WF 1 q ds 1) (hne : P ≠ []) (hne' : q ≠ []) : M.lin 0 = MPS.inner ds (amp P) (amp q) := by
  rw [← propClose1_transfer hM hP hq hne hne']
  have h0 : M.dim 0 = 1 := by simp [dim, hM.1]
  have h1 : M.dim 1 = 1 := by simp [dim, hM.1]
  have h2 : M.dim 2 = 1 := by simp [dim, hM.1]
  have h3 : M.dim 3 = 1 := by simp [dim, hM.1]
  rw [lin_zero_scalar (A := propClose1 M) (by simp [propClose1, trace])]
  simp only [propClose1, trace, h0, h1, h2, h3, reshape_dims, List.getD_cons_zero, List.nil_append]
  simp [lin, hM.1, reshape, unflat, flat]

theorem Caches.overlapRight {ds : List Nat} {q P m : List (Tensor K)} {lo hi : Nat} (h : Caches ds q P m lo hi) (hlo : ds.length ≤ lo)
    (h1 : 0 < ds.length) (hP : WF 1 P ds 1) (hq : WF 1 q ds 1) :
    (m.getD ds.length Tensor.empty).lin 0 = MPS.inner ds (amp P) (amp q) := by
  have lP := hP.length
  have lq := hq.length
  have hl := h.lefts ds.length hlo le_rfl
  rw [List.take_of_length_le (by omega), List.take_of_length_le (by omega), List.take_of_length_le (by omega)] at hl
  rcases hl with ⟨rfl, -⟩ | ⟨-, hl⟩
  · simp at h1
  · refine lin_transfer (hl 1 1 hP hq) hP hq ?_ ?_ <;> rintro rfl <;> simp at * <;> omega

theorem Caches.overlapLeft {ds : List Nat} {q P m : List (Tensor K)} {lo : Nat} (h : Caches ds q P m lo 0)
    (h1 : 0 < ds.length) (hP : WF 1 P ds 1) (hq : WF 1 q ds 1) :
    (m.getD 1 Tensor.empty).lin 0 = MPS.inner ds (amp P) (amp q) := by
  have lP := hP.length
  have lq := hq.length
  have hl := h.rights 0 le_rfl (by omega)
  simp only [List.drop_zero, Nat.zero_add] at hl
  rcases hl with ⟨rfl, -⟩ | ⟨-, hl⟩
  · simp at h1
  · refine lin_transfer (hl 1 1 hP hq) hP hq ?_ ?_ <;> rintro rfl <;> simp at * <;> omega

/-! ### one sweep of simplify(&P, Q, ...) -/

/-- what a sweep leaves behind -/
structure Done (ds : List Nat) (q P : List (Tensor K)) (s : Int) (y : Sweep K) : Prop where
  swept : Swept ds (amp q) P s y.P
  alen : y.A.length = ds.length
  caches : Caches ds q y.P (ext y.A) (if s < 0 then 0 else ds.length) (if s < 0 then 0 else ds.length)
  last : y.Pk = site y.P (centreOf ds.length s)
  scp : y.M.lin 0 = MPS.inner ds (amp y.P) (amp q)

theorem sweepRight_spec {svd : Tensor K → SvdRes K} (hsvd : GoodSvd svd) {ds : List Nat} {q P0 : List (Tensor K)} (h0 : WF 1 P0 ds 1)
    (hq : WF 1 q ds 1) (h1 : 1 < ds.length) (n : Nat) : ∀ (k a b : Nat) (x : Sweep K), k + n + 1 = ds.length → x.A.length = ds.length →
      Caches ds q x.P (ext x.A) k (k + 1) → x.M = (ext x.A).getD k Tensor.empty →
      RInv ds (amp q) P0 x.P k a b (nextProjector ((ext x.A).getD k Tensor.empty) ((ext x.A).getD (k + 2) Tensor.empty) (site q k)) →
      Done ds q P0 1 (sweepRight svd q (n + 1) k x) := by
  induction n with
  | zero =>
    intro k a b x hk hA hc hM hi
    have hl := hi.gap.len
    have hql := hq.length
    have hf := hi.finish (by omega)
    have hT := (proj_one hi.gap hq hc).2 h1
    have hMr : (if k + 1 < x.P.length then x.A.getD (k + 1) Tensor.empty else Tensor.empty) = (ext x.A).getD (k + 2) Tensor.empty := by
      rw [ext_get_if (by omega)]; congr 1; rw [hl, hA]
    simp only [sweepRight]
    rw [hMr, hM, hT, if_neg (by omega)]
    set T := nextProjector ((ext x.A).getD k Tensor.empty) ((ext x.A).getD (k + 2) Tensor.empty) (site q k) with hTd
    have hc' := hc.stepRight (P' := x.P.set k T) (by omega) hql (by simpa using hl) (take_set_ge _ _ le_rfl) (drop_set_lt _ _ (by omega))
    rw [site_set_self (by omega), ← ext_set (by omega)] at hc'
    refine ⟨hf, by simpa using hA, ?_, ?_, ?_⟩
    · simp only [show ¬ (1 : Int) < 0 by decide, if_false]
      exact (hc'.mono (by omega) le_rfl).turnLeft (by simpa using hl) hql
    · simp only [centreOf, show ¬ (1 : Int) < 0 by decide, if_false]
      rw [show ds.length - 1 = k by omega, site_set_self (by omega)]
    · have := hc'.overlapRight (by omega) (by omega) hf.wf hq
      rw [← this, show ds.length = k + 1 by omega, ext_get (by simp; omega), getD_set_eq _ (by omega)]
  | succ n ih =>
    intro k a b x hk hA hc hM hi
    have hl := hi.gap.len
    have hql := hq.length
    have hT := (proj_one hi.gap hq hc).2 h1
    have hMr : (if k + 1 < x.P.length then x.A.getD (k + 1) Tensor.empty else Tensor.empty) = (ext x.A).getD (k + 2) Tensor.empty := by
      rw [ext_get_if (by omega)]; congr 1; rw [hl, hA]
    rw [sweepRight]
    rw [hMr, hM, hT, if_pos (by omega)]
    set T := nextProjector ((ext x.A).getD k Tensor.empty) ((ext x.A).getD (k + 2) Tensor.empty) (site q k) with hTd
    obtain ⟨g, g0, gb, U1, U2, G, G1, G2⟩ := normalizeThis_right hsvd hi.proj.dims hi.gap.pa hi.gap.pd hi.gap.pb
    set U := normalizeThis svd T 1 with hU
    obtain ⟨c, gap', Y, Y1, Y2⟩ := absorb_right hi.gap (by omega) hi.proj.dims U1 g0 G1 G2
    have ht : (x.P.set k U).take k = x.P.take k := take_set_ge _ _ le_rfl
    have hd : (x.P.set k U).drop (k + 2) = x.P.drop (k + 2) := drop_set_lt _ _ (by omega)
    have hc' := hc.stepRight (P' := x.P.set k U) (by omega) hql (by simpa using hl) ht hd
    rw [site_set_self (by omega), ← ext_set (by omega)] at hc'
    refine ih (k + 1) g c _ (by omega) (by simpa using hA) hc' ?_ ?_
    · exact (ext_set_get (by omega) _).symm
    · exact hi.step h0 (by omega) ht hd (by rw [site_set_self (by omega)]; exact U2) gb gap' Y1 Y2 (proj_one gap' hq hc').1

theorem sweepLeft_spec {svd : Tensor K → SvdRes K} (hsvd : GoodSvd svd) {ds : List Nat} {q P0 : List (Tensor K)} (h0 : WF 1 P0 ds 1)
    (hq : WF 1 q ds 1) (h1 : 1 < ds.length) (k : Nat) : ∀ (a b : Nat) (x : Sweep K), k < ds.length → x.A.length = ds.length →
      Caches ds q x.P (ext x.A) k (k + 1) → x.M = (ext x.A).getD (k + 2) Tensor.empty →
      LSInv ds (amp q) P0 x.P k a b (nextProjector ((ext x.A).getD k Tensor.empty) ((ext x.A).getD (k + 2) Tensor.empty) (site q k)) →
      Done ds q P0 (-1) (sweepLeft svd q (k + 1) x) := by
  induction k with
  | zero =>
    intro a b x hk hA hc hM hi
    have hl := hi.gap.len
    have hql := hq.length
    have hf := hi.finish
    have hT := (proj_one hi.gap hq hc).2 h1
    have hMl : (if 0 > 0 then x.A.getD (0 - 1) Tensor.empty else Tensor.empty) = (ext x.A).getD 0 Tensor.empty := by
      simp [ext]
    simp only [sweepLeft]
    rw [hMl, hM, hT, if_neg (by omega)]
    set T := nextProjector ((ext x.A).getD 0 Tensor.empty) ((ext x.A).getD (0 + 2) Tensor.empty) (site q 0) with hTd
    have hc' := hc.stepLeft (P' := x.P.set 0 T) (by omega) hql (by simpa using hl) (take_set_ge _ _ (by omega)) (drop_set_lt _ _ (by omega))
    rw [site_set_self (by omega), ← ext_set (by omega)] at hc'
    refine ⟨hf, by simpa using hA, ?_, ?_, ?_⟩
    · simp only [show (-1 : Int) < 0 by decide, if_true]
      exact hc'
    · simp only [centreOf, show (-1 : Int) < 0 by decide, if_true]
      rw [site_set_self (by omega)]
    · have := hc'.overlapLeft (by omega) hf.wf hq
      rw [← this]
      exact (congrArg (fun t => t.lin 0) (ext_set_get (A := x.A) (j := 0) (by omega) _)).symm
  | succ k ih =>
    intro a b x hk hA hc hM hi
    have hl := hi.gap.len
    have hql := hq.length
    have hT := (proj_one hi.gap hq hc).2 h1
    have hMl : (if k + 1 > 0 then x.A.getD (k + 1 - 1) Tensor.empty else Tensor.empty) = (ext x.A).getD (k + 1) Tensor.empty := by
      rw [if_pos (by omega), ext_get (by omega)]; rfl
    rw [sweepLeft]
    rw [hMl, hM, hT, if_pos (by omega)]
    set T := nextProjector ((ext x.A).getD (k + 1) Tensor.empty) ((ext x.A).getD (k + 1 + 2) Tensor.empty) (site q (k + 1)) with hTd
    obtain ⟨g, g0, ga, U1, U2, G, G1, G2⟩ := normalizeThis_left hsvd hi.proj.dims hi.gap.pa hi.gap.pd hi.gap.pb
    set U := normalizeThis svd T (-1) with hU
    obtain ⟨c, gap', Y, Y1, Y2⟩ := absorb_left hi.gap hi.proj.dims U1 g0 G1 G2
    have ht : (x.P.set (k + 1) U).take k = x.P.take k := take_set_ge _ _ (by omega)
    have hd : (x.P.set (k + 1) U).drop (k + 2) = x.P.drop (k + 2) := drop_set_lt _ _ (by omega)
    have hc' := hc.stepLeft (P' := x.P.set (k + 1) U) (by omega) hql (by simpa using hl) ht hd
    rw [site_set_self (by omega), ← ext_set (by omega), Nat.add_sub_cancel] at hc'
    refine ih c g _ (by omega) (by simpa using hA) hc' ?_ ?_
    · exact (ext_set_get (by omega) _).symm
    · exact hi.step h0 ht hd (by rw [site_set_self (by omega)]; exact U2) ga gap' Y1 Y2 (proj_one gap' hq hc').1

/-- the sweep in the direction `s` -/
noncomputable def oneSweep (svd : Tensor K → SvdRes K) (q P A : List (Tensor K)) (s : Int) : Sweep K :=
  if s > 0 then sweepRight svd q P.length 0 ⟨P, A, Tensor.empty, Tensor.empty⟩
  else sweepLeft svd q P.length ⟨P, A, Tensor.empty, Tensor.empty⟩

/-- the caches needed to start a sweep in the direction `s` -/
def Ready (ds : List Nat) (q P A : List (Tensor K)) (s : Int) : Prop :=
  A.length = ds.length ∧ Caches ds q P (ext A) (if s > 0 then 0 else ds.length) (if s > 0 then 0 else ds.length)

theorem Done.ready {ds : List Nat} {q P : List (Tensor K)} {s : Int} {y : Sweep K} (h : Done ds q P s y) (hs : s = 1 ∨ s = -1) :
    Ready ds q y.P y.A (-s) := by
  refine ⟨h.alen, ?_⟩
  have := h.caches
  rcases hs with rfl | rfl
  · simpa using this
  · simpa using this

theorem oneSweep_spec {svd : Tensor K → SvdRes K} (hsvd : GoodSvd svd) {ds : List Nat} {q P A : List (Tensor K)} (h0 : WF 1 P ds 1)
    (hq : WF 1 q ds 1) (h1 : 1 < ds.length) {s : Int} (hs : s = 1 ∨ s = -1) (hr : Ready ds q P A s) : Done ds q P s (oneSweep svd q P A s) := by
  have hl := h0.length
  have hql := hq.length
  obtain ⟨hA, hc⟩ := hr
  rcases hs with rfl | rfl
  · simp only [gt_iff_lt, show (0 : Int) < 1 by decide, if_true] at hc
    obtain ⟨a, b, g, d⟩ := Gap.of_WF h0 (k := 0) (by omega)
    have hc1 : Caches ds q P (ext A) 0 (0 + 1) := hc.mono le_rfl (by omega)
    simp only [oneSweep, gt_iff_lt, show (0 : Int) < 1 by decide, if_true]
    rw [show P.length = (P.length - 1) + 1 by omega]
    exact sweepRight_spec hsvd h0 hq h1 (P.length - 1) 0 a b ⟨P, A, Tensor.empty, Tensor.empty⟩ (by omega) hA hc1 (by simp [ext])
      (RInv.start g d (proj_one g hq hc1).1)
  · simp only [gt_iff_lt, show ¬ (0 : Int) < -1 by decide, if_false] at hc
    obtain ⟨a, b, g, d⟩ := Gap.of_WF h0 (k := ds.length - 1) (by omega)
    have hc1 : Caches ds q P (ext A) (ds.length - 1) (ds.length - 1 + 1) := hc.mono (by omega) (by omega)
    simp only [oneSweep, gt_iff_lt, show ¬ (0 : Int) < -1 by decide, if_false]
    rw [show P.length = (ds.length - 1) + 1 by omega]
    refine sweepLeft_spec hsvd h0 hq h1 (ds.length - 1) a b ⟨P, A, Tensor.empty, Tensor.empty⟩ (by omega) hA hc1 ?_
      (LSInv.start (by omega) g d (proj_one g hq hc1).1)
    have := hc1.last
    rw [show ds.length - 1 + 2 = ds.length + 1 by omega, this]

/-! ### the caches before the first sweep -/

theorem cacheRight_spec {ds : List Nat} {q P : List (Tensor K)} (hl : P.length = ds.length) (hql : q.length = ds.length) (k : Nat) :
    ∀ (Mr : Tensor K) (A : List (Tensor K)), k ≤ ds.length → A.length = ds.length → Mr = (ext A).getD (k + 1) Tensor.empty →
      Caches ds q P (ext A) 0 k → (cacheRight P q k Mr A).length = ds.length ∧ Caches ds q P (ext (cacheRight P q k Mr A)) 0 0 := by
  induction k with
  | zero => intro Mr A _ hA _ hc; exact ⟨hA, hc⟩
  | succ k ih =>
    intro Mr A hk hA hM hc
    simp only [cacheRight]
    have h0 : ∀ j ≤ 0, j ≤ ds.length → LeftOk ((ext A).getD j Tensor.empty) (P.take j) (q.take j) (ds.take j) := hc.lefts
    refine ih _ _ (by omega) (by simpa using hA) ?_ ?_
    · rw [ext_get (by simp; omega), getD_set_eq _ (by omega)]
    · rw [ext_set (by omega), hM]
      have hlen := hc.len
      refine ⟨by simpa using hlen, ?_, ?_, ?_, ?_⟩
      · rw [getD_set_ne _ (by omega)]; exact hc.start
      · rw [getD_set_ne _ (by omega)]; exact hc.last
      · intro j hj hj2
        rw [getD_set_ne _ (by omega)]; exact hc.lefts j hj hj2
      · intro j hj hjN
        by_cases hjk : j = k
        · subst hjk
          rw [getD_set_eq _ (by omega), drop_site (K := P) (by omega), drop_site (K := q) (by omega), List.drop_eq_getElem_cons (show j < ds.length by omega)]
          exact (hc.rights (j + 1) (by omega) (by omega)).step
        · rw [getD_set_ne _ (by omega)]
          exact hc.rights j (by omega) hjN

theorem cacheLeft_spec {ds : List Nat} {q P : List (Tensor K)} (hl : P.length = ds.length) (hql : q.length = ds.length) (n : Nat) :
    ∀ (k : Nat) (Ml : Tensor K) (A : List (Tensor K)), k + n = ds.length → A.length = ds.length → Ml = (ext A).getD k Tensor.empty →
      Caches ds q P (ext A) k ds.length → (cacheLeft P q n k Ml A).length = ds.length ∧
        Caches ds q P (ext (cacheLeft P q n k Ml A)) ds.length ds.length := by
  induction n with
  | zero =>
    intro k Ml A hk hA _ hc
    obtain rfl : k = ds.length := by omega
    exact ⟨hA, hc⟩
  | succ n ih =>
    intro k Ml A hk hA hM hc
    simp only [cacheLeft]
    refine ih _ _ _ (by omega) (by simpa using hA) ?_ ?_
    · rw [ext_get (by simp; omega), getD_set_eq _ (by omega)]
    · rw [ext_set (by omega), hM]
      have hlen := hc.len
      refine ⟨by simpa using hlen, ?_, ?_, ?_, ?_⟩
      · rw [getD_set_ne _ (by omega)]; exact hc.start
      · rw [getD_set_ne _ (by omega)]; exact hc.last
      · intro j hj hjN
        by_cases hjk : j = k + 1
        · subst hjk
          rw [getD_set_eq _ (by omega), take_succ_site (by omega), take_succ_site (by omega), List.take_succ_eq_append_getElem (by omega)]
          exact (hc.lefts k (by omega) (by omega)).step
        · rw [getD_set_ne _ (by omega)]
          exact hc.lefts j (by omega) hjN
      · intro j hj hj2
        obtain rfl : j = ds.length := by omega
        rw [getD_set_ne _ (by omega)]; exact hc.rights _ le_rfl le_rfl

theorem ext_replicate (N : Nat) (j : Nat) : (ext (List.replicate N (Tensor.empty : Tensor K))).getD j Tensor.empty = Tensor.empty := by
  have : ext (List.replicate N (Tensor.empty : Tensor K)) = List.replicate (N + 2) Tensor.empty := by
    simp only [ext]
    rw [← List.replicate_succ', ← List.replicate_succ]
  rw [this]
  rw [List.getD_eq_getElem?_getD, List.getElem?_replicate]
  split_ifs <;> rfl

theorem start_ready {ds : List Nat} {q P : List (Tensor K)} (h0 : WF 1 P ds 1) (hq : WF 1 q ds 1) {s : Int} (hs : s = 1 ∨ s = -1) :
    Ready ds q P (if s > 0 then cacheRight P q P.length Tensor.empty (List.replicate P.length Tensor.empty)
      else cacheLeft P q P.length 0 Tensor.empty (List.replicate P.length Tensor.empty)) s := by
  have hl := h0.length
  have hql := hq.length
  rw [hl]
  have base : Caches ds q P (ext (List.replicate ds.length Tensor.empty)) 0 ds.length := by
    refine ⟨by simp [ext], by simp [ext], ext_replicate _ _, fun j hj _ => ?_, fun j hj hj2 => ?_⟩
    · obtain rfl : j = 0 := by omega
      exact Or.inl ⟨by simp, by simp [ext]⟩
    · obtain rfl : j = ds.length := by omega
      exact Or.inl ⟨by simp, ext_replicate _ _⟩
  rcases hs with rfl | rfl
  · simp only [gt_iff_lt, show (0 : Int) < 1 by decide, if_true, Ready]
    exact cacheRight_spec hl hql ds.length _ _ le_rfl (by simp) (ext_replicate _ _).symm base
  · simp only [gt_iff_lt, show ¬ (0 : Int) < -1 by decide, if_false, Ready]
    exact cacheLeft_spec hl hql ds.length 0 _ _ (by omega) (by simp) (ext_replicate _ _).symm base

end MPS.Simp
