import Verif.MPOBuild3
import Verif.MPSLemmas2

set_option linter.unusedSectionVars false
set_option linter.unusedSimpArgs false

/-! # Helper lemmas: products, matrices and adjoints of MPOs -/

namespace MPS
open Tensor
variable {R : Type} [CommRing R]

theorem dim_of4 {A : Tensor R} {a b c d : Nat} (h : A.dims = [a, b, c, d]) :
    A.dim 0 = a ∧ A.dim 1 = b ∧ A.dim 2 = c ∧ A.dim 3 = d := by simp [dim, h, nrm]
theorem dim_of5 {A : Tensor R} {a b c d e : Nat} (h : A.dims = [a, b, c, d, e]) :
    A.dim 0 = a ∧ A.dim 1 = b ∧ A.dim 2 = c ∧ A.dim 3 = d ∧ A.dim 4 = e := by simp [dim, h, nrm]
theorem dim_of6 {A : Tensor R} {a b c d e f : Nat} (h : A.dims = [a, b, c, d, e, f]) :
    A.dim 0 = a ∧ A.dim 1 = b ∧ A.dim 2 = c ∧ A.dim 3 = d ∧ A.dim 4 = e ∧ A.dim 5 = f := by simp [dim, h, nrm]

theorem opsFor_get {ds : List Nat} {H : List (Tensor R)} (hH : OpsFor ds H) {j : Nat} (hj : j < ds.length) :
    (site H j).dims = [ds.getD j 0, ds.getD j 0] := by
  have hHl : H.length = ds.length := (List.Forall₂.length_eq hH).symm
  have := List.Forall₂.get hH (i := j) hj (by omega)
  simpa [site, List.getElem?_eq_getElem hj, List.getElem?_eq_getElem (show j < H.length by omega)] using this

/-! ### local_Hamiltonian_mpo -/

theorem localHam_chan {L i : Nat} {h : Tensor R} {d : Nat} (hL : 2 ≤ L) (hi : i < L) (hh : h.dims = [d, d]) :
    ∃ dl dr, (clearSite L i d : Tensor R).dims = [dl, d, d, dr] ∧
    ChanT false false (if i + 1 = L then 0 else 1) (fun _ _ => 0) (fun _ _ => 0) (fun _ _ => 0)
      (fun x y => h.get [x, y]) (clearSite L i d) (localHamSite L i h) dl d dr := by
  have e0 : h.dim 0 = d := by simp [dim, hh]
  rcases Nat.eq_zero_or_pos i with h0 | h0
  · subst h0
    have h1 : ¬ (0 + 1 = L) := by omega
    refine ⟨1, 2, by simp [clearSite, zeros, setSlice], ?_, ?_, by simp, by simp, by simp⟩
    · simp [localHamSite, h1, e0]
    · intro a x y b ha hb hx hy
      obtain rfl : a = 0 := by omega
      simp only [localHamSite, clearSite, if_true, h1, if_false, List.set_cons_zero, setSlice_get, e0, true_and]
      by_cases hb0 : b = 0
      · subst hb0; simp
      · obtain rfl : b = 1 := by omega
        simp [zeros]
  · by_cases hl : i + 1 = L
    · refine ⟨2, 1, by simp [clearSite, zeros, setSlice, show i ≠ 0 by omega, show ¬ i + 1 < L by omega], ?_, ?_,
        by simp, by simp, by simp⟩
      · simp [localHamSite, hl, show i ≠ 0 by omega, dim, setSlice, zeros, hh]
      · intro a x y b ha hb hx hy
        obtain rfl : b = 0 := by omega
        simp only [localHamSite, clearSite, if_neg (show ¬ i = 0 by omega), if_neg (show ¬ i + 1 < L by omega), hl,
          if_true, List.set_cons_succ, List.set_cons_zero, setSlice_get, e0]
        by_cases ha0 : a = 0
        · subst ha0; simp [zeros, setSlice]
        · obtain rfl : a = 1 := by omega
          simp [zeros, setSlice]
    · refine ⟨2, 2, by simp [clearSite, zeros, setSlice, show i ≠ 0 by omega, show i + 1 < L by omega], ?_, ?_,
        by simp, by simp, by simp⟩
      · simp [localHamSite, hl, show i ≠ 0 by omega, dim, setSlice, zeros, hh]
      · intro a x y b ha hb hx hy
        simp only [localHamSite, clearSite, if_neg (show ¬ i = 0 by omega), if_pos (show i + 1 < L by omega), hl,
          if_false, setSlice_get, e0]
        have ha' : a = 0 ∨ a = 1 := by omega
        have hb' : b = 0 ∨ b = 1 := by omega
        rcases ha' with rfl | rfl <;> rcases hb' with rfl | rfl <;> simp [zeros]

theorem add_all_local {O O' : List (Tensor R)} {ds : List Nat} {h : Nat → Tensor R} (hO : HInv ds O)
    (hlen : O'.length = O.length)
    (hch : ∀ j, j < O.length → ChanT false false (if j + 1 = O.length then 0 else 1)
      (fun _ _ => 0) (fun _ _ => 0) (fun _ _ => 0) (fun x y => (h j).get [x, y]) (site O j) (site O' j)
      ((site O j).dim 0) ((site O j).dim 1) ((site O j).dim 3)) :
    HInv ds O' ∧ ∀ s t, IsCfg ds s → IsCfg ds t →
      opElt O' s t = opElt O s t + ∑ k ∈ Finset.range ds.length,
        tensorOp ds.length (fun j => if j = k then h j else eye (ds.getD j 0)) s t := by
  have := chan_add (op := fun _ => false) (X := fun _ _ _ => 0) (Y := fun _ _ _ => 0)
    (S := fun _ _ _ => 0) (Z := fun j x y => (h j).get [x, y]) hO hlen rfl rfl hch
  refine ⟨this.1, fun s t hs ht => ?_⟩
  have hl : s.length = t.length := by rw [hs.length, ht.length]
  rw [this.2 s t hs ht, chT_closed (st := 0) (en := 0) (fun k => by simp) 0 s t hl (by omega)]
  congr 1
  simp only [Finset.Ico_eq_empty_of_le (Nat.zero_le _), Finset.sum_empty, zero_add]
  rw [hs.length, Finset.range_eq_Ico]
  refine Finset.sum_congr rfl fun k _ => ?_
  exact prodFrom_tensorOp hs ht fun j x y _ => by
    by_cases hj : j = k <;> simp [oneOp, hj, eye_get]

theorem localHamiltonianMPO_spec {H : List (Tensor R)} {ds : List Nat} (hH : OpsFor ds H) (h2 : 2 ≤ ds.length)
    (hd : ∀ d ∈ ds, 0 < d) :
    ∃ O, localHamiltonianMPO H = some O ∧ HInv ds O ∧ ∀ s t, IsCfg ds s → IsCfg ds t →
      opElt O s t = ∑ k ∈ Finset.range ds.length,
        tensorOp ds.length (fun j => if j = k then site H k else eye (ds.getD j 0)) s t := by
  have hHl : H.length = ds.length := (List.Forall₂.length_eq hH).symm
  have hHs : ∀ j, j < ds.length → (site H j).dims = [ds.getD j 0, ds.getD j 0] := by
    intro j hj
    have := List.Forall₂.get hH (i := j) hj (by omega)
    simpa [site, List.getElem?_eq_getElem hj, List.getElem?_eq_getElem (show j < H.length by omega)] using this
  obtain ⟨O0, g1, g2, g3⟩ := newMPO_spec (R := R) h2 hd
  rw [newMPO, if_neg (by omega), Option.some.injEq] at g1
  refine ⟨H.mapIdx fun i h => localHamSite H.length i h, by rw [localHamiltonianMPO, if_neg (by omega)], ?_⟩
  have hl0 := g2.length
  have := add_all_local (O' := H.mapIdx fun i h => localHamSite H.length i h) (h := fun j => site H j) g2
    (by simp; omega) ?_
  · refine ⟨this.1, fun s t hs ht => ?_⟩
    rw [this.2 s t hs ht, g3, zero_add]
    refine Finset.sum_congr rfl fun k _ => ?_
    congr 1
    funext j
    by_cases hj : j = k <;> simp [hj]
  · intro j hj
    have hsite : site O0 j = clearSite ds.length j (ds.getD j 0) := by
      rw [← g1]
      have : j < ds.length := by omega
      simp [site, this]
    rw [site_mapIdx _ (by omega), hsite]
    obtain ⟨dl, dr, k1, k2⟩ := localHam_chan (L := ds.length) (i := j) h2 (by omega) (hHs j (by omega))
    obtain ⟨q0, q1, _, q3⟩ := dim_of4 k1
    rw [q0, q1, q3, hHl, hl0]
    exact k2

/-! ### apply -/

theorem applySite_dims {O A : Tensor R} {c d c' a a' : Nat} (hO : O.dims = [c, d, d, c']) (hA : A.dims = [a, d, a']) :
    (applySite O A).dims = [c * a, d, a' * c'] := by
  have hB : (foldin O 2 A 1).dims = [a, c, d, c', a'] := by simp [foldin, hO, hA]
  obtain ⟨q0, q1, q2, q3, q4⟩ := dim_of5 hB
  simp only [applySite, reshape_dims, q0, q1, q2, q3, q4]

theorem applySite_get {O A : Tensor R} {c d c' a a' : Nat} (hO : O.dims = [c, d, d, c']) (hA : A.dims = [a, d, a'])
    {x y z w i : Nat} (hx : x < c) (hy : y < a) (hz : z < c') (hw : w < a') (hi : i < d) :
    (applySite O A).get [x + c * y, i, z + c' * w]
      = ∑ k ∈ Finset.range d, O.get [x, i, k, z] * A.get [y, k, w] := by
  have hB : (permute (foldin O 2 A 1) 0 1).dims = [c, a, d, c', a'] := by
    simp [foldin, permute, swapIdx, hO, hA]
  have hD : applySite O A = reshape (permute (foldin O 2 A 1) 0 1) [c * a, d, a' * c'] := by
    have hB : (foldin O 2 A 1).dims = [a, c, d, c', a'] := by simp [foldin, hO, hA]
    obtain ⟨q0, q1, q2, q3, q4⟩ := dim_of5 hB
    simp only [applySite, q0, q1, q2, q3, q4]
  rw [hD, reshape_get (idx := [x, y, i, z, w])]
  · simp [foldin, permute, swapIdx, hO, hA]
  · rw [hB]; exact .cons hx (.cons hy (.cons hi (.cons hz (.cons hw .nil))))
  · rw [hB]; simp [flat]; ring

theorem WFO.length {a b : Nat} {O : List (Tensor R)} {ds : List Nat} (h : WFO a O ds b) :
    O.length = ds.length := by
  induction h with
  | nil => rfl
  | cons _ _ _ _ _ ih => simp [ih]

theorem WFO.pos_right {a b : Nat} {O : List (Tensor R)} {ds : List Nat} (h : WFO a O ds b) (ha : 0 < a) : 0 < b := by
  induction h with
  | nil => exact ha
  | cons _ _ _ h4 _ ih => exact ih h4

theorem apply_WF {c c' a a' : Nat} {O ψ : List (Tensor R)} {ds : List Nat} (hO : WFO c O ds c') (hψ : WF a ψ ds a') :
    WF (c * a) (List.zipWith applySite O ψ) ds (c' * a') := by
  induction hO generalizing a ψ with
  | nil c => cases hψ; exact WF.nil _
  | cons h1 h2 h3 h4 _ ih =>
    cases hψ with
    | cons g1 g2 g3 g4 g5 =>
      refine WF.cons (applySite_dims h1 g1) (Nat.mul_pos h2 g2) h3 (Nat.mul_pos g4 h4) ?_
      rw [Nat.mul_comm]
      exact ih g5

theorem apply_path {c c' a a' : Nat} {O ψ : List (Tensor R)} {ds : List Nat} (hO : WFO c O ds c') (hψ : WF a ψ ds a')
    {s : List Nat} (hs : IsCfg ds s) {x y z w : Nat} (hx : x < c) (hy : y < a) (hz : z < c') (hw : w < a') :
    path (List.zipWith applySite O ψ) s (x + c * y) (z + c' * w)
      = sumCfg ds (fun t => opPath O s t x z * path ψ t y w) := by
  induction hO generalizing a ψ s x y with
  | nil c =>
    cases hψ
    cases hs
    simp only [List.zipWith_nil_left, path_nil, sumCfg, opPath_nil]
    by_cases h1 : x = z
    · subst h1
      have : c ≠ 0 := by omega
      simp [this]
    · have : x + c * y ≠ z + c * w := by
        intro h
        apply h1
        have := congrArg (· % c) h
        simpa [Nat.add_mul_mod_self_left, Nat.mod_eq_of_lt hx, Nat.mod_eq_of_lt hz] using this
      simp [this, h1]
  | @cons cc d cm c' Ot Os ds h1 h2 h3 h4 _ ih =>
    cases hψ with
    | @cons _ _ am _ At As _ g1 g2 g3 g4 g5 =>
      cases hs with
      | @cons i _ s _ hi hs =>
        rw [List.zipWith_cons_cons, path_cons, dim2_of (applySite_dims h1 g1), Nat.mul_comm am cm, sum_range_mul]
        have e1 : ∀ k ∈ Finset.range am, ∑ j ∈ Finset.range cm,
            (applySite Ot At).get [x + cc * y, i, j + cm * k] * path (List.zipWith applySite Os As) s (j + cm * k)
              (z + c' * w)
            = ∑ j ∈ Finset.range cm, ∑ r ∈ Finset.range d, sumCfg ds fun t =>
                (Ot.get [x, i, r, j] * At.get [y, r, k]) * (opPath Os s t j z * path As t k w) := by
          intro k hk
          refine Finset.sum_congr rfl fun j hj => ?_
          rw [Finset.mem_range] at hk hj
          rw [applySite_get h1 g1 hx hy hj hk hi, ih g5 hs hj hk hz, Finset.sum_mul]
          refine Finset.sum_congr rfl fun r _ => ?_
          rw [sumCfg_mul_left]
        rw [Finset.sum_congr rfl e1, sumCfg_cons]
        have e2 : ∀ r ∈ Finset.range d, sumCfg ds (fun t => opPath (Ot :: Os) (i :: s) (r :: t) x z * path (At :: As) (r :: t) y w)
            = ∑ j ∈ Finset.range cm, ∑ k ∈ Finset.range am, sumCfg ds fun t =>
                (Ot.get [x, i, r, j] * At.get [y, r, k]) * (opPath Os s t j z * path As t k w) := by
          intro r _
          simp only [opPath_cons, path_cons, dim3_of h1, dim2_of g1, Finset.sum_mul_sum]
          rw [sumCfg_sum]
          refine Finset.sum_congr rfl fun j _ => ?_
          rw [sumCfg_sum]
          refine Finset.sum_congr rfl fun k _ => ?_
          refine sumCfg_congr fun t _ => by ring
        rw [Finset.sum_congr rfl e2, Finset.sum_comm]
        have e3 : ∀ j ∈ Finset.range cm, (∑ k ∈ Finset.range am, ∑ r ∈ Finset.range d, sumCfg ds fun t =>
                (Ot.get [x, i, r, j] * At.get [y, r, k]) * (opPath Os s t j z * path As t k w))
            = ∑ r ∈ Finset.range d, ∑ k ∈ Finset.range am, sumCfg ds fun t =>
                (Ot.get [x, i, r, j] * At.get [y, r, k]) * (opPath Os s t j z * path As t k w) :=
          fun j _ => Finset.sum_comm
        rw [Finset.sum_congr rfl e3, Finset.sum_comm]

theorem opElt_of_WFO {a b : Nat} {O : List (Tensor R)} {ds : List Nat} (h : WFO a O ds b) (hne : O ≠ [])
    (s t : List Nat) : opElt O s t = ∑ x ∈ Finset.range a, opPath O s t x x := by
  cases h with
  | nil => exact absurd rfl hne
  | cons h1 _ _ _ _ => simp [opElt, dim, h1]

theorem applyMPO_spec {O ψ : List (Tensor R)} {ds : List Nat} (hO : IsMPO ds O) (hψ : IsMPS ds ψ) :
    ∃ χ, applyMPO O ψ = some χ ∧ IsMPS ds χ ∧ ∀ s, IsCfg ds s → amp χ s = actOp ds (opElt O) (amp ψ) s := by
  obtain ⟨hOn, C, hO⟩ := hO
  obtain ⟨hψn, D, hψ⟩ := hψ
  have hl : O.length = ψ.length := by rw [hO.length, hψ.length]
  have hW := apply_WF hO hψ
  have hne : List.zipWith applySite O ψ ≠ [] := by
    intro h
    rw [List.zipWith_eq_nil_iff] at h
    tauto
  refine ⟨_, by rw [applyMPO, if_pos hl], ⟨hne, _, hW⟩, fun s hs => ?_⟩
  rw [amp_of_WF hW hne, sum_range_mul]
  have e : ∀ y ∈ Finset.range D, ∑ x ∈ Finset.range C, path (List.zipWith applySite O ψ) s (x + C * y) (x + C * y)
      = ∑ x ∈ Finset.range C, sumCfg ds (fun t => opPath O s t x x * path ψ t y y) := by
    intro y hy
    refine Finset.sum_congr rfl fun x hx => ?_
    rw [Finset.mem_range] at hy hx
    exact apply_path hO hψ hs hx hy hx hy
  rw [Finset.sum_congr rfl e, Finset.sum_comm, actOp]
  have e2 : ∀ t, opElt O s t * amp ψ t = ∑ x ∈ Finset.range C, ∑ y ∈ Finset.range D, opPath O s t x x * path ψ t y y := by
    intro t
    rw [opElt_of_WFO hO hOn, amp_of_WF hψ hψn, Finset.sum_mul_sum]
  simp only [e2, sumCfg_sum]

/-! ### mmult -/

theorem mmult_tC {A B : Tensor R} {a d a' c c' : Nat} (hA : A.dims = [a, d, d, a']) (hB : B.dims = [c, d, d, c']) :
    (foldin B 1 A 2).dims = [a, d, c, d, c', a'] ∧ ∀ x i y k z w, (foldin B 1 A 2).get [x, i, y, k, z, w]
      = ∑ j ∈ Finset.range d, A.get [x, i, j, w] * B.get [y, j, k, z] := by
  constructor
  · simp [foldin, hA, hB]
  · intro x i y k z w
    simp only [foldin, hA, hB]
    refine Finset.sum_congr (by simp) fun j _ => ?_
    simp [mul_comm]

theorem mmultSite_dims {A B : Tensor R} {a d a' c c' : Nat} (hA : A.dims = [a, d, d, a'])
    (hB : B.dims = [c, d, d, c']) : (mmultSite A B).dims = [a * c, d, d, a' * c'] := by
  obtain ⟨q0, q1, q2, q3, q4, q5⟩ := dim_of6 (mmult_tC hA hB).1
  simp only [mmultSite, reshape_dims, q0, q1, q2, q3, q4, q5]

theorem mmultSite_get {A B : Tensor R} {a d a' c c' : Nat} (hA : A.dims = [a, d, d, a'])
    (hB : B.dims = [c, d, d, c']) {x y z w i k : Nat} (hx : x < a) (hy : y < c) (hw : w < a') (hz : z < c')
    (hi : i < d) (hk : k < d) :
    (mmultSite A B).get [x + a * y, i, k, w + a' * z]
      = ∑ j ∈ Finset.range d, A.get [x, i, j, w] * B.get [y, j, k, z] := by
  obtain ⟨t1, t2⟩ := mmult_tC hA hB
  obtain ⟨q0, q1, q2, q3, q4, q5⟩ := dim_of6 t1
  have hP : (permute (permute (foldin B 1 A 2) 1 2) 4 5).dims = [a, c, d, d, a', c'] := by
    simp [permute, t1, swapIdx, nrm]
  have hD : mmultSite A B = reshape (permute (permute (foldin B 1 A 2) 1 2) 4 5) [a * c, d, d, a' * c'] := by
    simp only [mmultSite, q0, q1, q2, q3, q4, q5]
  rw [hD, reshape_get (idx := [x, y, i, k, w, z])]
  · rw [← t2]
    simp [permute, t1, swapIdx, nrm]
  · rw [hP]; exact .cons hx (.cons hy (.cons hi (.cons hk (.cons hw (.cons hz .nil)))))
  · rw [hP]; simp [flat]; ring

theorem mmult_WFO {a a' c c' : Nat} {A B : List (Tensor R)} {ds : List Nat} (hA : WFO a A ds a') (hB : WFO c B ds c') :
    WFO (a * c) (List.zipWith mmultSite A B) ds (a' * c') := by
  induction hA generalizing c B with
  | nil c => cases hB; exact WFO.nil _
  | cons h1 h2 h3 h4 _ ih =>
    cases hB with
    | cons g1 g2 g3 g4 g5 =>
      exact WFO.cons (mmultSite_dims h1 g1) (Nat.mul_pos h2 g2) h3 (Nat.mul_pos h4 g4) (ih g5)

theorem mmult_path {a a' c c' : Nat} {A B : List (Tensor R)} {ds : List Nat} (hA : WFO a A ds a') (hB : WFO c B ds c')
    {s u : List Nat} (hs : IsCfg ds s) (hu : IsCfg ds u) {x y z w : Nat} (hx : x < a) (hy : y < c) (hw : w < a')
    (hz : z < c') :
    opPath (List.zipWith mmultSite A B) s u (x + a * y) (w + a' * z)
      = sumCfg ds (fun t => opPath A s t x w * opPath B t u y z) := by
  induction hA generalizing c B s u x y with
  | nil a =>
    cases hB
    cases hs
    cases hu
    simp only [List.zipWith_nil_left, opPath_nil, sumCfg]
    by_cases h1 : x = w
    · subst h1
      have : a ≠ 0 := by omega
      simp [this]
    · have : x + a * y ≠ w + a * z := by
        intro h
        apply h1
        have := congrArg (· % a) h
        simpa [Nat.add_mul_mod_self_left, Nat.mod_eq_of_lt hx, Nat.mod_eq_of_lt hw] using this
      simp [this, h1]
  | @cons aa d am a' At As ds h1 h2 h3 h4 _ ih =>
    cases hB with
    | @cons _ _ cm _ Bt Bs _ g1 g2 g3 g4 g5 =>
      cases hs with
      | @cons i _ s _ hi hs => cases hu with
        | @cons l _ u _ hl hu =>
        rw [List.zipWith_cons_cons, opPath_cons, dim3_of (mmultSite_dims h1 g1), sum_range_mul]
        have e1 : ∀ k ∈ Finset.range cm, ∑ j ∈ Finset.range am,
            (mmultSite At Bt).get [x + aa * y, i, l, j + am * k]
              * opPath (List.zipWith mmultSite As Bs) s u (j + am * k) (w + a' * z)
            = ∑ j ∈ Finset.range am, ∑ r ∈ Finset.range d, sumCfg ds fun t =>
                (At.get [x, i, r, j] * Bt.get [y, r, l, k]) * (opPath As s t j w * opPath Bs t u k z) := by
          intro k hk
          refine Finset.sum_congr rfl fun j hj => ?_
          rw [Finset.mem_range] at hk hj
          rw [mmultSite_get h1 g1 hx hy hj hk hi hl, ih g5 hs hu hj hk hw, Finset.sum_mul]
          refine Finset.sum_congr rfl fun r _ => ?_
          rw [sumCfg_mul_left]
        rw [Finset.sum_congr rfl e1, sumCfg_cons]
        have e2 : ∀ r ∈ Finset.range d, sumCfg ds (fun t => opPath (At :: As) (i :: s) (r :: t) x w
              * opPath (Bt :: Bs) (r :: t) (l :: u) y z)
            = ∑ j ∈ Finset.range am, ∑ k ∈ Finset.range cm, sumCfg ds fun t =>
                (At.get [x, i, r, j] * Bt.get [y, r, l, k]) * (opPath As s t j w * opPath Bs t u k z) := by
          intro r _
          simp only [opPath_cons, dim3_of h1, dim3_of g1, Finset.sum_mul_sum]
          rw [sumCfg_sum]
          refine Finset.sum_congr rfl fun j _ => ?_
          rw [sumCfg_sum]
          refine Finset.sum_congr rfl fun k _ => ?_
          refine sumCfg_congr fun t _ => by ring
        rw [Finset.sum_congr rfl e2, Finset.sum_comm]
        have e3 : ∀ j ∈ Finset.range am, (∑ k ∈ Finset.range cm, ∑ r ∈ Finset.range d, sumCfg ds fun t =>
                (At.get [x, i, r, j] * Bt.get [y, r, l, k]) * (opPath As s t j w * opPath Bs t u k z))
            = ∑ r ∈ Finset.range d, ∑ k ∈ Finset.range cm, sumCfg ds fun t =>
                (At.get [x, i, r, j] * Bt.get [y, r, l, k]) * (opPath As s t j w * opPath Bs t u k z) :=
          fun j _ => Finset.sum_comm
        rw [Finset.sum_congr rfl e3, Finset.sum_comm]

theorem mmultMPO_spec {A B : List (Tensor R)} {ds : List Nat} (hA : IsMPO ds A) (hB : IsMPO ds B) :
    ∃ C, mmultMPO A B = some C ∧ IsMPO ds C ∧ ∀ s u, IsCfg ds s → IsCfg ds u →
      opElt C s u = sumCfg ds fun t => opElt A s t * opElt B t u := by
  obtain ⟨hAn, a, hA⟩ := hA
  obtain ⟨hBn, c, hB⟩ := hB
  have hl : A.length = B.length := by rw [hA.length, hB.length]
  have hW := mmult_WFO hA hB
  have hne : List.zipWith mmultSite A B ≠ [] := by
    intro h
    rw [List.zipWith_eq_nil_iff] at h
    tauto
  refine ⟨_, by rw [mmultMPO, if_pos hl], ⟨hne, _, hW⟩, fun s u hs hu => ?_⟩
  rw [opElt_of_WFO hW hne, sum_range_mul]
  have e : ∀ y ∈ Finset.range c, ∑ x ∈ Finset.range a, opPath (List.zipWith mmultSite A B) s u (x + a * y) (x + a * y)
      = ∑ x ∈ Finset.range a, sumCfg ds (fun t => opPath A s t x x * opPath B t u y y) := by
    intro y hy
    refine Finset.sum_congr rfl fun x hx => ?_
    rw [Finset.mem_range] at hy hx
    exact mmult_path hA hB hs hu hx hy hx hy
  rw [Finset.sum_congr rfl e, Finset.sum_comm]
  have e2 : ∀ t, opElt A s t * opElt B t u
      = ∑ x ∈ Finset.range a, ∑ y ∈ Finset.range c, opPath A s t x x * opPath B t u y y := by
    intro t
    rw [opElt_of_WFO hA hAn, opElt_of_WFO hB hBn, Finset.sum_mul_sum]
  simp only [e2, sumCfg_sum]

/-! ### adjoint -/

theorem adjoint_WFO [StarRing R] {a b : Nat} {O : List (Tensor R)} {ds : List Nat} (h : WFO a O ds b) :
    WFO a (adjointC O) ds b := by
  induction h with
  | nil => exact WFO.nil _
  | cons h1 h2 h3 h4 _ ih =>
    exact WFO.cons (by simp [conj, permute, h1, swapIdx, nrm]) h2 h3 h4 ih

theorem adjoint_path [StarRing R] {a b : Nat} {O : List (Tensor R)} {ds : List Nat} (h : WFO a O ds b)
    {s t : List Nat} (hs : IsCfg ds s) (ht : IsCfg ds t) (x y : Nat) :
    opPath (adjointC O) s t x y = star (opPath O t s x y) := by
  induction h generalizing s t x with
  | nil => cases hs; cases ht; simp only [adjointC, List.map_nil, opPath_nil]; split <;> simp
  | @cons aa d am b' A As ds h1 h2 h3 h4 _ ih =>
    cases hs with
    | @cons i _ s _ hi hs => cases ht with
      | @cons j _ t _ hj ht =>
        have e1 : (conj (permute A 1 2)).dims = [aa, d, d, am] := by simp [conj, permute, h1, swapIdx, nrm]
        change opPath (conj (permute A 1 2) :: adjointC As) (i :: s) (j :: t) x y = _
        rw [opPath_cons, opPath_cons, dim3_of e1, dim3_of h1, star_sum]
        refine Finset.sum_congr rfl fun k _ => ?_
        rw [ih hs ht, star_mul']
        simp [conj, permute, h1, swapIdx, nrm]

theorem adjointC_spec [StarRing R] {O : List (Tensor R)} {ds : List Nat} (h : IsMPO ds O) :
    IsMPO ds (adjointC O) ∧ ∀ s t, IsCfg ds s → IsCfg ds t → opElt (adjointC O) s t = star (opElt O t s) := by
  obtain ⟨hn, D, hW⟩ := h
  have hn' : adjointC O ≠ [] := by simpa [adjointC] using hn
  refine ⟨⟨hn', D, adjoint_WFO hW⟩, fun s t hs ht => ?_⟩
  rw [opElt_of_WFO (adjoint_WFO hW) hn', opElt_of_WFO hW hn, star_sum]
  exact Finset.sum_congr rfl fun x _ => adjoint_path hW hs ht x x

/-! ### mpo_to_matrix -/

theorem WFO.append {a b c : Nat} {ψ φ : List (Tensor R)} {ds es : List Nat} (h : WFO a ψ ds b)
    (h' : WFO b φ es c) : WFO a (ψ ++ φ) (ds ++ es) c := by
  induction h with
  | nil => exact h'
  | cons h1 h2 h3 h4 _ ih => exact WFO.cons h1 h2 h3 h4 (ih h')

theorem opPath_append {a b c : Nat} {ψ φ : List (Tensor R)} {ds : List Nat} {s t s' t' : List Nat}
    (h : WFO a ψ ds c) (hs : s.length = ds.length) (ht : t.length = ds.length) {x : Nat} (hx : x < a) :
    opPath (ψ ++ φ) (s ++ s') (t ++ t') x b = ∑ y ∈ Finset.range c, opPath ψ s t x y * opPath φ s' t' y b := by
  induction h generalizing s t x with
  | nil a =>
    obtain rfl : s = [] := by simpa using hs
    obtain rfl : t = [] := by simpa using ht
    simp only [List.nil_append, opPath_nil, ite_mul, one_mul, zero_mul]
    rw [Finset.sum_ite_eq, if_pos (Finset.mem_range.2 hx)]
  | @cons aa d am b' A As ds h1 h2 h3 h4 _ ih =>
    cases s with
    | nil => simp at hs
    | cons i s => cases t with
      | nil => simp at ht
      | cons j t =>
        simp only [List.cons_append, opPath_cons, dim3_of h1]
        have : ∀ k ∈ Finset.range am, A.get [x, i, j, k] * opPath (As ++ φ) (s ++ s') (t ++ t') k b
            = ∑ y ∈ Finset.range b', A.get [x, i, j, k] * (opPath As s t k y * opPath φ s' t' y b) := by
          intro k hk
          rw [ih (by simpa using hs) (by simpa using ht) (Finset.mem_range.1 hk), Finset.mul_sum]
        rw [Finset.sum_congr rfl this, Finset.sum_comm]
        refine Finset.sum_congr rfl fun y _ => ?_
        rw [Finset.sum_mul]
        exact Finset.sum_congr rfl fun k _ => by ring

theorem opPath_single {A : Tensor R} {i j x y a d c : Nat} (h : A.dims = [a, d, d, c]) (hy : y < c) :
    opPath [A] [i] [j] x y = A.get [x, i, j, y] := by
  simp only [opPath_cons, opPath_nil, mul_ite, mul_one, mul_zero, dim3_of h]
  rw [Finset.sum_ite_eq']; simp [hy]

theorem toMatrixLoop_spec {As : List (Tensor R)} :
    ∀ {B : Tensor R} {Ps : List (Tensor R)} {ds es : List Nat} {c b : Nat},
    B.dims = [ds.prod, ds.prod, c] → WFO 1 Ps ds c →
    (∀ s t y, IsCfg ds s → IsCfg ds t → y < c → B.get [flat ds s, flat ds t, y] = opPath Ps s t 0 y) →
    WFO c As es b →
    (toMatrixLoop B ds.prod As).2 = (ds ++ es).prod ∧
    (toMatrixLoop B ds.prod As).1.dims = [(ds ++ es).prod, (ds ++ es).prod, b] ∧
    (∀ s t y, IsCfg (ds ++ es) s → IsCfg (ds ++ es) t → y < b →
      (toMatrixLoop B ds.prod As).1.get [flat (ds ++ es) s, flat (ds ++ es) t, y] = opPath (Ps ++ As) s t 0 y) := by
  induction As with
  | nil =>
    intro B Ps ds es c b hB hW hg hA
    cases hA
    simpa [toMatrixLoop, hB] using hg
  | cons A As ih =>
    intro B Ps ds es c b hB hW hg hA
    cases hA with
    | @cons _ d e _ _ _ es h1 h2 h3 h4 h5 =>
      have ho : (fold B 2 A 0).dims = [ds.prod, ds.prod, d, d, e] := by simp [fold, hB, h1]
      have hp : (permute (fold B 2 A 0) 1 2).dims = [ds.prod, d, ds.prod, d, e] := by
        simp [permute, swapIdx, nrm, ho]
      obtain ⟨_, q1, _, q3⟩ := dim_of4 h1
      have := ih (B := reshape (permute (fold B 2 A 0) 1 2) [ds.prod * d, ds.prod * d, e]) (Ps := Ps ++ [A])
        (ds := ds ++ [d]) (es := es) (c := e) (b := b)
        (by simp) (hW.append (WFO.cons h1 h2 h3 h4 (WFO.nil _))) ?_ h5
      · simpa [toMatrixLoop, q1, q3] using this
      · intro u v y hu hv hy
        obtain ⟨s, s', rfl, hs, hs'⟩ := isCfg_split hu
        obtain ⟨i, rfl, hi⟩ := isCfg_single hs'
        obtain ⟨t, t', rfl, ht, ht'⟩ := isCfg_split hv
        obtain ⟨j, rfl, hj⟩ := isCfg_single ht'
        rw [flat_append_single hs.length, flat_append_single ht.length,
          reshape_get (idx := [flat ds s, i, flat ds t, j, y])
            (by rw [hp]; exact .cons (flat_lt hs) (.cons hi (.cons (flat_lt ht) (.cons hj (.cons hy .nil)))))
            (by simp only [hp, flat]; ring),
          opPath_append hW hs.length ht.length (by omega)]
        have : (permute (fold B 2 A 0) 1 2).get [flat ds s, i, flat ds t, j, y]
            = (fold B 2 A 0).get [flat ds s, flat ds t, i, j, y] := by
          simp [permute, swapIdx, nrm, ho]
        rw [this]
        simp only [fold, hB, h1]
        refine Finset.sum_congr (by simp [nrm]) fun z hz => ?_
        have hz : z < c := by simpa [nrm] using hz
        rw [opPath_single h1 hy, ← hg s t z hs ht hz]
        simp [nrm]

theorem mpoToMatrix_spec {O : List (Tensor R)} {ds : List Nat} (hne : O ≠ []) (h : WFO 1 O ds 1) :
    (mpoToMatrix O).dims = [ds.prod, ds.prod] ∧ ∀ s t, IsCfg ds s → IsCfg ds t →
      (mpoToMatrix O).get [flat ds s, flat ds t] = opElt O s t := by
  have key := toMatrixLoop_spec (B := (⟨[1, 1, 1], fun _ => 1⟩ : Tensor R)) (Ps := []) (ds := []) (es := ds) (c := 1)
    (b := 1) (As := O) (by simp) (WFO.nil 1) ?_ h
  · obtain ⟨k1, k2, k3⟩ := key
    simp only [List.prod_nil, List.nil_append] at k1 k2 k3
    refine ⟨by simp [mpoToMatrix, k1], fun s t hs ht => ?_⟩
    simp only [mpoToMatrix]
    rw [k1, reshape_get (idx := [flat ds s, flat ds t, 0])
      (by rw [k2]; exact .cons (flat_lt hs) (.cons (flat_lt ht) (.cons (by omega) .nil)))
      (by simp [k2, flat]), k3 s t 0 hs ht (by omega), opElt_of_WFO h hne, Finset.sum_range_one]
  · intro s t y hs ht hy
    cases hs; cases ht
    obtain rfl : y = 0 := by omega
    simp [opPath_nil]

end MPS
