import Verif.Props.HamProps7

/-!
# Property C39 (continued): the bond that closes a periodic chain
-/

set_option linter.unusedSectionVars false
set_option linter.unusedSimpArgs false

namespace MPS.Props
open MPS Tensor
variable {K : Type} [RCLike K]

/-- matrix element ⟨s|h|t⟩ of a two-site operator on the last and the first site of a chain of `L` sites, the index of the
last site being the fastest one of `h`; `d` is the local dimension of the last site -/
noncomputable def embedWrap (L d : Nat) (h : Nat → Nat → K) (s t : List Nat) : K :=
  h (s.getD (L - 1) 0 + d * s.getD 0 0) (t.getD (L - 1) 0 + d * t.getD 0 0) *
    ∏ j ∈ Finset.range L, if (j ≠ 0 ∧ j ≠ L - 1) ∧ s.getD j 0 ≠ t.getD j 0 then 0 else 1

/-- the same, with the roles of the two sites exchanged -/
noncomputable def embedWrapSwapped (L d : Nat) (h : Nat → Nat → K) (s t : List Nat) : K :=
  h (s.getD 0 0 + d * s.getD (L - 1) 0) (t.getD 0 0 + d * t.getD (L - 1) 0) *
    ∏ j ∈ Finset.range L, if (j ≠ 0 ∧ j ≠ L - 1) ∧ s.getD j 0 ≠ t.getD j 0 then 0 else 1

theorem ends_split {ds : List Nat} (h2 : 2 ≤ ds.length) :
    ds = [ds.getD 0 0] ++ ((ds.drop 1).take (ds.length - 2) ++ [ds.getD (ds.length - 1) 0]) := by
  have h := split3 ds 1 (ds.length - 2)
  have e1 : ds.take 1 = [ds.getD 0 0] := by
    have := drop_take_one (l := ds) (k := 0) (by omega)
    simpa using this
  have e2 : ds.drop (1 + (ds.length - 2)) = [ds.getD (ds.length - 1) 0] := by
    have := drop_take_one (l := ds) (k := ds.length - 1) (by omega)
    rw [← this, show 1 + (ds.length - 2) = ds.length - 1 by omega, List.take_of_length_le (by simp; omega)]
  rw [e1, e2] at h
  exact h

theorem wrap_get {ds : List Nat} (h2 : 2 ≤ ds.length) {A B : Tensor K} (hA : A.dims = [ds.getD (ds.length - 1) 0, ds.getD (ds.length - 1) 0])
    (hB : B.dims = [ds.getD 0 0, ds.getD 0 0]) {s t : List Nat} (hs : IsCfg ds s) (ht : IsCfg ds t) :
    (kron A (kron (eye ((ds.drop 1).take (ds.length - 2)).prod) B)).get [flat ds s, flat ds t] =
      A.get [s.getD (ds.length - 1) 0, t.getD (ds.length - 1) 0] * B.get [s.getD 0 0, t.getD 0 0] *
      ∏ j ∈ Finset.range ds.length, if (j ≠ 0 ∧ j ≠ ds.length - 1) ∧ s.getD j 0 ≠ t.getD j 0 then 0 else 1 := by
  set d := ds.getD 0 0 with hd
  set e := ds.getD (ds.length - 1) 0 with he
  set mid := (ds.drop 1).take (ds.length - 2) with hmid
  have key : ∀ u, IsCfg ds u → flat ds u = u.getD 0 0 + d * (flat mid ((u.drop 1).take (ds.length - 2)) + mid.prod * u.getD (ds.length - 1) 0) ∧
      u.getD 0 0 < d ∧ IsCfg mid ((u.drop 1).take (ds.length - 2)) := by
    intro u hu
    have hul := hu.length
    have hsp := ends_split (ds := u) (by omega)
    rw [hul] at hsp
    have hd2 := ends_split h2
    have hm := (isCfg_split3 (k := 1) (m := ds.length - 2) (by omega) hu).2.1
    have h0 : u.getD 0 0 < d := by
      have h0 := (isCfg_split3 (k := 0) (m := 1) (by omega) hu).2.1
      rw [drop_take_one (by omega), drop_take_one (by omega)] at h0
      cases h0 with
      | cons a _ => exact a
    refine ⟨?_, h0, hm⟩
    conv_lhs => rw [hd2, hsp]
    rw [flat_append (by simp), flat_append hm.length]
    simp [flat, hd, he, hmid]
  obtain ⟨a1, a2, a3⟩ := key s hs
  obtain ⟨b1, b2, b3⟩ := key t ht
  have kg : ∀ (A B : Tensor K) (x y : Nat), (kron A B).get [x, y] =
      A.get [x / B.dim 0, y / B.dim 1] * B.get [x % B.dim 0, y % B.dim 1] := fun A B x y => rfl
  have dB0 : B.dim 0 = d := by simp [dim, hB, nrm]
  have dB1 : B.dim 1 = d := by simp [dim, hB, nrm]
  have dk0 : (kron (eye mid.prod) B).dim 0 = d * mid.prod := by simp [kron, eye, dim, nrm, hB]
  have dk1 : (kron (eye mid.prod) B).dim 1 = d * mid.prod := by simp [kron, eye, dim, nrm, hB]
  have l1 := flat_lt a3
  have l2 := flat_lt b3
  have arith : ∀ x y z, x < d → y < mid.prod → (x + d * (y + mid.prod * z)) / (d * mid.prod) = z ∧
      (x + d * (y + mid.prod * z)) % (d * mid.prod) / d = y ∧ (x + d * (y + mid.prod * z)) % (d * mid.prod) % d = x := by
    intro x y z hx hy
    have h1 : x + d * y < d * mid.prod := add_mul_lt hx hy
    have h2 : x + d * (y + mid.prod * z) = (x + d * y) + (d * mid.prod) * z := by ring
    have pd : 0 < d := by omega
    rw [h2, Nat.add_mul_div_left _ _ (Nat.mul_pos pd (by omega)), Nat.div_eq_of_lt h1, Nat.add_mul_mod_self_left, Nat.mod_eq_of_lt h1,
      Nat.add_mul_div_left _ _ pd, Nat.div_eq_of_lt hx, Nat.add_mul_mod_self_left, Nat.mod_eq_of_lt hx]
    simp
  obtain ⟨p1, p2, p3⟩ := arith _ _ (s.getD (ds.length - 1) 0) a2 l1
  obtain ⟨q1, q2, q3⟩ := arith _ _ (t.getD (ds.length - 1) 0) b2 l2
  rw [a1, b1, kg, dk0, dk1, kg, dB0, dB1, p1, p2, p3, q1, q2, q3, eye_get, prod_delta]
  have hiff : flat mid ((s.drop 1).take (ds.length - 2)) = flat mid ((t.drop 1).take (ds.length - 2)) ↔
      ∀ j, j < ds.length → (j ≠ 0 ∧ j ≠ ds.length - 1) → s.getD j 0 = t.getD j 0 := by
    constructor
    · intro h j hj hn
      have h' := congrArg (fun l => l.getD (j - 1) 0) (flat_inj a3 b3 h)
      have c1 : j - 1 + 1 = j := by omega
      have c2 : j - 1 < ds.length - 2 := by omega
      simpa [List.getElem?_take, List.getElem?_drop, c1, c2] using h'
    · intro h
      rw [getD_ext (s := (s.drop 1).take (ds.length - 2)) (t := (t.drop 1).take (ds.length - 2)) (by simp [hs.length, ht.length])]
      intro j hj
      have hj' : j < ds.length - 2 := by simp at hj; omega
      have := h (j + 1) (by omega) (by omega)
      simpa [List.getElem?_take, List.getElem?_drop, hj'] using this
  simp only [dlt, hiff]
  split <;> simp

/-- what `sparse_1d_hamiltonian(H12[], H1[], true)` computes: the sum of the terms of the open chain, plus an operator on the
first and the last site -/
theorem C39_periodic_partial {svd : Tensor K → SvdRes K} (hg : GoodSvd svd) (hn : NonnegSvd svd) {eps dflt : ℝ}
    (hd0 : 0 ≤ dflt) (ht : max dflt eps < 1) {ds : List Nat} (h2 : 2 ≤ ds.length) (hpos : ∀ d ∈ ds, 0 < d)
    (heq : ds.getD (ds.length - 1) 0 = ds.getD 0 0) {H12 H1 : List (Tensor K)} (h : SparseTerms ds H12 H1)
    (hw : (site H12 (ds.length - 1)).dims = [ds.getD 0 0 * ds.getD 0 0, ds.getD 0 0 * ds.getD 0 0])
    (hne : ∃ x y, x < ds.getD 0 0 * ds.getD 0 0 ∧ y < ds.getD 0 0 * ds.getD 0 0 ∧ (site H12 (ds.length - 1)).get [x, y] ≠ 0) :
    ∃ A S, sparse1dMany svd eps dflt H12 H1 true = some A ∧ A.dims = [ds.prod, ds.prod] ∧
      (∀ s t, IsCfg ds s → IsCfg ds t → A.get [flat ds s, flat ds t] =
        sparseElt ds H12 H1 s t + embedWrapSwapped ds.length (ds.getD 0 0) S s t) ∧
      frob2 (ds.getD 0 0 * ds.getD 0 0) S = 1 ∧
      ∃ ρ : ℝ, 0 < ρ ∧ frob2 (ds.getD 0 0 * ds.getD 0 0) (fun x y => (site H12 (ds.length - 1)).get [x, y] - (ρ : K) * S x y)
        ≤ max dflt eps * frob2 (ds.getD 0 0 * ds.getD 0 0) fun x y => (site H12 (ds.length - 1)).get [x, y] := by
  obtain ⟨O1, O2, n, k1, k2, k3, k4, k5, k6⟩ := C73_decompose_operator hg hn hd0 ht hw hne
  unfold sparse1dMany
  have hN : max H12.length H1.length = ds.length := by rw [h.len12, h.len1]; simp
  simp only [hN]
  rw [if_neg (by rw [h.len12, h.len1]; omega), guess_ok h]
  have hper : ds.length > 1 := by omega
  simp only [Option.bind_eq_bind, Option.bind_some, true_and, if_pos hper]
  unfold periodicBond
  rw [k1]
  simp only [Option.map_some]
  refine ⟨_, stackSum n O1 O2, rfl, ?_⟩
  have hn1 : O1.dim (-1) = n := by simp [dim, k3, nrm]
  rw [hn1]
  let f12 : Nat → Option (Tensor K) := fun k0 => if (site H12 k0).isEmpty then none else
    some (kron (eye (dRight ds (k0 + 1))) (kron (site H12 k0) (eye (dLeft ds k0))))
  let f1 : Nat → Option (Tensor K) := fun k => if (site H1 k).isEmpty then none else
    some (kron (eye (dRight ds k)) (kron (site H1 k) (eye (dLeft ds k))))
  let fw : Nat → Option (Tensor K) := fun i =>
    some (kron (sliceLast O2 i) (kron (eye (dLeft ds (ds.length - 1) / ds.getD 0 0)) (sliceLast O1 i)))
  have e12 : (fun (out : Tensor K) k0 => if (site H12 (k0 + 1 - 1)).isEmpty then out
      else add out (kron (eye (dRight ds (k0 + 1))) (kron (site H12 (k0 + 1 - 1)) (eye (dLeft ds (k0 + 1 - 1)))))) =
      fun out k0 => optAdd out (f12 k0) := by
    funext out k0
    simp only [f12, optAdd, Nat.add_sub_cancel]
    split <;> rfl
  have e1 : (fun (out : Tensor K) k => if (site H1 k).isEmpty then out
      else add out (kron (eye (dRight ds k)) (kron (site H1 k) (eye (dLeft ds k))))) =
      fun out k => optAdd out (f1 k) := by
    funext out k
    simp only [f1, optGet, optAdd]
    split <;> rfl
  have ew : (fun (out : Tensor K) i => add out (kron (sliceLast O2 i) (kron (eye (dLeft ds (ds.length - 1) / ds.getD 0 0)) (sliceLast O1 i)))) =
      fun out k => optAdd out (fw k) := rfl
  rw [e12, e1, ew]
  have hd : ∀ k, k < ds.length → 0 < ds.getD k 0 := by
    intro k hk
    rw [List.getD_eq_getElem _ _ hk]
    exact hpos _ (List.getElem_mem hk)
  have hmid : dLeft ds (ds.length - 1) / ds.getD 0 0 = ((ds.drop 1).take (ds.length - 2)).prod := by
    rw [dLeft_eq ds (by omega)]
    have : ds.take (ds.length - 1) = ds.getD 0 0 :: (ds.drop 1).take (ds.length - 2) := by
      rw [congrArg (List.take (ds.length - 1)) (ends_split h2)]
      rw [List.cons_append, List.nil_append, ← List.cons_append, List.take_left']
      simp only [List.length_cons, List.length_take, List.length_drop]; omega
    rw [this, List.prod_cons, Nat.mul_div_cancel_left _ (hd 0 (by omega))]
  refine ⟨?_, fun s t hs ht => ?_, k5, k6⟩
  · rw [(foldl_add_get f1 _ _ []).1, (foldl_add_get fw _ _ []).1, (foldl_add_get f12 _ _ []).1]; rfl
  · rw [(foldl_add_get f1 _ _ _).2, (foldl_add_get fw _ _ _).2, (foldl_add_get f12 _ _ _).2]
    have ez : (zeros [ds.prod, ds.prod] : Tensor K).get [flat ds s, flat ds t] = 0 := rfl
    have c1 : ∑ k ∈ Finset.range ds.length, (optGet (f1 k) [flat ds s, flat ds t]) =
        ∑ k ∈ Finset.range ds.length, (if (site H1 k).isEmpty then 0 else embed1 ds.length k (site H1 k) s t) := by
      refine Finset.sum_congr rfl fun k hk => ?_
      have hk := Finset.mem_range.1 hk
      simp only [f1, optGet, optAdd]
      by_cases he : (site H1 k).isEmpty
      · simp [he]
      · rw [if_neg he, if_neg he]
        rw [Option.elim_some]
        rw [dRight_eq ds hk, dLeft_eq ds hk.le]
        exact one_embed hk ((h.loc k hk).resolve_left he) hs ht
    have c2 : ∑ k ∈ Finset.range (ds.length - 1), (optGet (f12 k) [flat ds s, flat ds t]) =
        ∑ k ∈ Finset.range (ds.length - 1), if (site H12 k).isEmpty then 0 else embed2 ds.length (ds.getD k 0) k (site H12 k) s t := by
      refine Finset.sum_congr rfl fun k hk => ?_
      have hk := Finset.mem_range.1 hk
      simp only [f12, optGet, optAdd]
      by_cases he : (site H12 k).isEmpty
      · simp [he]
      · rw [if_neg he, if_neg he]
        rw [Option.elim_some]
        rw [dRight_eq ds (by omega), dLeft_eq ds (by omega)]
        exact two_embed (by omega) ((h.inter k (by omega)).resolve_left he) hs ht
    have c3 : ∑ k ∈ Finset.range n, (optGet (fw k) [flat ds s, flat ds t]) =
        embedWrapSwapped ds.length (ds.getD 0 0) (stackSum n O1 O2) s t := by
      unfold embedWrapSwapped stackSum
      rw [Finset.sum_mul]
      refine Finset.sum_congr rfl fun k hk => ?_
      simp only [fw, optGet, optAdd, Option.elim_some]
      have s2 : (sliceLast O2 k).dims = [ds.getD (ds.length - 1) 0, ds.getD (ds.length - 1) 0] := by
        rw [heq]; simp [sliceLast, dim, k4, nrm]
      have s1 : (sliceLast O1 k).dims = [ds.getD 0 0, ds.getD 0 0] := by simp [sliceLast, dim, k3, nrm]
      rw [hmid, wrap_get h2 s2 s1 hs ht, kron2_get s1]
      · ring
      · have h0 := (isCfg_split3 (k := 0) (m := 1) (by omega) hs).2.1
        have := hs.length
        rw [drop_take_one (by omega), drop_take_one (by omega)] at h0
        cases h0 with
        | cons a _ => exact a
      · have h0 := (isCfg_split3 (k := 0) (m := 1) (by omega) ht).2.1
        have := ht.length
        rw [drop_take_one (by omega), drop_take_one (by omega)] at h0
        cases h0 with
        | cons a _ => exact a
    rw [ez, c1, c2, c3]
    unfold sparseElt
    ring

/-- C39 is false of periodic chains: the bond `(L-1, 0)` comes out with Frobenius norm one, so that the matrix is wrong
whenever some entry of the interaction is larger than one. -/
theorem C39_periodic_violated {svd : Tensor K → SvdRes K} (hg : GoodSvd svd) (hn : NonnegSvd svd) {eps dflt : ℝ}
    (hd0 : 0 ≤ dflt) (ht : max dflt eps < 1) {ds : List Nat} (h2 : 2 ≤ ds.length) (hpos : ∀ d ∈ ds, 0 < d)
    (heq : ds.getD (ds.length - 1) 0 = ds.getD 0 0) {H12 H1 : List (Tensor K)} (h : SparseTerms ds H12 H1)
    (hw : (site H12 (ds.length - 1)).dims = [ds.getD 0 0 * ds.getD 0 0, ds.getD 0 0 * ds.getD 0 0])
    (hbig : ∃ i j i' j', i < ds.getD 0 0 ∧ j < ds.getD 0 0 ∧ i' < ds.getD 0 0 ∧ j' < ds.getD 0 0 ∧
      1 < ‖(site H12 (ds.length - 1)).get [i + ds.getD 0 0 * j, i' + ds.getD 0 0 * j']‖) :
    ¬ ∃ A, sparse1dMany svd eps dflt H12 H1 true = some A ∧ ∀ s t, IsCfg ds s → IsCfg ds t → A.get [flat ds s, flat ds t] =
        sparseElt ds H12 H1 s t + embedWrap ds.length (ds.getD 0 0) (fun x y => (site H12 (ds.length - 1)).get [x, y]) s t := by
  obtain ⟨i, j, i', j', hi, hj, hi', hj', hb⟩ := hbig
  obtain ⟨A, S, a1, _, a3, a4, _⟩ := C39_periodic_partial hg hn hd0 ht h2 hpos heq h hw
    ⟨_, _, add_mul_lt hi hj, add_mul_lt hi' hj', fun h0 => by rw [h0] at hb; simp at hb; exact absurd hb (by norm_num)⟩
  rintro ⟨A', b1, b2⟩
  rw [a1] at b1
  obtain rfl := Option.some.inj b1
  set mid := (ds.drop 1).take (ds.length - 2) with hmid
  have hds := ends_split h2
  have hml : mid.length = ds.length - 2 := by simp [hmid]; omega
  have hz : IsCfg mid (List.replicate mid.length 0) := by
    have : ∀ m : List Nat, (∀ d ∈ m, 0 < d) → IsCfg m (List.replicate m.length 0) := by
      intro m
      induction m with
      | nil => intro _; exact List.Forall₂.nil
      | cons a m ih => intro hp; exact List.Forall₂.cons (hp a (by simp)) (ih fun d hd => hp d (by simp [hd]))
    exact this mid fun d hd => hpos d (List.mem_of_mem_drop (List.mem_of_mem_take hd))
  have hcfg : ∀ a b, a < ds.getD 0 0 → b < ds.getD 0 0 → IsCfg ds ([a] ++ (List.replicate mid.length 0 ++ [b])) := by
    intro a b ha hb
    rw [hds]
    refine List.Forall₂.cons ha ?_
    refine List.rel_append hz (List.Forall₂.cons (by rw [heq]; exact hb) List.Forall₂.nil)
  have g0 : ∀ a b, ([a] ++ (List.replicate mid.length 0 ++ [b])).getD 0 0 = a := fun a b => by simp
  have gl : ∀ a b, ([a] ++ (List.replicate mid.length 0 ++ [b])).getD (ds.length - 1) 0 = b := by
    intro a b
    rw [show ds.length - 1 = mid.length + 1 by omega]
    simp [List.getElem?_append_right]
  have gm : ∀ a b x, x < ds.length → (x ≠ 0 ∧ x ≠ ds.length - 1) → ([a] ++ (List.replicate mid.length 0 ++ [b])).getD x 0 = 0 := by
    intro a b x hx hne
    obtain ⟨y, rfl⟩ : ∃ y, x = y + 1 := ⟨x - 1, by omega⟩
    have : y < mid.length := by omega
    simp [List.getElem?_append_left, this, List.getElem?_replicate]
  have hcmp := (b2 _ _ (hcfg j i hj hi) (hcfg j' i' hj' hi')).symm.trans (a3 _ _ (hcfg j i hj hi) (hcfg j' i' hj' hi'))
  have hcmp := add_left_cancel hcmp
  unfold embedWrap embedWrapSwapped at hcmp
  rw [g0, g0, gl, gl, prod_delta, if_pos, mul_one, mul_one] at hcmp
  · have hle : ‖S (j + ds.getD 0 0 * i) (j' + ds.getD 0 0 * i')‖ ^ 2 ≤ frob2 (ds.getD 0 0 * ds.getD 0 0) S := by
      unfold frob2
      refine le_trans ?_ (Finset.single_le_sum (f := fun x => ∑ y ∈ Finset.range (ds.getD 0 0 * ds.getD 0 0), ‖S x y‖ ^ 2)
        (fun _ _ => Finset.sum_nonneg fun _ _ => by positivity) (Finset.mem_range.2 (add_mul_lt hj hi)))
      exact Finset.single_le_sum (f := fun y => ‖S (j + ds.getD 0 0 * i) y‖ ^ 2) (fun _ _ => by positivity)
        (Finset.mem_range.2 (add_mul_lt hj' hi'))
    rw [a4, ← hcmp] at hle
    nlinarith [norm_nonneg ((site H12 (ds.length - 1)).get [i + ds.getD 0 0 * j, i' + ds.getD 0 0 * j'])]
  · intro x hx hne
    rw [gm _ _ x hx hne, gm _ _ x hx hne]

/-- The hypotheses of the theorems of C39 are met by three spins 1/2 with fields and Ising couplings of strength two. -/
theorem C75_witness : let Z : Tensor ℝ := ⟨[2, 2], fun i => if i.getD 0 0 = i.getD 1 0 then (if i.getD 0 0 = 0 then 1 else -1) else 0⟩
    let H1 := [Z, Z, Z]
    let H12 := [smul 2 (kron2 Z Z), smul 2 (kron2 Z Z), smul 2 (kron2 Z Z)]
    SparseTerms [2, 2, 2] H12 H1 ∧ (site H12 2).dims = [2 * 2, 2 * 2] ∧ 1 < ‖(site H12 2).get [0 + 2 * 0, 0 + 2 * 0]‖ ∧
    (∃ svd : Tensor ℝ → SvdRes ℝ, GoodSvd svd ∧ NonnegSvd svd) := by
  intro Z H1 H12
  have hZ : Z.dims = [2, 2] := rfl
  have h1 : ∀ k, k < 3 → site H1 k = Z := by
    intro k hk
    have : k = 0 ∨ k = 1 ∨ k = 2 := by omega
    rcases this with rfl | rfl | rfl <;> rfl
  have h12 : ∀ k, k < 3 → site H12 k = smul 2 (kron2 Z Z) := by
    intro k hk
    have : k = 0 ∨ k = 1 ∨ k = 2 := by omega
    rcases this with rfl | rfl | rfl <;> rfl
  have hd : ∀ k, k < 3 → [2, 2, 2].getD k 0 = 2 := by
    intro k hk
    have : k = 0 ∨ k = 1 ∨ k = 2 := by omega
    rcases this with rfl | rfl | rfl <;> rfl
  refine ⟨⟨rfl, rfl, ?_, ?_, ?_⟩, ?_, ?_, exists_goodSvd_nonneg⟩
  · intro k hk
    simp only [List.length_cons, List.length_nil] at hk
    right; rw [h1 k (by omega), hd k (by omega)]
  · intro k hk
    simp only [List.length_cons, List.length_nil] at hk
    right; rw [h12 k (by omega), hd k (by omega), hd (k + 1) (by omega)]
    simp [smul, kron2_dims hZ hZ]
  · intro k hk
    simp only [List.length_cons, List.length_nil] at hk
    left; rw [h1 k (by omega), not_isEmpty hZ (by norm_num)]; simp
  · rw [h12 2 (by norm_num)]; simp [smul, kron2_dims hZ hZ]
  · rw [h12 2 (by norm_num)]
    simp only [smul]
    rw [kron2_get hZ (by norm_num) (by norm_num)]
    simp [Z]

end MPS.Props
