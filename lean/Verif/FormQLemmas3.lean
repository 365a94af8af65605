import Verif.FormQLemmas2

set_option linter.unusedSectionVars false
set_option linter.unusedSimpArgs false

/-! # Helper lemmas for quadratic forms: the matrices -/

namespace MPS.Form
open MPS Tensor
variable {R : Type} [CommRing R] [StarRing R] [DecidableEq R]

theorem addFold {α : Type} (l : List α) (v : α → Bool) (G : α → Tensor R) {dm : List Nat} (hdm : dm.prod ≠ 0)
    (hG : ∀ p ∈ l, v p = true → (G p).dims = dm) :
    let r := l.foldl (fun out p => if v p then maybeAdd out (G p) else out) Tensor.empty
    ((r = Tensor.empty ∧ ∀ p ∈ l, v p = false) ∨ (r.dims = dm ∧ ∃ p ∈ l, v p = true)) ∧
      ((∃ p ∈ l, v p = true) → ∀ idx, r.get idx = (l.map fun p => if v p then (G p).get idx else 0).sum) := by
  induction l using List.reverseRecOn with
  | nil => simp
  | append_singleton l p ih =>
    have ih := ih fun q hq => hG q (by simp [hq])
    simp only [List.foldl_append, List.foldl_cons, List.foldl_nil]
    simp only at ih
    generalize l.foldl (fun out p => if v p then maybeAdd out (G p) else out) Tensor.empty = r at ih ⊢
    obtain ⟨i1, i2⟩ := ih
    by_cases hv : v p = true
    · rw [if_pos hv]
      have hGp := hG p (by simp) hv
      refine ⟨Or.inr ⟨?_, p, by simp, hv⟩, fun _ idx => ?_⟩
      · unfold maybeAdd
        rcases i1 with ⟨rfl, _⟩ | ⟨h, _⟩
        · rw [empty_isEmpty, if_pos rfl]; exact hGp
        · rw [notEmpty_dims h hdm, if_neg (by simp)]; exact h
      · simp only [List.map_append, List.sum_append, List.map_cons, List.map_nil, List.sum_cons, List.sum_nil, add_zero, if_pos hv]
        unfold maybeAdd
        rcases i1 with ⟨rfl, h0⟩ | ⟨h, hex⟩
        · rw [empty_isEmpty, if_pos rfl]
          have : (l.map fun p => if v p then (G p).get idx else 0).sum = 0 := by
            have : (l.map fun p => if v p then (G p).get idx else 0) = l.map fun _ => 0 :=
              List.map_congr_left fun q hq => by rw [h0 q hq]; simp
            rw [this]; simp
          rw [this, zero_add]
        · rw [notEmpty_dims h hdm, if_neg (by simp)]
          simp only [Tensor.add]
          rw [i2 hex idx]
    · rw [if_neg hv]
      have hv' : v p = false := by simpa using hv
      refine ⟨?_, fun hex idx => ?_⟩
      · rcases i1 with ⟨h1, h2⟩ | ⟨h1, q, hq, h2⟩
        · exact Or.inl ⟨h1, fun q hq => by
            rcases List.mem_append.1 hq with h | h
            · exact h2 q h
            · rw [List.mem_singleton.1 h]; exact hv'⟩
        · exact Or.inr ⟨h1, q, by simp [hq], h2⟩
      · simp only [List.map_append, List.sum_append, List.map_cons, List.map_nil, List.sum_cons, List.sum_nil, if_neg hv, add_zero]
        refine i2 ?_ idx
        obtain ⟨q, hq, h⟩ := hex
        rcases List.mem_append.1 hq with h' | h'
        · exact ⟨q, h', h⟩
        · rw [List.mem_singleton.1 h'] at h; exact absurd h hv

/-! ### contraction of the effective matrix with tensors -/

theorem exists_cfgs (ds : List Nat) : ∃ S : Finset (List Nat), ∀ F : List Nat → R, sumCfg ds F = ∑ s ∈ S, F s := by
  induction ds with
  | nil => exact ⟨{[]}, fun F => by simp⟩
  | cons d ds ih =>
    obtain ⟨S, hS⟩ := ih
    refine ⟨(Finset.range d ×ˢ S).image fun p => p.1 :: p.2, fun F => ?_⟩
    rw [Finset.sum_image, Finset.sum_product, sumCfg_cons]
    · exact Finset.sum_congr rfl fun i _ => hS _
    · rintro ⟨i, s⟩ _ ⟨j, t⟩ _ h
      simpa using h

theorem contract_mid {a a' b b' c c' : Nat} {dm : List Nat} (EL ER : Nat → Nat → Nat → R) (qm pm : List Nat → Nat → Nat → R)
    (om : List Nat → List Nat → Nat → Nat → R) :
    (∑ x ∈ Finset.range a, ∑ α ∈ Finset.range c, ∑ y ∈ Finset.range b, EL x α y * ∑ x' ∈ Finset.range a', ∑ β ∈ Finset.range c',
      ∑ y' ∈ Finset.range b', (sumCfg dm fun i => sumCfg dm fun j => star (qm i x x') * om i j α β * pm j y y') * ER x' β y') =
    ∑ x ∈ Finset.range a, sumCfg dm fun i => ∑ x' ∈ Finset.range a', ∑ y ∈ Finset.range b, sumCfg dm fun j => ∑ y' ∈ Finset.range b',
      star (qm i x x') * (∑ α ∈ Finset.range c, ∑ β ∈ Finset.range c', EL x α y * om i j α β * ER x' β y') * pm j y y' := by
  obtain ⟨S, hS⟩ := exists_cfgs (R := R) dm
  simp only [hS]
  simp only [Finset.mul_sum, Finset.sum_mul]
  refine Finset.sum_congr rfl fun x _ => ?_
  -- both sides as one sum over a product
  simp only [← Finset.sum_product']
  refine Finset.sum_nbij' (i := fun p => (p.2.2.2.2.2.1, p.2.2.1, p.2.1, p.2.2.2.2.2.2, p.2.2.2.2.1, p.1, p.2.2.2.1))
    (j := fun p => (p.2.2.2.2.2.1, p.2.2.1, p.2.1, p.2.2.2.2.2.2, p.2.2.2.2.1, p.1, p.2.2.2.1)) ?_ ?_ ?_ ?_ ?_
  · intro p hp; simp only [Finset.mem_product] at hp ⊢; tauto
  · intro p hp; simp only [Finset.mem_product] at hp ⊢; tauto
  · intro p _; rfl
  · intro p _; rfl
  · intro p _; simp only; ring

/-! ### the composed tensors -/

theorem mat2_left {L : Tensor R} {a b : Nat} (hL : L.dims = [1, 1, a, b]) {x y : Nat} (hx : x < a) (hy : y < b) :
    (reshape L [a, b]).get [x, y] = L.get [0, 0, x, y] := by
  apply reshape_get
  · rw [hL]; simp [hx, hy]
  · rw [hL]; simp [flat]

theorem mat2_right {M : Tensor R} {a b : Nat} (hM : M.dims = [a, b, 1, 1]) {x y : Nat} (hx : x < a) (hy : y < b) :
    (reshape M [a, b]).get [x, y] = M.get [x, y, 0, 0] := by
  apply reshape_get
  · rw [hM]; simp [hx, hy]
  · rw [hM]; simp [flat]

theorem kron_entry {A B : Tensor R} {a1 a2 b1 b2 : Nat} (hA : A.dims = [a1, a2]) (hB : B.dims = [b1, b2]) {x y x' y' : Nat}
    (hx : x < b1) (hy : y < b2) :
    (kron A B).dims = [b1 * a1, b2 * a2] ∧ (kron A B).get [x + b1 * x', y + b2 * y'] = A.get [x', y'] * B.get [x, y] := by
  have e : A.dim 0 = a1 ∧ A.dim 1 = a2 ∧ B.dim 0 = b1 ∧ B.dim 1 = b2 := by simp [dim, hA, hB]
  obtain ⟨e1, e2, e3, e4⟩ := e
  refine ⟨by simp [kron, e1, e2, e3, e4], ?_⟩
  have h1 : (x + b1 * x') / b1 = x' := by rw [Nat.add_mul_div_left _ _ (by omega), Nat.div_eq_of_lt hx, zero_add]
  have h2 : (x + b1 * x') % b1 = x := by rw [Nat.add_mul_mod_self_left, Nat.mod_eq_of_lt hx]
  have h3 : (y + b2 * y') / b2 = y' := by rw [Nat.add_mul_div_left _ _ (by omega), Nat.div_eq_of_lt hy, zero_add]
  have h4 : (y + b2 * y') % b2 = y := by rw [Nat.add_mul_mod_self_left, Nat.mod_eq_of_lt hy]
  simp [kron, e3, e4, h1, h2, h3, h4]

theorem qfCompose_spec {L op Rt : Tensor R} {a b a' b' d : Nat} (hL : L.dims = [1, 1, a, b]) (hR : Rt.dims = [a', b', 1, 1])
    (hop : op.dims = [d, d]) :
    (0 < a → 0 < b → 0 < d → (qfCompose L op Rt).dims = [[a, d, a'].prod, [b, d, b'].prod]) ∧
    ∀ x i x' y j y', x < a → i < d → x' < a' → y < b → j < d → y' < b' →
      (qfCompose L op Rt).get [flat [a, d, a'] [x, i, x'], flat [b, d, b'] [y, j, y']] =
        L.get [0, 0, x, y] * op.get [i, j] * Rt.get [x', y', 0, 0] := by
  obtain ⟨_, _, l2, l3⟩ := dim_of4 hL
  obtain ⟨r0, r1, _, _⟩ := dim_of4 hR
  unfold qfCompose
  rw [l2, l3, r0, r1]
  have hd : ∀ i j, i < d → j < d → (kron (reshape Rt [a', b']) op).dims = [d * a', d * b'] := fun i j hi hj =>
    (kron_entry reshape_dims hop hi hj (x' := 0) (y' := 0)).1
  constructor
  · intro ha hb h0
    rw [(kron_entry (hd 0 0 h0 h0) (reshape_dims (A := L) (ds := [a, b])) ha hb (x' := 0) (y' := 0)).1]
    simp
  · intro x i x' y j y' hx hi hx' hy hj hy'
    have e1 : flat [a, d, a'] [x, i, x'] = x + a * (i + d * x') := by simp [flat]
    have e2 : flat [b, d, b'] [y, j, y'] = y + b * (j + d * y') := by simp [flat]
    rw [e1, e2, (kron_entry (hd i j hi hj) (reshape_dims (A := L) (ds := [a, b])) hx hy).2, (kron_entry (reshape_dims (A := Rt) (ds := [a', b'])) hop hi hj).2,
      mat2_left hL hx hy, mat2_right hR hx' hy']
    ring

theorem qfCompose2_spec {L op1 op2 Rt : Tensor R} {a b a' b' d d' : Nat} (hL : L.dims = [1, 1, a, b]) (hR : Rt.dims = [a', b', 1, 1])
    (hop1 : op1.dims = [d, d]) (hop2 : op2.dims = [d', d']) :
    (0 < a → 0 < b → 0 < d → 0 < d' → (qfCompose2 L op1 op2 Rt).dims = [[a, d, d', a'].prod, [b, d, d', b'].prod]) ∧
    ∀ x i i' x' y j j' y', x < a → i < d → i' < d' → x' < a' → y < b → j < d → j' < d' → y' < b' →
      (qfCompose2 L op1 op2 Rt).get [flat [a, d, d', a'] [x, i, i', x'], flat [b, d, d', b'] [y, j, j', y']] =
        L.get [0, 0, x, y] * (op1.get [i, j] * op2.get [i', j']) * Rt.get [x', y', 0, 0] := by
  obtain ⟨_, _, l2, l3⟩ := dim_of4 hL
  obtain ⟨r0, r1, _, _⟩ := dim_of4 hR
  unfold qfCompose2
  rw [l2, l3, r0, r1]
  have hd : ∀ i j, i < d' → j < d' → (kron (reshape Rt [a', b']) op2).dims = [d' * a', d' * b'] := fun i j hi hj =>
    (kron_entry reshape_dims hop2 hi hj (x' := 0) (y' := 0)).1
  have hd2 : ∀ i j i' j', i < d → j < d → i' < d' → j' < d' → (kron (kron (reshape Rt [a', b']) op2) op1).dims = [d * (d' * a'), d * (d' * b')] :=
    fun i j i' j' hi hj hi' hj' => (kron_entry (hd i' j' hi' hj') hop1 hi hj (x' := 0) (y' := 0)).1
  constructor
  · intro ha hb h0 h0'
    rw [(kron_entry (hd2 0 0 0 0 h0 h0 h0' h0') (reshape_dims (A := L) (ds := [a, b])) ha hb (x' := 0) (y' := 0)).1]
    simp
  · intro x i i' x' y j j' y' hx hi hi' hx' hy hj hj' hy'
    have e1 : flat [a, d, d', a'] [x, i, i', x'] = x + a * (i + d * (i' + d' * x')) := by simp [flat]
    have e2 : flat [b, d, d', b'] [y, j, j', y'] = y + b * (j + d * (j' + d' * y')) := by simp [flat]
    rw [e1, e2, (kron_entry (hd2 i j i' j' hi hj hi' hj') (reshape_dims (A := L) (ds := [a, b])) hx hy).2, (kron_entry (hd i' j' hi' hj') hop1 hi hj).2,
      (kron_entry (reshape_dims (A := Rt) (ds := [a', b'])) hop2 hi' hj').2,
      mat2_left hL hx hy, mat2_right hR hx' hy']
    ring

theorem applyOne_spec {L op Rt P : Tensor R} {a b a' b' d : Nat} (hL : L.dims = [1, 1, a, b]) (hR : Rt.dims = [a', b', 1, 1])
    (hop : op.dims = [d, d]) (hP : P.dims = [b, d, b']) :
    let V := fold (fold (reshape L [L.dim 2, L.dim 3]) 1 (foldin op (-1) P 1) 0) 2 (reshape Rt [Rt.dim 0, Rt.dim 1]) 1
    V.dims = [a, d, a'] ∧ ∀ x i x', x < a → i < d → x' < a' → V.get [x, i, x'] =
      sumCfg [b, d, b'] fun J => L.get [0, 0, x, J.getD 0 0] * op.get [i, J.getD 1 0] * Rt.get [x', J.getD 2 0, 0, 0] * P.get J := by
  obtain ⟨_, _, l2, l3⟩ := dim_of4 hL
  obtain ⟨r0, r1, _, _⟩ := dim_of4 hR
  intro V
  have hV : V = fold (fold (reshape L [a, b]) 1 (foldin op (-1) P 1) 0) 2 (reshape Rt [a', b']) 1 := by
    simp only [V]; rw [l2, l3, r0, r1]
  have h1 : (foldin op (-1) P 1).dims = [b, d, b'] := by simp [foldin, hop, hP]
  have h2 : (fold (reshape L [a, b]) 1 (foldin op (-1) P 1) 0).dims = [a, d, b'] := by simp only [fold, h1, reshape_dims]; simp
  rw [hV]
  refine ⟨by simp only [fold, h1, reshape_dims]; simp, fun x i x' hx hi hx' => ?_⟩
  have g1 : ∀ y i y', (foldin op (-1) P 1).get [y, i, y'] = ∑ j ∈ Finset.range d, op.get [i, j] * P.get [y, j, y'] := by
    intro y i y'; simp [foldin, hop, hP]
  have g2 : ∀ y', (fold (reshape L [a, b]) 1 (foldin op (-1) P 1) 0).get [x, i, y'] =
      ∑ y ∈ Finset.range b, L.get [0, 0, x, y] * ∑ j ∈ Finset.range d, op.get [i, j] * P.get [y, j, y'] := by
    intro y'
    have : (fold (reshape L [a, b]) 1 (foldin op (-1) P 1) 0).get [x, i, y'] =
        ∑ y ∈ Finset.range b, (reshape L [a, b]).get [x, y] * (foldin op (-1) P 1).get [y, i, y'] := by
      simp [fold, h1, reshape_dims]
    rw [this]
    refine Finset.sum_congr rfl fun y hy => ?_
    rw [mat2_left hL hx (Finset.mem_range.1 hy), g1]
  have g3 : (fold (fold (reshape L [a, b]) 1 (foldin op (-1) P 1) 0) 2 (reshape Rt [a', b']) 1).get [x, i, x'] =
      ∑ y' ∈ Finset.range b', (fold (reshape L [a, b]) 1 (foldin op (-1) P 1) 0).get [x, i, y'] * (reshape Rt [a', b']).get [x', y'] := by
    generalize hW : fold (reshape L [a, b]) 1 (foldin op (-1) P 1) 0 = W at h2
    simp [fold, h2, reshape_dims]
  rw [g3]
  simp only [sumCfg_cons, sumCfg_nil]
  rw [Finset.sum_comm_cycle]
  refine Finset.sum_congr rfl fun y' hy' => ?_
  rw [g2, mat2_right hR hx' (Finset.mem_range.1 hy'), Finset.sum_mul]
  refine Finset.sum_congr rfl fun y hy => ?_
  rw [Finset.mul_sum, Finset.sum_mul]
  refine Finset.sum_congr rfl fun j _ => ?_
  simp only [List.getD_cons_zero, List.getD_cons_succ]
  ring

theorem applyTwo_spec {L op1 op2 Rt P : Tensor R} {a b a' b' d d' : Nat} (hL : L.dims = [1, 1, a, b]) (hR : Rt.dims = [a', b', 1, 1])
    (hop1 : op1.dims = [d, d]) (hop2 : op2.dims = [d', d']) (hP : P.dims = [b, d, d', b']) :
    let V := fold (fold (reshape L [L.dim 2, L.dim 3]) 1 (foldin op1 (-1) (foldin op2 (-1) P 2) 1) 0) 3 (reshape Rt [Rt.dim 0, Rt.dim 1]) 1
    V.dims = [a, d, d', a'] ∧ ∀ x i i' x', x < a → i < d → i' < d' → x' < a' → V.get [x, i, i', x'] =
      sumCfg [b, d, d', b'] fun J => L.get [0, 0, x, J.getD 0 0] * (op1.get [i, J.getD 1 0] * op2.get [i', J.getD 2 0]) *
        Rt.get [x', J.getD 3 0, 0, 0] * P.get J := by
  obtain ⟨_, _, l2, l3⟩ := dim_of4 hL
  obtain ⟨r0, r1, _, _⟩ := dim_of4 hR
  intro V
  have hV : V = fold (fold (reshape L [a, b]) 1 (foldin op1 (-1) (foldin op2 (-1) P 2) 1) 0) 3 (reshape Rt [a', b']) 1 := by
    simp only [V]; rw [l2, l3, r0, r1]
  have h0 : (foldin op2 (-1) P 2).dims = [b, d, d', b'] := by simp [foldin, hop2, hP]
  have h1 : (foldin op1 (-1) (foldin op2 (-1) P 2) 1).dims = [b, d, d', b'] := by
    generalize foldin op2 (-1) P 2 = W at h0; simp [foldin, hop1, h0]
  have h2 : (fold (reshape L [a, b]) 1 (foldin op1 (-1) (foldin op2 (-1) P 2) 1) 0).dims = [a, d, d', b'] := by simp only [fold, h1, reshape_dims]; simp
  rw [hV]
  refine ⟨by simp only [fold, h1, reshape_dims]; simp, fun x i i' x' hx hi hi' hx' => ?_⟩
  have g0 : ∀ y i i' y', (foldin op2 (-1) P 2).get [y, i, i', y'] = ∑ j ∈ Finset.range d', op2.get [i', j] * P.get [y, i, j, y'] := by
    intro y i i' y'; simp [foldin, hop2, hP]
  have g1 : ∀ y i i' y', (foldin op1 (-1) (foldin op2 (-1) P 2) 1).get [y, i, i', y'] =
      ∑ j ∈ Finset.range d, op1.get [i, j] * ∑ j' ∈ Finset.range d', op2.get [i', j'] * P.get [y, j, j', y'] := by
    intro y i i' y'
    have : (foldin op1 (-1) (foldin op2 (-1) P 2) 1).get [y, i, i', y'] =
        ∑ j ∈ Finset.range d, op1.get [i, j] * (foldin op2 (-1) P 2).get [y, j, i', y'] := by
      generalize foldin op2 (-1) P 2 = W at h0; simp [foldin, hop1, h0]
    rw [this]
    exact Finset.sum_congr rfl fun j _ => by rw [g0]
  have g2 : ∀ y', (fold (reshape L [a, b]) 1 (foldin op1 (-1) (foldin op2 (-1) P 2) 1) 0).get [x, i, i', y'] =
      ∑ y ∈ Finset.range b, L.get [0, 0, x, y] * ∑ j ∈ Finset.range d, op1.get [i, j] * ∑ j' ∈ Finset.range d', op2.get [i', j'] * P.get [y, j, j', y'] := by
    intro y'
    have : (fold (reshape L [a, b]) 1 (foldin op1 (-1) (foldin op2 (-1) P 2) 1) 0).get [x, i, i', y'] =
        ∑ y ∈ Finset.range b, (reshape L [a, b]).get [x, y] * (foldin op1 (-1) (foldin op2 (-1) P 2) 1).get [y, i, i', y'] := by
      generalize foldin op1 (-1) (foldin op2 (-1) P 2) 1 = W at h1
      simp [fold, h1, reshape_dims]
    rw [this]
    refine Finset.sum_congr rfl fun y hy => ?_
    rw [mat2_left hL hx (Finset.mem_range.1 hy), g1]
  have g3 : (fold (fold (reshape L [a, b]) 1 (foldin op1 (-1) (foldin op2 (-1) P 2) 1) 0) 3 (reshape Rt [a', b']) 1).get [x, i, i', x'] =
      ∑ y' ∈ Finset.range b', (fold (reshape L [a, b]) 1 (foldin op1 (-1) (foldin op2 (-1) P 2) 1) 0).get [x, i, i', y'] * (reshape Rt [a', b']).get [x', y'] := by
    generalize fold (reshape L [a, b]) 1 (foldin op1 (-1) (foldin op2 (-1) P 2) 1) 0 = W at h2
    simp [fold, h2, reshape_dims, nrm]
  rw [g3]
  simp only [sumCfg_cons, sumCfg_nil]
  have e : ∀ (F : Nat → Nat → Nat → Nat → R), ∑ y ∈ Finset.range b, ∑ j ∈ Finset.range d, ∑ j' ∈ Finset.range d', ∑ y' ∈ Finset.range b', F y j j' y' =
      ∑ y' ∈ Finset.range b', ∑ y ∈ Finset.range b, ∑ j ∈ Finset.range d, ∑ j' ∈ Finset.range d', F y j j' y' := by
    intro F
    rw [Finset.sum_comm (s := Finset.range b')]
    refine Finset.sum_congr rfl fun y _ => ?_
    rw [Finset.sum_comm_cycle]
  rw [e]
  refine Finset.sum_congr rfl fun y' hy' => ?_
  rw [g2, mat2_right hR hx' (Finset.mem_range.1 hy'), Finset.sum_mul]
  refine Finset.sum_congr rfl fun y hy => ?_
  rw [Finset.mul_sum, Finset.sum_mul]
  refine Finset.sum_congr rfl fun j _ => ?_
  rw [Finset.mul_sum, Finset.mul_sum, Finset.sum_mul]
  refine Finset.sum_congr rfl fun j' _ => ?_
  simp only [List.getD_cons_zero, List.getD_cons_succ]
  ring

end MPS.Form
