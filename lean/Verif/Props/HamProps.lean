import Verif.HamSpec
import Verif.Props.MPOProps

/-!
# Properties C33, C37, C38: Hamiltonians
-/

set_option linter.unusedSectionVars false
set_option linter.unusedSimpArgs false

namespace MPS.Props
open MPS Tensor
variable {R : Type} [CommRing R]

/-! ### C37 -/

/-- running a history of calls on a new object -/
def runHam (N : Nat) (periodic : Bool) (calls : List (HamCall R)) : Option (ConstHam R) :=
  calls.foldlM HamCall.run (ConstHam.new N periodic)

theorem kron2_dims {a b : Tensor R} {d e : Nat} (ha : a.dims = [d, d]) (hb : b.dims = [e, e]) :
    (kron2 a b).dims = [d * e, d * e] := by
  simp [kron2, kron, dim, ha, hb, nrm]

theorem kron2_get {a b : Tensor R} {d : Nat} (ha : a.dims = [d, d]) {i i' j j' : Nat} (hi : i < d) (hi' : i' < d) :
    (kron2 a b).get [i + d * j, i' + d * j'] = a.get [i, i'] * b.get [j, j'] := by
  have hd : 0 < d := by omega
  simp [kron2, kron, dim, ha, nrm, Nat.add_mul_div_left _ _ hd, Nat.div_eq_of_lt hi, Nat.div_eq_of_lt hi',
    Nat.mod_eq_of_lt hi, Nat.mod_eq_of_lt hi', mul_comm]

/-- the sum over the terms of a bond -/
theorem interactionSum_spec {d e : Nat} (ts : List (Tensor R × Tensor R))
    (h : ∀ t ∈ ts, t.1.dims = [d, d] ∧ t.2.dims = [e, e]) (hne : ts ≠ []) :
    let H := ConstHam.interactionSum (ts.map Prod.fst) (ts.map Prod.snd)
    H.dims = [d * e, d * e] ∧ ∀ i i' j j', i < d → i' < d →
      H.get [i + d * j, i' + d * j'] = (ts.map fun t => t.1.get [i, i'] * t.2.get [j, j']).sum := by
  intro H
  have key : ∀ n, n ≤ ts.length → let G := (List.range n).foldl (fun H i =>
      if i = 0 then kron2 ((ts.map Prod.fst).getD i Tensor.empty) ((ts.map Prod.snd).getD i Tensor.empty)
      else add H (kron2 ((ts.map Prod.fst).getD i Tensor.empty) ((ts.map Prod.snd).getD i Tensor.empty))) Tensor.empty
      (0 < n → G.dims = [d * e, d * e]) ∧ ∀ i i' j j', i < d → i' < d →
      G.get [i + d * j, i' + d * j'] = ((ts.take n).map fun t => t.1.get [i, i'] * t.2.get [j, j']).sum := by
    intro n
    induction n with
    | zero => intro _; simp [Tensor.empty]
    | succ n ih =>
      intro hn
      have ih := ih (by omega)
      have hg : n < ts.length := by omega
      have h1 : (ts.map Prod.fst).getD n Tensor.empty = ts[n].1 := by simp [hg]
      have h2 : (ts.map Prod.snd).getD n Tensor.empty = ts[n].2 := by simp [hg]
      have hm := h ts[n] (List.getElem_mem hg)
      simp only [List.range_succ, List.foldl_append, List.foldl_cons, List.foldl_nil, h1, h2]
      have ht : ts.take (n + 1) = ts.take n ++ [ts[n]] := List.take_succ_eq_append_getElem hg
      refine ⟨fun _ => ?_, fun i i' j j' hi hi' => ?_⟩
      · split
        · exact kron2_dims hm.1 hm.2
        · exact ih.1 (by omega)
      · rw [ht, List.map_append, List.sum_append]
        split
        · subst n; simp [kron2_get (b := ts[0].2) hm.1 hi hi']
        · rw [show ∀ A B : Tensor R, ∀ x, (add A B).get x = A.get x + B.get x from fun _ _ _ => rfl,
            ih.2 i i' j j' hi hi', kron2_get (b := ts[n].2) hm.1 hi hi']
          simp
  have := key ts.length le_rfl
  simp only [List.take_length] at this
  have hlen : (ts.map Prod.fst).length = ts.length := by simp
  show ((ConstHam.interactionSum _ _).dims = _) ∧ _
  unfold H
  unfold ConstHam.interactionSum
  rw [hlen]
  exact ⟨this.1 (List.length_pos_iff.mpr hne), this.2⟩

/-- the object agrees with the history -/
structure HamRep (ds : List Nat) (cs : List (HamCall R)) (periodic : Bool) (h : ConstHam R) : Prop where
  l1 : h.H12.length = ds.length
  l2 : h.left.length = ds.length
  l3 : h.right.length = ds.length
  l4 : h.H1.length = ds.length
  l5 : h.dims.length = ds.length
  per : h.periodic = periodic
  loc : ∀ k, k < ds.length → h.H1.getD k Tensor.empty = (localAfter cs k).getD Tensor.empty
  left : ∀ k, k < ds.length → h.left.getD k [] = (termsAfter cs k).map Prod.fst
  right : ∀ k, k < ds.length → h.right.getD k [] = (termsAfter cs k).map Prod.snd
  h12 : ∀ k, k < ds.length → h.H12.getD k Tensor.empty =
    if termsAfter cs k = [] then Tensor.empty
      else ConstHam.interactionSum ((termsAfter cs k).map Prod.fst) ((termsAfter cs k).map Prod.snd)
  fits : ∀ k, ∀ t ∈ termsAfter cs k, k + 1 < ds.length ∧ t.1.dims = [ds.getD k 0, ds.getD k 0] ∧
    t.2.dims = [ds.getD (k + 1) 0, ds.getD (k + 1) 0]
  dims : ∀ k, k < ds.length → (∃ c ∈ cs, c.Mentions k) → h.dims.getD k 0 = ds.getD k 0

theorem localAfter_snoc (cs : List (HamCall R)) (c : HamCall R) (k : Nat) :
    localAfter (cs ++ [c]) k = match c with
      | .setLocal k' h => if k' = k then some h else localAfter cs k
      | _ => localAfter cs k := by
  cases c <;> simp [localAfter]

theorem termsAfter_snoc (cs : List (HamCall R)) (c : HamCall R) (k : Nat) :
    termsAfter (cs ++ [c]) k = match c with
      | .setInter k' a b => if k' = k then [(a, b)] else termsAfter cs k
      | .addInter k' a b => if k' = k then termsAfter cs k ++ [(a, b)] else termsAfter cs k
      | _ => termsAfter cs k := by
  cases c <;> simp [termsAfter]

theorem getD_set {α : Type} (l : List α) (i j : Nat) (a b : α) (h : i < l.length) :
    (l.set i a).getD j b = if i = j then a else l.getD j b := by
  by_cases hij : i = j
  · subst hij; simp [h]
  · simp [List.getElem?_set, hij]

theorem dim_square {a : Tensor R} {d : Nat} (h : a.dims = [d, d]) : a.dim 0 = d := by simp [dim, h, nrm]

/-- one interaction: the bond `k` ends up with the terms `ts ++ [(a,b)]` -/
theorem addInteraction_rep {ds : List Nat} {h : ConstHam R} {k : Nat} {a b : Tensor R}
    {ts : List (Tensor R × Tensor R)} (l1 : h.H12.length = ds.length) (l2 : h.left.length = ds.length)
    (l3 : h.right.length = ds.length) (hk : k + 1 < ds.length)
    (hl : h.left.getD k [] = ts.map Prod.fst) (hr : h.right.getD k [] = ts.map Prod.snd)
    (ha : a.dims = [ds.getD k 0, ds.getD k 0]) (hb : b.dims = [ds.getD (k + 1) 0, ds.getD (k + 1) 0])
    (hts : ∀ t ∈ ts, t.1.dims = [ds.getD k 0, ds.getD k 0] ∧ t.2.dims = [ds.getD (k + 1) 0, ds.getD (k + 1) 0])
    (hpos : ∀ d ∈ ds, 0 < d) :
    h.addInteraction k a b = some ⟨h.H12.set k (ConstHam.interactionSum ((ts ++ [(a, b)]).map Prod.fst) ((ts ++ [(a, b)]).map Prod.snd)),
      h.left.set k ((ts ++ [(a, b)]).map Prod.fst), h.right.set k ((ts ++ [(a, b)]).map Prod.snd), h.H1,
      (h.dims.set k (ds.getD k 0)).set (k + 1) (ds.getD (k + 1) 0), h.periodic⟩ := by
  have hd : ∀ j, j < ds.length → 0 < ds.getD j 0 := fun j hj => by
    rw [List.getD_eq_getElem _ _ hj]; exact hpos _ (List.getElem_mem hj)
  unfold ConstHam.addInteraction
  rw [if_neg (by omega)]
  simp only [Int.toNat_natCast, ConstHam.computeInteraction, hl, hr]
  rw [getD_set _ _ _ _ _ (by omega), getD_set _ _ _ _ _ (by omega), if_pos rfl, if_pos rfl, dim_square ha, dim_square hb]
  have hm : (ts ++ [(a, b)]).map Prod.fst = ts.map Prod.fst ++ [a] := by simp
  have hm2 : (ts ++ [(a, b)]).map Prod.snd = ts.map Prod.snd ++ [b] := by simp
  have := (interactionSum_spec (ts ++ [(a, b)]) (d := ds.getD k 0) (e := ds.getD (k + 1) 0) (by
    intro t ht
    rcases List.mem_append.1 ht with ht | ht
    · exact hts t ht
    · simp only [List.mem_singleton] at ht; subst ht; exact ⟨ha, hb⟩) (by simp)).1
  rw [← hm, ← hm2, if_neg]
  have h1 := hd k (by omega)
  have h2 := hd (k + 1) hk
  have h3 := Nat.mul_pos h1 h2
  have h4 : 0 < ds.getD k 0 * ds.getD (k + 1) 0 * (ds.getD k 0 * ds.getD (k + 1) 0) := Nat.mul_pos h3 h3
  simp only [isEmpty, size, this, beq_iff_eq]
  simp only [List.prod_cons, List.prod_nil, mul_one]
  omega

theorem hamRep_snoc {ds : List Nat} (hpos : ∀ d ∈ ds, 0 < d) {cs : List (HamCall R)} {periodic : Bool} {h : ConstHam R}
    (hr : HamRep ds cs periodic h) {c : HamCall R} (hc : c.Valid ds) :
    ∃ h', c.run h = some h' ∧ HamRep ds (cs ++ [c]) periodic h' := by
  have ment : ∀ k, (∃ c' ∈ cs ++ [c], c'.Mentions k) → (∃ c' ∈ cs, c'.Mentions k) ∨ c.Mentions k := by
    rintro k ⟨c', h1, h2⟩
    rcases List.mem_append.1 h1 with h1 | h1
    · exact Or.inl ⟨c', h1, h2⟩
    · simp only [List.mem_singleton] at h1; subst h1; exact Or.inr h2
  have inter : ∀ (k : Nat) (a b : Tensor R) (ts : List (Tensor R × Tensor R)) (g : ConstHam R),
      (∀ j, termsAfter (cs ++ [c]) j = if k = j then ts ++ [(a, b)] else termsAfter cs j) →
      (∀ j, localAfter (cs ++ [c]) j = localAfter cs j) →
      (∀ j, c.Mentions j → k = j ∨ k + 1 = j) →
      (k + 1 < ds.length ∧ a.dims = [ds.getD k 0, ds.getD k 0] ∧ b.dims = [ds.getD (k + 1) 0, ds.getD (k + 1) 0]) →
      (∀ t ∈ ts, t.1.dims = [ds.getD k 0, ds.getD k 0] ∧ t.2.dims = [ds.getD (k + 1) 0, ds.getD (k + 1) 0]) →
      g.H12 = h.H12 → g.H1 = h.H1 → g.dims = h.dims → g.periodic = h.periodic →
      g.left = h.left.set k (ts.map Prod.fst) → g.right = h.right.set k (ts.map Prod.snd) →
      ∃ h', g.addInteraction k a b = some h' ∧ HamRep ds (cs ++ [c]) periodic h' := by
    intro k a b ts g e1 e2 e3 hv hts g1 g2 g3 g4 g5 g6
    have hl := hr.l2
    have hrr := hr.l3
    refine ⟨_, addInteraction_rep (ds := ds) (ts := ts) (by rw [g1]; exact hr.l1) (by rw [g5]; simpa using hr.l2)
      (by rw [g6]; simpa using hr.l3) hv.1 (by rw [g5, getD_set _ _ _ _ _ (by omega), if_pos rfl])
      (by rw [g6, getD_set _ _ _ _ _ (by omega), if_pos rfl]) hv.2.1 hv.2.2 hts hpos, ?_⟩
    refine ⟨by simp [g1, hr.l1], by simp [g5, hr.l2], by simp [g6, hr.l3], by simp [g2, hr.l4], by simp [g3, hr.l5],
      by rw [← hr.per, ← g4], ?_, ?_, ?_, ?_, ?_, ?_⟩
    · intro j hj; rw [e2, ← hr.loc j hj, g2]
    · intro j hj
      simp only [g5, List.set_set]
      rw [getD_set _ _ _ _ _ (by omega), e1]
      split
      · rfl
      · exact hr.left j hj
    · intro j hj
      simp only [g6, List.set_set]
      rw [getD_set _ _ _ _ _ (by omega), e1]
      split
      · rfl
      · exact hr.right j hj
    · intro j hj
      simp only [g1]
      rw [getD_set _ _ _ _ _ (by have := hr.l1; omega), e1]
      split
      · rw [if_neg (by simp)]
      · exact hr.h12 j hj
    · intro j t ht
      rw [e1] at ht
      split at ht
      · subst j
        rcases List.mem_append.1 ht with ht | ht
        · exact ⟨hv.1, hts t ht⟩
        · simp only [List.mem_singleton] at ht; subst ht; exact hv
      · exact hr.fits j t ht
    · intro j hj hm
      simp only [g3]
      have := hr.l5
      rw [getD_set _ _ _ _ _ (by simp; omega), getD_set _ _ _ _ _ (by omega)]
      split
      · subst j; rfl
      · split
        · subst j; rfl
        · rcases ment j hm with hm | hm
          · exact hr.dims j hj hm
          · rcases e3 j hm with e | e
            · exact absurd e (by assumption)
            · exact absurd e (by assumption)
  cases c with
  | setLocal k x =>
    obtain ⟨hk, hx⟩ := hc
    have hl := hr.l4
    have hl5 := hr.l5
    have e1 : ∀ j, termsAfter (cs ++ [HamCall.setLocal k x]) j = termsAfter cs j := fun j => termsAfter_snoc _ _ _
    refine ⟨⟨h.H12, h.left, h.right, h.H1.set k x, h.dims.set k (x.dim 0), h.periodic⟩, ?_, ?_⟩
    · simp only [HamCall.run, ConstHam.setLocalTerm]
      rw [if_neg (by omega), if_pos (by simp; omega)]
      simp
    · refine ⟨hr.l1, hr.l2, hr.l3, by simp [hr.l4], by simp [hr.l5], hr.per, ?_, ?_, ?_, ?_, ?_, ?_⟩
      · intro j hj
        simp only
        rw [getD_set _ _ _ _ _ (by omega), localAfter_snoc]
        simp only
        split
        · rfl
        · exact hr.loc j hj
      · intro j hj; rw [e1]; exact hr.left j hj
      · intro j hj; rw [e1]; exact hr.right j hj
      · intro j hj; rw [e1]; exact hr.h12 j hj
      · intro j; rw [e1]; exact hr.fits j
      · intro j hj hm
        simp only
        rw [getD_set _ _ _ _ _ (by omega), dim_square hx]
        split
        · subst j; rfl
        · rcases ment j hm with hm | hm
          · exact hr.dims j hj hm
          · exact absurd hm (by assumption)
  | setInter k a b =>
    have hv : k + 1 < ds.length ∧ a.dims = [ds.getD k 0, ds.getD k 0] ∧ b.dims = [ds.getD (k + 1) 0, ds.getD (k + 1) 0] := hc
    have hl1 := hr.l1
    obtain ⟨h', g1, g2⟩ := inter k a b [] { h with left := h.left.set k [], right := h.right.set k [] }
      (fun j => termsAfter_snoc _ _ _) (fun j => localAfter_snoc _ _ _) (fun j hj => hj) hv (by simp) rfl rfl rfl rfl rfl rfl
    refine ⟨h', ?_, g2⟩
    simp only [HamCall.run, ConstHam.setInteraction]
    rw [if_neg (by omega)]
    simpa using g1
  | addInter k a b =>
    have hv : k + 1 < ds.length ∧ a.dims = [ds.getD k 0, ds.getD k 0] ∧ b.dims = [ds.getD (k + 1) 0, ds.getD (k + 1) 0] := hc
    have hself : ∀ (l : List (List (Tensor R))) (x : List (Tensor R)), l.length = ds.length → l.getD k [] = x → l = l.set k x := by
      intro l x hl hx
      apply List.ext_getElem (by simp)
      intro i h1 h2
      rw [List.getElem_set]
      split
      · subst i; rw [← hx, List.getD_eq_getElem _ _ h1]
      · rfl
    exact inter k a b (termsAfter cs k) h
      (fun j => by rw [termsAfter_snoc]; simp only; split <;> simp_all) (fun j => localAfter_snoc _ _ _) (fun j hj => hj) hv
      (fun t ht => (hr.fits k t ht).2) rfl rfl rfl rfl (hself _ _ hr.l2 (hr.left k (by omega)))
      (hself _ _ hr.l3 (hr.right k (by omega)))

theorem hamRep_new (ds : List Nat) (periodic : Bool) : HamRep (R := R) ds [] periodic (ConstHam.new ds.length periodic) := by
  have gr : ∀ {α : Type} (x y : α) (k : Nat), k < ds.length → (List.replicate ds.length x).getD k y = x := by
    intro α x y k hk; simp [List.getElem?_replicate, hk]
  refine ⟨by simp [ConstHam.new], by simp [ConstHam.new], by simp [ConstHam.new], by simp [ConstHam.new], by simp [ConstHam.new], rfl, ?_, ?_, ?_, ?_, ?_, ?_⟩
  · intro k hk; simp only [ConstHam.new, gr _ _ k hk]; rfl
  · intro k hk; simp only [ConstHam.new, gr _ _ k hk]; rfl
  · intro k hk; simp only [ConstHam.new, gr _ _ k hk]; rfl
  · intro k hk; simp only [ConstHam.new, gr _ _ k hk]; rfl
  · intro k t ht; simp [termsAfter] at ht
  · rintro k hk ⟨c, hc, _⟩; simp at hc

theorem hamRep_run {ds : List Nat} (hpos : ∀ d ∈ ds, 0 < d) (periodic : Bool) (cs : List (HamCall R))
    (hc : ∀ c ∈ cs, c.Valid ds) : ∃ h, runHam ds.length periodic cs = some h ∧ HamRep ds cs periodic h := by
  induction cs using List.reverseRecOn with
  | nil => exact ⟨_, rfl, hamRep_new ds periodic⟩
  | append_singleton cs c ih =>
    obtain ⟨h, h1, h2⟩ := ih fun c' hc' => hc c' (by simp [hc'])
    obtain ⟨h', g1, g2⟩ := hamRep_snoc hpos h2 (hc c (by simp))
    refine ⟨h', ?_, g2⟩
    unfold runHam at h1 ⊢
    rw [List.foldlM_append, h1]
    simp [g1]

/-- C37: after any history of valid calls on a new `ConstantHamiltonian` for a chain with local dimensions `ds`:
`local_term(k)` is the last one set on site `k` (empty if none was); `interaction_depth(k)`, `interaction_left(k,n)`,
`interaction_right(k,n)` enumerate the terms in force on the bond, those given since the last `set_interaction` on it;
the entries of `interaction(k)` are the sums of the products of the entries of these; its size and `dimension(k)` are
those of the chain as soon as the sites have been mentioned. -/
theorem C37_constant_hamiltonian {ds : List Nat} (hpos : ∀ d ∈ ds, 0 < d) (periodic : Bool) (cs : List (HamCall R))
    (hc : ∀ c ∈ cs, c.Valid ds) : ∃ h, runHam ds.length periodic cs = some h ∧
      h.size = ds.length ∧ h.periodic = periodic ∧
      (∀ k, k < ds.length → h.localTerm k = (localAfter cs k).getD Tensor.empty) ∧
      (∀ k, k < ds.length → h.interactionDepth k = (termsAfter cs k).length ∧ ∀ n, n < (termsAfter cs k).length →
        (termsAfter cs k)[n]? = some (h.interactionLeft k n, h.interactionRight k n)) ∧
      (∀ k, k + 1 < ds.length → ∀ i i' j j', i < ds.getD k 0 → i' < ds.getD k 0 →
        (h.interaction k).get [i + ds.getD k 0 * j, i' + ds.getD k 0 * j'] =
          ((termsAfter cs k).map fun t => t.1.get [i, i'] * t.2.get [j, j']).sum) ∧
      (∀ k, k < ds.length → (∃ c ∈ cs, c.Mentions k) → h.dimension k = ds.getD k 0) ∧
      (∀ k, k + 1 < ds.length → (∃ c ∈ cs, c.Mentions k) → (∃ c ∈ cs, c.Mentions (k + 1)) →
        (h.interaction k).dims = [ds.getD k 0 * ds.getD (k + 1) 0, ds.getD k 0 * ds.getD (k + 1) 0]) := by
  obtain ⟨h, h1, hr⟩ := hamRep_run hpos periodic cs hc
  have hE : (Tensor.empty : Tensor R).isEmpty = true := by simp [Tensor.empty, isEmpty, size]
  have hd : ∀ j, j < ds.length → 0 < ds.getD j 0 := fun j hj => by
    rw [List.getD_eq_getElem _ _ hj]; exact hpos _ (List.getElem_mem hj)
  have hint : ∀ k, k + 1 < ds.length → termsAfter cs k ≠ [] →
      h.interaction k = ConstHam.interactionSum ((termsAfter cs k).map Prod.fst) ((termsAfter cs k).map Prod.snd) := by
    intro k hk hne
    have hs := (interactionSum_spec (termsAfter cs k) (fun t ht => (hr.fits k t ht).2) hne).1
    simp only [ConstHam.interaction, hr.h12 k (by omega), if_neg hne]
    rw [if_neg]
    have h3 := Nat.mul_pos (hd k (by omega)) (hd (k + 1) hk)
    have h4 := Nat.mul_pos h3 h3
    simp only [isEmpty, size, hs, beq_iff_eq]
    simp only [List.prod_cons, List.prod_nil, mul_one]
    omega
  have hint0 : ∀ k, k + 1 < ds.length → termsAfter cs k = [] →
      h.interaction k = zeros [h.dimension k * h.dimension (k + 1), h.dimension k * h.dimension (k + 1)] := by
    intro k hk hne
    simp only [ConstHam.interaction, hr.h12 k (by omega), if_pos hne, hE, if_true]
  refine ⟨h, h1, hr.l1, hr.per, hr.loc, ?_, ?_, hr.dims, ?_⟩
  · intro k hk
    have e1 := hr.left k hk
    have e2 := hr.right k hk
    refine ⟨by simp only [ConstHam.interactionDepth]; rw [e1, List.length_map], fun n hn => ?_⟩
    simp only [ConstHam.interactionLeft, ConstHam.interactionRight]
    rw [e1, e2]
    simp [hn]
  · intro k hk i i' j j' hi hi'
    by_cases hne : termsAfter cs k = []
    · rw [hint0 k hk hne, hne]; rfl
    · rw [hint k hk hne]
      exact (interactionSum_spec (termsAfter cs k) (fun t ht => (hr.fits k t ht).2) hne).2 i i' j j' hi hi'
  · intro k hk m1 m2
    by_cases hne : termsAfter cs k = []
    · rw [hint0 k hk hne]
      simp only [ConstHam.dimension, zeros]
      rw [hr.dims k (by omega) m1, hr.dims (k + 1) hk m2]
    · rw [hint k hk hne]
      exact (interactionSum_spec (termsAfter cs k) (fun t ht => (hr.fits k t ht).2) hne).1

/-- C37: a call which says nothing about site `k`, or about the bond `k`, `k+1`, does not change it. -/
theorem C37_independent (cs : List (HamCall R)) (c : HamCall R) (k : Nat) :
    ((∀ h, c ≠ .setLocal k h) → localAfter (cs ++ [c]) k = localAfter cs k) ∧
    ((∀ a b, c ≠ .setInter k a b ∧ c ≠ .addInter k a b) → termsAfter (cs ++ [c]) k = termsAfter cs k) := by
  constructor
  · intro h
    rw [localAfter_snoc]
    cases c with
    | setLocal k' x =>
      simp only
      rw [if_neg]
      rintro rfl
      exact h x rfl
    | _ => rfl
  · intro h
    rw [termsAfter_snoc]
    cases c with
    | setLocal => rfl
    | setInter k' a b =>
      simp only
      rw [if_neg]
      rintro rfl
      exact (h a b).1 rfl
    | addInter k' a b =>
      simp only
      rw [if_neg]
      rintro rfl
      exact (h a b).2 rfl

/-- C37: sites and bonds outside the chain are rejected.  In particular the bond (last, first) of a periodic Hamiltonian can
never be given an interaction. -/
theorem C37_rejects (h : ConstHam R) (hl : h.H1.length = h.H12.length) (k : Int) (a b : Tensor R) :
    ((k < 0 ∨ (h.size : Int) ≤ k) → h.setLocalTerm k a = none) ∧
    ((k < 0 ∨ (h.size : Int) ≤ k + 1) → h.setInteraction k a b = none ∧ h.addInteraction k a b = none) := by
  unfold ConstHam.size
  refine ⟨fun hk => ?_, fun hk => ?_⟩
  · unfold ConstHam.setLocalTerm
    split
    · rfl
    · rw [if_neg (by omega)]
  · constructor
    · unfold ConstHam.setInteraction
      split
      · rfl
      · unfold ConstHam.addInteraction
        rw [if_pos]
        simpa using hk
    · unfold ConstHam.addInteraction
      rw [if_pos hk]

/-- the hypotheses of C37 hold for a chain of a spin 1/2 and two spins 1 with every kind of call -/
theorem C37_witness : let cs : List (HamCall Int) := [.setLocal 1 (eye 3), .addInter 0 (eye 2) (eye 3), .setInter 1 (eye 3) (eye 3),
      .addInter 0 (smul 2 (eye 2)) (eye 3)]
    (∀ c ∈ cs, c.Valid [2, 3, 3]) ∧ (termsAfter cs 0).length = 2 ∧ (termsAfter cs 1).length = 1 := by
  refine ⟨?_, rfl, rfl⟩
  intro c hc
  simp only [List.mem_cons, List.not_mem_nil, or_false] at hc
  rcases hc with rfl | rfl | rfl | rfl <;> simp [HamCall.Valid, eye, smul]

end MPS.Props
