import Verif.MPOLemmas
import Verif.MPSLemmas3

/-!
# Properties C20–C32: matrix product operators

Matrix elements `opElt O s t = ⟨s|O|t⟩` (Spec.lean) before and after each API call.
-/

set_option linter.unusedSectionVars false

namespace MPS.Props
open MPS Tensor
variable {R : Type} [CommRing R]

/-! ### the building functions as calls -/

/-- one call of a building function with its arguments -/
inductive BuildOp (R : Type) where
  | localTerm (h : Tensor R) (k : Nat)
  | interaction (Hi : Tensor R) (i : Nat) (Hj : Tensor R)
  | longRange (H : List (Tensor R)) (i : Nat) (sign : Option (Tensor R))
  | product (H : List (Tensor R))

/-- the arguments fit a chain with local dimensions `ds` -/
def BuildOp.Valid (ds : List Nat) : BuildOp R → Prop
  | .localTerm h k => k < ds.length ∧ h.dims = [ds.getD k 0, ds.getD k 0]
  | .interaction Hi i Hj => i + 1 < ds.length ∧ Hi.dims = [ds.getD i 0, ds.getD i 0] ∧
      Hj.dims = [ds.getD (i + 1) 0, ds.getD (i + 1) 0]
  | .longRange H i _ => i < ds.length ∧ OpsFor ds H
  | .product H => OpsFor ds H

/-- the operator the documentation says the call adds: its matrix element ⟨s|·|t⟩ -/
def BuildOp.term (ds : List Nat) : BuildOp R → List Nat → List Nat → R
  | .localTerm h k, s, t => tensorOp ds.length (onSite ds k h) s t
  | .interaction Hi i Hj, s, t => tensorOp ds.length (onTwo ds i Hi (i + 1) Hj fun k => eye (ds.getD k 0)) s t
  | .longRange H i sign, s, t => ∑ j ∈ (Finset.range ds.length).erase i,
      tensorOp ds.length (onTwo ds i (H.getD i Tensor.empty) j (H.getD j Tensor.empty)
        fun k => sign.getD (eye (ds.getD k 0))) s t
  | .product H, s, t => tensorOp ds.length (fun k => H.getD k Tensor.empty) s t

/-- a product of identities only -/
def BuildOp.AllId (ds : List Nat) : BuildOp R → Prop
  | .product H => ∀ k, k < ds.length → IsIdentity (ds.getD k 0) (H.getD k Tensor.empty)
  | _ => False

section Dec
variable [DecidableEq R]

/-- what the program does for the call -/
def BuildOp.call (O : List (Tensor R)) : BuildOp R → Option (List (Tensor R))
  | .localTerm h k => addLocalTerm O h k
  | .interaction Hi i Hj => addInteraction O Hi i Hj
  | .longRange H i sign => addLongRange O H i sign
  | .product H => some (addProductTerm O H)

/-- a new MPO followed by a sequence of calls -/
def build (ds : List Nat) (calls : List (BuildOp R)) : Option (List (Tensor R)) :=
  (newMPO ds).bind fun O => calls.foldlM BuildOp.call O

/-- the MPOs reached from a new one through the building functions -/
def Built (ds : List Nat) (O : List (Tensor R)) : Prop :=
  2 ≤ ds.length ∧ (∀ d ∈ ds, 0 < d) ∧ ∃ calls : List (BuildOp R), (∀ c ∈ calls, c.Valid ds) ∧ build ds calls = some O

theorem site_eq (H : List (Tensor R)) (k : Nat) : site H k = H.getD k Tensor.empty := rfl

theorem isIdentity_dlt {d : Nat} {A : Tensor R} :
    IsIdentity d A ↔ ∀ x y, x < d → y < d → A.get [x, y] = dlt x y := Iff.rfl

theorem call_spec {ds : List Nat} {O : List (Tensor R)} {c : BuildOp R} (hO : HInv ds O) (hc : c.Valid ds)
    (hid : ¬ c.AllId ds) :
    ∃ O', c.call O = some O' ∧ HInv ds O' ∧ ∀ s t, IsCfg ds s → IsCfg ds t →
      opElt O' s t = opElt O s t + c.term ds s t := by
  cases c with
  | localTerm h k => exact addLocalTerm_spec hO hc.1 hc.2
  | interaction Hi i Hj =>
    obtain ⟨O', h1, h2, h3⟩ := addInteraction_spec hO hc.1 hc.2.1 hc.2.2
    refine ⟨O', h1, h2, fun s t hs ht => ?_⟩
    rw [h3 s t hs ht, BuildOp.term]
    congr 2
    funext j
    simp only [onTwo]
    split
    · rfl
    · split
      · rfl
      · split <;> rfl
  | longRange H i sign => exact addLongRange_spec hO hc.1 fun j hj => opsFor_get hc.2 hj
  | product H =>
    have := addProductTerm_spec (H := H) hO (fun j hj => opsFor_get hc hj) (by
      by_contra hcon
      push Not at hcon
      exact hid fun k hk x y hx hy => hcon k hk x y hx hy)
    exact ⟨_, rfl, this.1, this.2⟩

theorem call_inv {ds : List Nat} {O : List (Tensor R)} {c : BuildOp R} (hO : HInv ds O) (hc : c.Valid ds) :
    ∃ O', c.call O = some O' ∧ HInv ds O' := by
  by_cases hid : c.AllId ds
  · cases c with
    | product H =>
      exact ⟨_, rfl, by rw [addProductTerm_id hO (fun j hj => opsFor_get hc hj) hid]; exact hO⟩
    | _ => exact absurd hid (by simp [BuildOp.AllId])
  · obtain ⟨O', h1, h2, _⟩ := call_spec hO hc hid
    exact ⟨O', h1, h2⟩

theorem calls_inv {ds : List Nat} {O : List (Tensor R)} {cs : List (BuildOp R)} (hO : HInv ds O)
    (hc : ∀ c ∈ cs, c.Valid ds) : ∃ O', cs.foldlM BuildOp.call O = some O' ∧ HInv ds O' := by
  induction cs generalizing O with
  | nil => exact ⟨O, rfl, hO⟩
  | cons c cs ih =>
    obtain ⟨O1, h1, h2⟩ := call_inv hO (hc c (by simp))
    obtain ⟨O2, g1, g2⟩ := ih h2 fun c hc' => hc c (by simp [hc'])
    exact ⟨O2, by simp [List.foldlM_cons, h1, g1], g2⟩

theorem calls_spec {ds : List Nat} {O : List (Tensor R)} {cs : List (BuildOp R)} (hO : HInv ds O)
    (hc : ∀ c ∈ cs, c.Valid ds ∧ ¬ c.AllId ds) : ∃ O', cs.foldlM BuildOp.call O = some O' ∧ HInv ds O' ∧
      ∀ s t, IsCfg ds s → IsCfg ds t → opElt O' s t = opElt O s t + (cs.map fun c => c.term ds s t).sum := by
  induction cs generalizing O with
  | nil => exact ⟨O, rfl, hO, fun s t _ _ => by simp⟩
  | cons c cs ih =>
    obtain ⟨O1, h1, h2, h3⟩ := call_spec hO (hc c (by simp)).1 (hc c (by simp)).2
    obtain ⟨O2, g1, g2, g3⟩ := ih h2 fun c hc' => hc c (by simp [hc'])
    refine ⟨O2, by simp [List.foldlM_cons, h1, g1], g2, fun s t hs ht => ?_⟩
    rw [g3 s t hs ht, h3 s t hs ht, List.map_cons, List.sum_cons, add_assoc]

theorem Built.inv {ds : List Nat} {O : List (Tensor R)} (h : Built ds O) : HInv ds O := by
  obtain ⟨h2, hd, cs, hc, hb⟩ := h
  obtain ⟨O0, g1, g2, _⟩ := newMPO_spec (R := R) h2 hd
  obtain ⟨O1, k1, k2⟩ := calls_inv g2 hc
  rw [build, g1, Option.bind_some, k1, Option.some.injEq] at hb
  rwa [← hb]

/-! ### C20 -/

/-- C20: `RMPO(dims)` is the zero operator and a well-formed open-boundary MPO; it rejects fewer than two sites. -/
theorem C20_new_mpo (ds : List Nat) (hd : ∀ d ∈ ds, 0 < d) :
    (2 ≤ ds.length → ∃ O : List (Tensor R), newMPO ds = some O ∧ IsMPO ds O ∧ ∀ s t, opElt O s t = 0) ∧
    (ds.length < 2 → (newMPO ds : Option (List (Tensor R))) = none) := by
  refine ⟨fun h2 => ?_, fun h => by rw [newMPO, if_pos h]⟩
  obtain ⟨O, h1, h3, h4⟩ := newMPO_spec (R := R) h2 hd
  exact ⟨O, h1, h3.isMPO, h4⟩

/-- C20 for `RMPO(n, d)`. -/
theorem C20_new_mpo_uniform (n d : Nat) (hd : 0 < d) :
    (2 ≤ n → ∃ O : List (Tensor R), newMPO1 n d = some O ∧ IsMPO (List.replicate n d) O ∧ ∀ s t, opElt O s t = 0) ∧
    (n < 2 → (newMPO1 n d : Option (List (Tensor R))) = none) := by
  refine ⟨fun h2 => ?_, fun h => by rw [newMPO1, if_pos h]⟩
  rw [newMPO1, if_neg (by omega)]
  exact (C20_new_mpo (R := R) (List.replicate n d) (fun x hx => by rw [List.eq_of_mem_replicate hx]; exact hd)).1
    (by simpa using h2)

/-! ### C21 -/

/-- C21: `add_local_term(&mpo, h, k)` adds `1 ⊗ ⋯ ⊗ h ⊗ ⋯ ⊗ 1` (h on site k) and nothing else. -/
theorem C21_add_local_term {ds : List Nat} {O : List (Tensor R)} (hO : Built ds O) {h : Tensor R} {k : Nat}
    (hk : k < ds.length) (hh : h.dims = [ds.getD k 0, ds.getD k 0]) :
    ∃ O', addLocalTerm O h k = some O' ∧ IsMPO ds O' ∧ ∀ s t, IsCfg ds s → IsCfg ds t →
      opElt O' s t = opElt O s t + tensorOp ds.length (onSite ds k h) s t := by
  obtain ⟨O', h1, h2, h3⟩ := addLocalTerm_spec hO.inv hk hh
  exact ⟨O', h1, h2.isMPO, h3⟩

/-- C21: a bad site index, a non-square operator or a wrong size are rejected. -/
theorem C21_rejects {ds : List Nat} {O : List (Tensor R)} (hO : Built ds O) (h : Tensor R) (k : Int)
    (hbad : k < 0 ∨ (ds.length : Int) ≤ k ∨ h.dim 0 ≠ h.dim 1 ∨ h.dim 0 ≠ ds.getD k.toNat 0) :
    addLocalTerm O h k = none := by
  have hl := hO.inv.length
  unfold addLocalTerm
  by_cases h1 : k < 0 ∨ k ≥ O.length
  · rw [if_pos h1]
  · rw [if_neg h1]
    by_cases h2 : h.dim 1 ≠ h.dim 0
    · rw [if_pos h2]
    · rw [if_neg h2]
      obtain ⟨dl, dr, f1, _⟩ := hO.inv.site_dims (k := k.toNat) (by omega)
      obtain ⟨_, q1, _, _⟩ := dim_of4 f1
      simp only [q1]
      rw [if_pos]
      push Not at h1 h2
      rcases hbad with h | h | h | h
      · omega
      · omega
      · exact absurd h2.symm h
      · exact fun e => h e.symm

/-! ### C22 -/

/-- C22: `add_interaction(&mpo, Hi, i, Hj)` adds `Hi` on site `i` times `Hj` on site `i+1`. -/
theorem C22_add_interaction {ds : List Nat} {O : List (Tensor R)} (hO : Built ds O) {Hi Hj : Tensor R} {i : Nat}
    (hi : i + 1 < ds.length) (h1 : Hi.dims = [ds.getD i 0, ds.getD i 0])
    (h2 : Hj.dims = [ds.getD (i + 1) 0, ds.getD (i + 1) 0]) :
    ∃ O', addInteraction O Hi i Hj = some O' ∧ IsMPO ds O' ∧ ∀ s t, IsCfg ds s → IsCfg ds t →
      opElt O' s t = opElt O s t
        + tensorOp ds.length (onTwo ds i Hi (i + 1) Hj fun k => eye (ds.getD k 0)) s t := by
  obtain ⟨O', h1, h2, h3⟩ := call_spec (c := .interaction Hi i Hj) hO.inv ⟨hi, h1, h2⟩ (by simp [BuildOp.AllId])
  exact ⟨O', h1, h2.isMPO, h3⟩

/-- C22: the first site must be one of `0 … L-2`. -/
theorem C22_rejects_index {ds : List Nat} {O : List (Tensor R)} (hO : Built ds O) (Hi Hj : Tensor R) (i : Int)
    (hbad : i < 0 ∨ (ds.length : Int) ≤ i + 1) : addInteraction O Hi i Hj = none := by
  have hl := hO.inv.length
  unfold addInteraction
  split
  · rfl
  · rw [if_pos (by omega)]

/-- C22: operators that are not square or do not fit the sites are rejected. -/
theorem C22_rejects_size {ds : List Nat} {O : List (Tensor R)} (hO : Built ds O) (Hi Hj : Tensor R) (i : Nat)
    (hi : i + 1 < ds.length) (hbad : Hi.dim 0 ≠ Hi.dim 1 ∨ Hj.dim 0 ≠ Hj.dim 1 ∨ Hi.dim 0 ≠ ds.getD i 0 ∨
      Hj.dim 0 ≠ ds.getD (i + 1) 0) : addInteraction O Hi i Hj = none := by
  have hl := hO.inv.length
  unfold addInteraction
  rw [if_neg (by omega), if_neg (by omega)]
  obtain ⟨dl, dr, f1, _⟩ := hO.inv.site_dims (k := i) (by omega)
  obtain ⟨dl', dr', g1, _⟩ := hO.inv.site_dims (k := i + 1) hi
  have q1 : (changeDim (site O i) 3 ((site O i).dim 3 + 1)).dim 1 = ds.getD i 0 :=
    (dim_of4 (changeDim3 f1).1).2.1
  have q2 : (changeDim (site O (i + 1)) 0 ((site O i).dim 3 + 1)).dim 1 = ds.getD (i + 1) 0 :=
    (dim_of4 (changeDim0 g1).1).2.1
  simp only [Int.toNat_natCast, q1, q2]
  by_cases h1 : Hi.dim 0 ≠ Hi.dim 1
  · rw [if_pos h1]
  by_cases h2 : Hj.dim 0 ≠ Hj.dim 1
  · rw [if_neg h1, if_pos h2]
  by_cases h3 : ds.getD i 0 ≠ Hi.dim 0
  · rw [if_neg h1, if_neg h2, if_pos h3]
  · have h4 : ds.getD (i + 1) 0 ≠ Hj.dim 0 := by
      rcases hbad with h | h | h | h
      · exact absurd h h1
      · exact absurd h h2
      · exact absurd h.symm h3
      · exact h.symm
    rw [if_neg h1, if_neg h2, if_neg h3, if_pos h4]

/-! ### C23 -/

/-- C23: the long-range `add_interaction(&mpo, H, i, sign)` adds `∑_{j≠i} H[i]_i S H[j]_j`, with the sign operator (or
the identity, when none is given) on every site strictly between `i` and `j`; any of the `H[j]` may be zero. -/
theorem C23_add_long_range {ds : List Nat} {O : List (Tensor R)} (hO : Built ds O) {H : List (Tensor R)} {i : Nat}
    {sign : Option (Tensor R)} (hi : i < ds.length) (hH : OpsFor ds H) :
    ∃ O', addLongRange O H i sign = some O' ∧ IsMPO ds O' ∧ ∀ s t, IsCfg ds s → IsCfg ds t →
      opElt O' s t = opElt O s t + ∑ j ∈ (Finset.range ds.length).erase i,
        tensorOp ds.length (onTwo ds i (H.getD i Tensor.empty) j (H.getD j Tensor.empty)
          fun k => sign.getD (eye (ds.getD k 0))) s t := by
  obtain ⟨O', h1, h2, h3⟩ := call_spec (c := .longRange H i sign) hO.inv ⟨hi, hH⟩ (by simp [BuildOp.AllId])
  exact ⟨O', h1, h2.isMPO, h3⟩

/-- C23: a bad origin is rejected. -/
theorem C23_rejects_index {ds : List Nat} {O : List (Tensor R)} (hO : Built ds O) (H : List (Tensor R)) (i : Int)
    (sign : Option (Tensor R)) (hbad : i < 0 ∨ (ds.length : Int) ≤ i) : addLongRange O H i sign = none := by
  have hl := hO.inv.length
  unfold addLongRange
  rw [if_pos (by omega)]

/-! ### C24 -/

/-- C24: `add_jordan_wigner_matrix(&mpo, J, ad, a, sign)` adds `∑_{i≠j} J(i,j) ad_i S_{i+1}⋯S_{j-1} a_j`. -/
theorem C24_jordan_wigner {L d : Nat} {O : List (Tensor R)} (hO : Built (List.replicate L d) O) {J ad a sign : Tensor R}
    (hJ : J.dims = [L, L]) (had : ad.dims = [d, d]) (ha : a.dims = [d, d]) :
    ∃ O', addJordanWigner O J ad a sign = some O' ∧ IsMPO (List.replicate L d) O' ∧
      ∀ s t, IsCfg (List.replicate L d) s → IsCfg (List.replicate L d) t →
      opElt O' s t = opElt O s t + ∑ i ∈ Finset.range L, ∑ j ∈ (Finset.range L).erase i,
        J.get [i, j] * tensorOp L (onTwo (List.replicate L d) i ad j a fun _ => sign) s t := by
  obtain ⟨O', h1, h2, h3⟩ := addJordanWigner_spec (sign := sign) hO.inv hJ had ha
  refine ⟨O', h1, h2.isMPO, fun s t hs ht => ?_⟩
  rw [h3 s t hs ht]
  congr 1
  refine Finset.sum_congr rfl fun i _ => Finset.sum_congr rfl fun j _ => ?_
  congr 2
  funext k
  simp only [hopString, onTwo, min_comm, max_comm]

/-- C24: `add_hopping_matrix(&mpo, J, ad, a)` adds `∑_{i≠j} J(i,j) ad_i a_j`. -/
theorem C24_hopping {L d : Nat} {O : List (Tensor R)} (hO : Built (List.replicate L d) O) {J ad a : Tensor R}
    (hJ : J.dims = [L, L]) (had : ad.dims = [d, d]) (ha : a.dims = [d, d]) :
    ∃ O', addHopping O J ad a = some O' ∧ IsMPO (List.replicate L d) O' ∧
      ∀ s t, IsCfg (List.replicate L d) s → IsCfg (List.replicate L d) t →
      opElt O' s t = opElt O s t + ∑ i ∈ Finset.range L, ∑ j ∈ (Finset.range L).erase i,
        J.get [i, j] * tensorOp L (onTwo (List.replicate L d) i ad j a fun _ => eye d) s t := by
  have : a.dim 0 = d := by simp [dim, ha]
  rw [addHopping, this]
  exact C24_jordan_wigner hO hJ had ha

/-- C24: a matrix that is not `L × L` is rejected. -/
theorem C24_rejects {ds : List Nat} {O : List (Tensor R)} (hO : Built ds O) {J ad a sign : Tensor R}
    (hJ : J.dims ≠ [ds.length, ds.length]) : addJordanWigner O J ad a sign = none := by
  have hl := hO.inv.length
  unfold addJordanWigner
  rw [if_neg]
  rintro ⟨h1, h2, h3⟩
  apply hJ
  rw [rank] at h1
  match hd : J.dims, h1 with
  | [x, y], _ => simp [dim, hd] at h2 h3; simp; omega

/-! ### C25 -/

/-- C25, full statement. FALSE of the code. -/
def C25Statement (R : Type) [CommRing R] [DecidableEq R] : Prop :=
  ∀ (ds : List Nat) (O H : List (Tensor R)), Built ds O → OpsFor ds H → ∀ s t, IsCfg ds s → IsCfg ds t →
    opElt (addProductTerm O H) s t = opElt O s t + tensorOp ds.length (fun k => H.getD k Tensor.empty) s t

/-- C25, `add_product_term(&mpo, H)` adds `H[0] ⊗ H[1] ⊗ ⋯ ⊗ H[L-1]` for every list with at least one operator that is
not the identity.  Missing from the full statement: the product of identities only. -/
theorem C25_product_partial {ds : List Nat} {O H : List (Tensor R)} (hO : Built ds O) (hH : OpsFor ds H)
    (hne : ∃ k, k < ds.length ∧ ¬ IsIdentity (ds.getD k 0) (H.getD k Tensor.empty)) :
    IsMPO ds (addProductTerm O H) ∧ ∀ s t, IsCfg ds s → IsCfg ds t →
      opElt (addProductTerm O H) s t = opElt O s t + tensorOp ds.length (fun k => H.getD k Tensor.empty) s t := by
  obtain ⟨O', h1, h2, h3⟩ := call_spec (c := .product H) hO.inv hH (by
    obtain ⟨k, hk, hk'⟩ := hne
    intro h; exact hk' (h k hk))
  rw [BuildOp.call, Option.some.injEq] at h1
  subst h1
  exact ⟨h2.isMPO, h3⟩

/-- C25: what the code does with a product of identities: it leaves the MPO untouched. -/
theorem C25_identity_ignored {ds : List Nat} {O H : List (Tensor R)} (hO : Built ds O) (hH : OpsFor ds H)
    (hid : ∀ k, k < ds.length → IsIdentity (ds.getD k 0) (H.getD k Tensor.empty)) : addProductTerm O H = O :=
  addProductTerm_id hO.inv (fun _ hj => opsFor_get hH hj) hid

/-- C25 fails: adding `1 ⊗ 1` to the zero operator on two sites leaves it zero. -/
theorem C25_violated [Nontrivial R] : ¬ C25Statement R := by
  intro h
  obtain ⟨O, h1, h2, h3⟩ := newMPO_spec (R := R) (ds := [2, 2]) (by simp) (by simp)
  have hB : Built [2, 2] O := ⟨by simp, by simp, [], by simp, by simpa [build] using h1⟩
  have hH : OpsFor [2, 2] ([eye 2, eye 2] : List (Tensor R)) := .cons rfl (.cons rfl .nil)
  have hid : ∀ k, k < [2, 2].length → IsIdentity ([2, 2].getD k 0) (([eye 2, eye 2] : List (Tensor R)).getD k Tensor.empty) := by
    intro k hk x y _ _
    match k, hk with
    | 0, _ => exact eye_get 2 x y
    | 1, _ => exact eye_get 2 x y
  have := h [2, 2] O [eye 2, eye 2] hB hH [0, 0] [0, 0] (.cons (by simp) (.cons (by simp) .nil))
    (.cons (by simp) (.cons (by simp) .nil))
  rw [C25_identity_ignored hB hH hid, h3] at this
  simp [tensorOp, Finset.prod_range_succ, eye] at this

/-! ### C26 -/

/-- C26, full statement. FALSE of the code (because C25 is). -/
def C26Statement (R : Type) [CommRing R] [DecidableEq R] : Prop :=
  ∀ (ds : List Nat) (calls : List (BuildOp R)), 2 ≤ ds.length → (∀ d ∈ ds, 0 < d) → (∀ c ∈ calls, c.Valid ds) →
    ∃ O, build ds calls = some O ∧ IsMPO ds O ∧ ∀ s t, IsCfg ds s → IsCfg ds t →
      opElt O s t = (calls.map fun c => c.term ds s t).sum

/-- C26: after any sequence of calls, in any order and interleaving, the operator is the sum of the terms added.
Missing from the full statement: sequences with a product of identities only. -/
theorem C26_sequence_partial {ds : List Nat} {calls : List (BuildOp R)} (h2 : 2 ≤ ds.length) (hd : ∀ d ∈ ds, 0 < d)
    (hc : ∀ c ∈ calls, c.Valid ds ∧ ¬ c.AllId ds) :
    ∃ O, build ds calls = some O ∧ IsMPO ds O ∧ ∀ s t, IsCfg ds s → IsCfg ds t →
      opElt O s t = (calls.map fun c => c.term ds s t).sum := by
  obtain ⟨O0, g1, g2, g3⟩ := newMPO_spec (R := R) h2 hd
  obtain ⟨O, k1, k2, k3⟩ := calls_spec g2 hc
  refine ⟨O, by rw [build, g1]; exact k1, k2.isMPO, fun s t hs ht => ?_⟩
  rw [k3 s t hs ht, g3, zero_add]

/-- C26: the order of the calls does not matter. -/
theorem C26_order {ds : List Nat} {calls calls' : List (BuildOp R)} (h2 : 2 ≤ ds.length) (hd : ∀ d ∈ ds, 0 < d)
    (hc : ∀ c ∈ calls, c.Valid ds ∧ ¬ c.AllId ds) (hp : calls.Perm calls') :
    ∃ O O', build ds calls = some O ∧ build ds calls' = some O' ∧ ∀ s t, IsCfg ds s → IsCfg ds t →
      opElt O s t = opElt O' s t := by
  obtain ⟨O, h1, _, h3⟩ := C26_sequence_partial h2 hd hc
  obtain ⟨O', g1, _, g3⟩ := C26_sequence_partial (calls := calls') h2 hd fun c hc' => hc c (hp.mem_iff.2 hc')
  refine ⟨O, O', h1, g1, fun s t hs ht => ?_⟩
  rw [h3 s t hs ht, g3 s t hs ht]
  exact (hp.map _).sum_eq

theorem C26_violated [Nontrivial R] : ¬ C26Statement R := by
  intro h
  apply C25_violated (R := R)
  intro ds O H hO hH s t hs ht
  obtain ⟨h2, hd, cs, hc, hb⟩ := hO
  obtain ⟨O1, k1, _, k3⟩ := h ds cs h2 hd hc
  obtain ⟨O2, m1, _, m3⟩ := h ds (cs ++ [.product H]) h2 hd (by
    intro c hc'
    rw [List.mem_append, List.mem_singleton] at hc'
    rcases hc' with h | h
    · exact hc c h
    · subst h; exact hH)
  rw [hb, Option.some.injEq] at k1
  subst k1
  have : build ds (cs ++ [BuildOp.product H]) = some (addProductTerm O H) := by
    unfold build at hb ⊢
    obtain ⟨O0, e0⟩ : ∃ O0 : List (Tensor R), newMPO ds = some O0 := by
      cases hn : (newMPO ds : Option (List (Tensor R))) with
      | none => rw [hn] at hb; simp at hb
      | some O0 => exact ⟨O0, rfl⟩
    rw [e0, Option.bind_some] at hb ⊢
    rw [List.foldlM_append, hb]
    rfl
  rw [this, Option.some.injEq] at m1
  subst m1
  rw [m3 s t hs ht, k3 s t hs ht, List.map_append, List.sum_append]
  simp [BuildOp.term]

/-! a concrete history that meets the hypotheses of C20–C26: three sites of different dimensions -/

/-- a `d × d` test matrix -/
def exM (d : Nat) (c : Int) : Tensor ℤ := ⟨[d, d], fun i => c + (i.getD 0 0 : Int) - 2 * (i.getD 1 0 : Int)⟩
/-- local term, interaction, long-range term with a zero operator, product term with an identity -/
def exCalls : List (BuildOp ℤ) :=
  [.localTerm (exM 3 1) 1, .interaction (exM 2 2) 0 (exM 3 0), .longRange [exM 2 1, zeros [3, 3], exM 2 5] 2 none,
   .product [exM 2 1, eye 3, exM 2 2], .product [eye 2, exM 3 1, eye 2]]

example : ∀ c ∈ exCalls, c.Valid [2, 3, 2] := by
  have hO : ∀ a b c : Tensor ℤ, a.dims = [2, 2] → b.dims = [3, 3] → c.dims = [2, 2] → OpsFor [2, 3, 2] [a, b, c] :=
    fun a b c h1 h2 h3 => .cons h1 (.cons h2 (.cons h3 .nil))
  simp only [exCalls, List.mem_cons, List.not_mem_nil, or_false, forall_eq_or_imp, forall_eq]
  exact ⟨⟨by simp, rfl⟩, ⟨by simp, rfl, rfl⟩, ⟨by simp, hO _ _ _ rfl rfl rfl⟩, hO _ _ _ rfl rfl rfl,
    hO _ _ _ rfl rfl rfl⟩
/-- test on a literal: the matrix element predicted by C26 is the one the model program produces -/
example : (build [2, 3, 2] exCalls).map (fun O => opElt O [1, 2, 0] [1, 1, 0])
    = some ((exCalls.map fun c => c.term [2, 3, 2] [1, 2, 0] [1, 1, 0]).sum) ∧
    (exCalls.map fun c => c.term [2, 3, 2] [1, 2, 0] [1, 1, 0]).sum = 2 := by decide +kernel

end Dec

/-! ### C27 -/

/-- C27: `local_Hamiltonian_mpo(H)` is the operator `∑_k H[k]_k`. -/
theorem C27_local_hamiltonian {H : List (Tensor R)} {ds : List Nat} (hH : OpsFor ds H) (h2 : 2 ≤ ds.length)
    (hd : ∀ d ∈ ds, 0 < d) :
    ∃ O, localHamiltonianMPO H = some O ∧ IsMPO ds O ∧ ∀ s t, IsCfg ds s → IsCfg ds t →
      opElt O s t = ∑ k ∈ Finset.range ds.length, tensorOp ds.length (onSite ds k (H.getD k Tensor.empty)) s t := by
  obtain ⟨O, h1, h2, h3⟩ := localHamiltonianMPO_spec hH h2 hd
  exact ⟨O, h1, h2.isMPO, h3⟩

theorem C27_rejects {H : List (Tensor R)} (h : H.length < 2) : localHamiltonianMPO H = none := by
  rw [localHamiltonianMPO, if_pos h]

example : OpsFor [2, 3, 2] [exM 2 1, exM 3 0, exM 2 7] := .cons rfl (.cons rfl (.cons rfl .nil))
example : (localHamiltonianMPO [exM 2 1, exM 3 0, exM 2 7]).map (fun O => opElt O [1, 2, 0] [1, 1, 0]) = some 0 ∧
    (localHamiltonianMPO [exM 2 1, exM 3 0, exM 2 7]).map (fun O => opElt O [1, 2, 1] [1, 2, 1]) = some 4 := by
  decide +kernel

/-! ### C28–C32 -/

/-- a 2-site periodic MPO and a 2-site periodic MPS used as witnesses -/
def exO : List (Tensor ℤ) :=
  [⟨[2, 2, 2, 3], fun i => (i.getD 0 0 : Int) + 2 * (i.getD 1 0 : Int) - (i.getD 2 0 : Int) * (i.getD 3 0 : Int)⟩,
   ⟨[3, 2, 2, 2], fun i => 1 - (i.getD 0 0 : Int) + (i.getD 1 0 : Int) + 3 * (i.getD 2 0 : Int) * (i.getD 3 0 : Int)⟩]
def exS : List (Tensor ℤ) :=
  [⟨[2, 2, 3], fun i => (i.getD 0 0 : Int) + 2 * (i.getD 1 0 : Int) - (i.getD 2 0 : Int)⟩,
   ⟨[3, 2, 2], fun i => 1 - (i.getD 0 0 : Int) + (i.getD 1 0 : Int) + 3 * (i.getD 2 0 : Int)⟩]
theorem exO_isMPO : IsMPO [2, 2] exO :=
  ⟨by simp [exO], 2, .cons rfl (by simp) (by simp) (by simp) (.cons rfl (by simp) (by simp) (by simp) (.nil 2))⟩
theorem exS_isMPS : IsMPS [2, 2] exS :=
  ⟨by simp [exS], 2, .cons rfl (by simp) (by simp) (by simp) (.cons rfl (by simp) (by simp) (by simp) (.nil 2))⟩

/-- C28: the amplitudes of `apply(O, psi)` are `∑_t ⟨s|O|t⟩ psi(t)`; open and periodic. -/
theorem C28_apply {O ψ : List (Tensor R)} {ds : List Nat} (hO : IsMPO ds O) (hψ : IsMPS ds ψ) :
    ∃ χ, applyMPO O ψ = some χ ∧ IsMPS ds χ ∧
      ∀ s, IsCfg ds s → amp χ s = sumCfg ds fun t => opElt O s t * amp ψ t := applyMPO_spec hO hψ

theorem C28_length_mismatch {O ψ : List (Tensor R)} (h : O.length ≠ ψ.length) : applyMPO O ψ = none := by
  rw [applyMPO, if_neg h]

example : IsMPO [2, 2] exO ∧ IsMPS [2, 2] exS := ⟨exO_isMPO, exS_isMPS⟩
example : (applyMPO exO exS).map (fun χ => amp χ [1, 0]) = some (sumCfg [2, 2] fun t => opElt exO [1, 0] t * amp exS t) ∧
    (sumCfg [2, 2] fun t => opElt exO [1, 0] t * amp exS t) ≠ 0 := by decide +kernel

/-- C29: `mmult(A, B)` is the operator product `A B`. -/
theorem C29_mmult {A B : List (Tensor R)} {ds : List Nat} (hA : IsMPO ds A) (hB : IsMPO ds B) :
    ∃ C, mmultMPO A B = some C ∧ IsMPO ds C ∧ ∀ s u, IsCfg ds s → IsCfg ds u →
      opElt C s u = sumCfg ds fun t => opElt A s t * opElt B t u := mmultMPO_spec hA hB

theorem C29_length_mismatch {A B : List (Tensor R)} (h : A.length ≠ B.length) : mmultMPO A B = none := by
  rw [mmultMPO, if_neg h]

example : (mmultMPO exO exO).map (fun C => opElt C [1, 0] [0, 1])
    = some (sumCfg [2, 2] fun t => opElt exO [1, 0] t * opElt exO t [0, 1]) := by decide +kernel

/-- C29 with C28: applying the product is applying one after the other. -/
theorem C29_apply_apply {A B ψ : List (Tensor R)} {ds : List Nat} (hA : IsMPO ds A) (hB : IsMPO ds B)
    (hψ : IsMPS ds ψ) :
    ∃ C χ₁ χ₂ χ, mmultMPO A B = some C ∧ applyMPO C ψ = some χ ∧ applyMPO B ψ = some χ₁ ∧ applyMPO A χ₁ = some χ₂ ∧
      ∀ s, IsCfg ds s → amp χ s = amp χ₂ s := by
  obtain ⟨C, h1, h2, h3⟩ := mmultMPO_spec hA hB
  obtain ⟨χ, g1, g2, g3⟩ := applyMPO_spec h2 hψ
  obtain ⟨χ₁, k1, k2, k3⟩ := applyMPO_spec hB hψ
  obtain ⟨χ₂, l1, l2, l3⟩ := applyMPO_spec hA k2
  refine ⟨C, χ₁, χ₂, χ, h1, g1, k1, l1, fun s hs => ?_⟩
  rw [g3 s hs, l3 s hs]
  simp only [actOp]
  have e1 : ∀ t, IsCfg ds t → opElt C s t * amp ψ t = sumCfg ds fun u => opElt A s u * opElt B u t * amp ψ t := by
    intro t ht
    rw [h3 s t hs ht, ← sumCfg_mul_right]
  have e2 : ∀ u, IsCfg ds u → opElt A s u * amp χ₁ u = sumCfg ds fun t => opElt A s u * opElt B u t * amp ψ t := by
    intro u hu
    rw [k3 u hu, actOp, ← sumCfg_mul_left]
    exact sumCfg_congr fun t _ => by ring
  rw [sumCfg_congr e1, sumCfg_congr e2, sumCfg_comm]

/-- C30: `mpo_to_matrix(O)` is the square matrix whose entry at `(flat(s), flat(t))` is ⟨s|O|t⟩, for every MPO with
open boundary conditions (outer bonds of size 1, as for all MPOs the library builds). -/
theorem C30_mpo_to_matrix {O : List (Tensor R)} {ds : List Nat} (hne : O ≠ []) (h : WFO 1 O ds 1) :
    (mpoToMatrix O).dims = [ds.prod, ds.prod] ∧
      (∀ s t, IsCfg ds s → IsCfg ds t → (mpoToMatrix O).get [flat ds s, flat ds t] = opElt O s t) ∧
      (∀ n, n < ds.prod → ∃ s, IsCfg ds s ∧ flat ds s = n) :=
  ⟨(mpoToMatrix_spec hne h).1, (mpoToMatrix_spec hne h).2, fun _ hn => flat_surj hn⟩

/-- every MPO made by the building functions has open boundary conditions, so C30 applies to it -/
theorem C30_built [DecidableEq R] {O : List (Tensor R)} {ds : List Nat} (h : Built ds O) : O ≠ [] ∧ WFO 1 O ds 1 := by
  obtain ⟨P, Ps, d, ds', D', rfl, rfl, h1, h2, _, hs⟩ := h.inv
  exact ⟨by simp, WFO.cons h1 (by omega) h2 (by have := hs.ge_two; omega) hs.wfo⟩

example : (build [2, 3, 2] exCalls).map (fun O => ((mpoToMatrix O).get [flat [2, 3, 2] [0, 2, 0], flat [2, 3, 2] [0, 2, 1]],
    opElt O [0, 2, 0] [0, 2, 1])) = some (3, 3) := by decide +kernel

section Star
variable [StarRing R]

/-- C31, complex MPOs: `adjoint(O)` has matrix elements `conj(⟨t|O|s⟩)`. -/
theorem C31_adjoint_complex_partial {O : List (Tensor R)} {ds : List Nat} (h : IsMPO ds O) :
    IsMPO ds (adjointC O) ∧ ∀ s t, IsCfg ds s → IsCfg ds t → opElt (adjointC O) s t = star (opElt O t s) :=
  adjointC_spec h

/-- C31 for real MPOs, where the adjoint is the transpose. FALSE of the code. -/
def C31RealStatement (R : Type) [CommRing R] : Prop :=
  ∀ (ds : List Nat) (O : List (Tensor R)), IsMPO ds O → ∀ s t, IsCfg ds s → IsCfg ds t →
    opElt (adjointR O) s t = opElt O t s

omit [StarRing R] in
/-- C31 fails for real MPOs: the adjoint of a one-site raising operator is returned unchanged. -/
theorem C31_real_violated [Nontrivial R] : ¬ C31RealStatement R := by
  intro h
  have := h [2] [⟨[1, 2, 2, 1], fun i => if i = [0, 0, 1, 0] then 1 else 0⟩]
    ⟨by simp, 1, .cons rfl (by simp) (by simp) (by simp) (.nil 1)⟩ [0] [1] (.cons (by simp) .nil) (.cons (by simp) .nil)
  simp [adjointR, opElt, opPath, dim] at this

omit [StarRing R] in
/-- C31, what is left for real MPOs: the result is right exactly when the operator is symmetric. -/
theorem C31_real_iff_symmetric {O : List (Tensor R)} (s t : List Nat) :
    opElt (adjointR O) s t = opElt O t s ↔ opElt O s t = opElt O t s := Iff.rfl

/-- C32: `expected(bra, O, ket) = ∑_{s,t} conj(bra(s)) ⟨s|O|t⟩ ket(t)`. -/
theorem C32_expected {bra O ket : List (Tensor R)} {ds : List Nat} (hb : IsMPS ds bra) (hO : IsMPO ds O)
    (hk : IsMPS ds ket) :
    expectedMPO bra O ket
      = some (sumCfg ds fun s => sumCfg ds fun t => star (amp bra s) * opElt O s t * amp ket t) := by
  obtain ⟨χ, h1, h2, h3⟩ := applyMPO_spec hO hk
  rw [expectedMPO, h1, Option.bind_some, scprod_spec hb h2]
  congr 1
  refine sumCfg_congr fun s hs => ?_
  rw [h3 s hs, actOp, ← sumCfg_mul_left]
  exact sumCfg_congr fun t _ => by ring

/-- C32: `expected(psi, O)` is `expected(psi, O, psi)`. -/
theorem C32_expected_same {O ψ : List (Tensor R)} {ds : List Nat} (hO : IsMPO ds O) (hψ : IsMPS ds ψ) :
    expectedMPO1 ψ O
      = some (sumCfg ds fun s => sumCfg ds fun t => star (amp ψ s) * opElt O s t * amp ψ t) :=
  C32_expected hψ hO hψ

/-- C31 with C32: the adjoint moves to the other side. -/
theorem C32_adjoint {bra O ket : List (Tensor R)} {ds : List Nat} (hb : IsMPS ds bra) (hO : IsMPO ds O)
    (hk : IsMPS ds ket) : expectedMPO bra (adjointC O) ket = (expectedMPO ket O bra).map star := by
  obtain ⟨h1, h2⟩ := adjointC_spec hO
  rw [C32_expected hb h1 hk, C32_expected hk hO hb, Option.map_some, sumCfg_star]
  congr 1
  simp only [sumCfg_star]
  rw [sumCfg_comm]
  refine sumCfg_congr fun t ht => sumCfg_congr fun s hs => ?_
  rw [h2 s t hs ht]
  simp only [star_mul', star_star]
  ring

end Star

example : expectedMPO exS exO exS = some (sumCfg [2, 2] fun s => sumCfg [2, 2] fun t =>
    star (amp exS s) * opElt exO s t * amp exS t) ∧ expectedMPO exS exO exS ≠ some 0 := by decide +kernel

end MPS.Props
