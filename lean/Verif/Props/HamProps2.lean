import Verif.Props.HamProps

/-!
# Properties C33 and C38: MPO and energy of a Hamiltonian
-/

set_option linter.unusedSectionVars false
set_option linter.unusedSimpArgs false

namespace MPS.Props
open MPS Tensor
variable {R : Type} [CommRing R]

/-! ### C33 -/

theorem foldlM_adds {ds : List Nat} (f : List (Tensor R) → Nat → Option (List (Tensor R)))
    (g : Nat → List Nat → List Nat → R) (n : Nat)
    (hf : ∀ O k, k < n → HInv ds O → ∃ O', f O k = some O' ∧ HInv ds O' ∧ ∀ s t, IsCfg ds s → IsCfg ds t →
      opElt O' s t = opElt O s t + g k s t) (O : List (Tensor R)) (hO : HInv ds O) :
    ∃ O', (List.range n).foldlM f O = some O' ∧ HInv ds O' ∧ ∀ s t, IsCfg ds s → IsCfg ds t →
      opElt O' s t = opElt O s t + ∑ k ∈ Finset.range n, g k s t := by
  induction n with
  | zero => exact ⟨O, rfl, hO, by simp⟩
  | succ n ih =>
    obtain ⟨O1, h1, h2, h3⟩ := ih fun O k hk => hf O k (by omega)
    obtain ⟨O2, k1, k2, k3⟩ := hf O1 n (by omega) h2
    refine ⟨O2, by rw [List.range_succ, List.foldlM_append, h1]; simp [k1], k2, fun s t hs ht => ?_⟩
    rw [k3 s t hs ht, h3 s t hs ht, Finset.sum_range_succ, add_assoc]

theorem not_isEmpty {A : Tensor R} {d : Nat} (h : A.dims = [d, d]) (hd : 0 < d) : A.isEmpty = false := by
  have := Nat.mul_pos hd hd
  simp only [isEmpty, size, h, List.prod_cons, List.prod_nil, mul_one, beq_eq_false_iff_ne]
  omega

/-- the operator a Hamiltonian stands for, on an open chain: matrix element ⟨s|·|t⟩ of the sum of the local terms and of the
products of the factors of the interaction terms -/
def hamElt (ds : List Nat) (H : Ham R) (s t : List Nat) : R :=
  ∑ k ∈ Finset.range ds.length, tensorOp ds.length (onSite ds k (H.loc k)) s t +
  ∑ k ∈ Finset.range (ds.length - 1), ∑ n ∈ Finset.range (H.depth k),
    tensorOp ds.length (onTwo ds k (H.left k n) (k + 1) (H.right k n) fun j => eye (ds.getD j 0)) s t

theorem dimensions_eq {ds : List Nat} {H : Ham R} (h : H.size = ds.length) (hd : ∀ k, k < ds.length → H.dim k = ds.getD k 0) :
    H.dimensions = ds := by
  unfold Ham.dimensions
  rw [h]
  apply List.ext_getElem (by simp)
  intro i h1 h2
  simp [hd i h2, h2]

/-- C33: `CMPO(H,t)` represents the sum of the local terms and of the interactions between neighbours. -/
theorem C33_cmpo_partial {ds : List Nat} (h2 : 2 ≤ ds.length) (hpos : ∀ d ∈ ds, 0 < d) {H : Ham R} (hH : HamTerms H ds False)
    (hloc : ∀ k, k < ds.length → (H.loc k).dims = [ds.getD k 0, ds.getD k 0])
    (hdim : ∀ k, k < ds.length → H.dim k = ds.getD k 0) :
    ∃ O, cmpoFromHam H = some O ∧ IsMPO ds O ∧ ∀ s t, IsCfg ds s → IsCfg ds t → opElt O s t = hamElt ds H s t := by
  have hd : ∀ j, j < ds.length → 0 < ds.getD j 0 := fun j hj => by
    rw [List.getD_eq_getElem _ _ hj]; exact hpos _ (List.getElem_mem hj)
  obtain ⟨O0, g1, g2, g3⟩ := newMPO_spec (R := R) h2 hpos
  obtain ⟨O1, k1, k2, k3⟩ := foldlM_adds (fun O i => addLocalTerm O (H.loc i) i)
    (fun k s t => tensorOp ds.length (onSite ds k (H.loc k)) s t) ds.length
    (fun O k hk hO => addLocalTerm_spec hO hk (hloc k hk)) O0 g2
  obtain ⟨O2, m1, m2, m3⟩ := foldlM_adds (fun O i => mpoBond H i O)
    (fun k s t => ∑ n ∈ Finset.range (H.depth k),
      tensorOp ds.length (onTwo ds k (H.left k n) (k + 1) (H.right k n) fun j => eye (ds.getD j 0)) s t) (ds.length - 1)
    (fun O k hk hO => foldlM_adds _ (fun n s t => tensorOp ds.length
        (onTwo ds k (H.left k n) (k + 1) (H.right k n) fun j => eye (ds.getD j 0)) s t) (H.depth k)
      (fun O n hn hO => by
        classical
        have e1 := hH.left k n (by omega) hn
        have := call_spec (c := BuildOp.interaction (H.left k n) k (H.right k n)) hO
          ⟨by omega, e1, hH.right k n (by omega) hn⟩ (by simp [BuildOp.AllId])
        simpa [BuildOp.call, BuildOp.term, not_isEmpty e1 (hd k (by omega))] using this) O hO) O1 k2
  refine ⟨O2, ?_, m2.isMPO, fun s t hs ht => ?_⟩
  · have l0 : O0.length = ds.length := by obtain ⟨_, D, hW⟩ := g2.isMPO; exact hW.length
    have l1 : O1.length = ds.length := by obtain ⟨_, D, hW⟩ := k2.isMPO; exact hW.length
    unfold cmpoFromHam
    rw [dimensions_eq hH.size hdim, g1]
    simp only [Option.bind_eq_bind, Option.bind_some, l0, k1, l1, m1]
  · rw [m3 s t hs ht, k3 s t hs ht, g3, zero_add, hamElt]

/-- C33: `CMPO(H,t)` aborts when some local term is missing (empty), as in a `ConstantHamiltonian` for which only
interactions were given, although such a Hamiltonian has an energy (C38). -/
theorem C33_missing_local_violated {ds : List Nat} (h2 : 2 ≤ ds.length) (hpos : ∀ d ∈ ds, 0 < d) {H : Ham R}
    (hs : H.size = ds.length) (hdim : ∀ k, k < ds.length → H.dim k = ds.getD k 0)
    (h0 : H.loc 0 = Tensor.empty) : cmpoFromHam H = none := by
  obtain ⟨O0, g1, g2, g3⟩ := newMPO_spec (R := R) h2 hpos
  have hd : 0 < ds.getD 0 0 := by
    rw [List.getD_eq_getElem _ _ (by omega)]; exact hpos _ (List.getElem_mem _)
  obtain ⟨_, D, hW⟩ := g2.isMPO
  have hl := hW.length
  unfold cmpoFromHam
  rw [dimensions_eq hs hdim, g1]
  simp only [Option.bind_eq_bind, Option.bind_some]
  obtain ⟨n, hn⟩ : ∃ n, O0.length = n + 1 := ⟨O0.length - 1, by omega⟩
  have h0' : addLocalTerm O0 (H.loc 0) ((0 : Nat) : Int) = none := by
    unfold addLocalTerm
    rw [if_neg (by omega), if_neg (by rw [h0]; simp [Tensor.empty, dim, nrm])]
    simp only
    rw [if_pos]
    rw [h0]
    cases hW with
    | nil => simp at hn
    | cons hA _ h _ _ => simp [site, dim, hA, nrm, Tensor.empty]; omega
  rw [hn, List.range_succ_eq_map, List.foldlM_cons, h0']
  rfl

/-! ### C33 for `RMPO` -/

/-- real part of a Hamiltonian -/
noncomputable def reHam (H : Ham ℂ) : Ham ℝ :=
  let re : Tensor ℂ → Tensor ℝ := fun A => ⟨A.dims, fun i => (A.get i).re⟩
  { size := H.size, dim := H.dim, loc := fun k => re (H.loc k), inter := fun k => re (H.inter k), depth := H.depth,
    left := fun k n => re (H.left k n), right := fun k n => re (H.right k n), periodic := H.periodic }

/-- all terms of a Hamiltonian on a chain of `L` sites are real -/
structure RealTerms (L : Nat) (H : Ham ℂ) : Prop where
  loc : ∀ k, k < L → ∀ idx, InB (H.loc k).dims idx → ((H.loc k).get idx).im = 0
  left : ∀ k n, k < L → n < H.depth k → ∀ idx, InB (H.left k n).dims idx → ((H.left k n).get idx).im = 0
  right : ∀ k n, k < L → n < H.depth k → ∀ idx, InB (H.right k n).dims idx → ((H.right k n).get idx).im = 0

theorem foldlM_congr {α : Type} (f g : α → Nat → Option α) (n : Nat) (h : ∀ a k, k < n → f a k = g a k) (a : α) :
    (List.range n).foldlM f a = (List.range n).foldlM g a := by
  induction n with
  | zero => rfl
  | succ n ih =>
    rw [List.range_succ, List.foldlM_append, List.foldlM_append, ih fun a k hk => h a k (by omega)]
    congr 1
    funext b
    simp [h b n (by omega)]

/-- C33: if all terms are real and there are none on the bond (last, first), `RMPO(H,t)` represents the Hamiltonian. -/
theorem C33_rmpo_partial {ds : List Nat} (h2 : 2 ≤ ds.length) (hpos : ∀ d ∈ ds, 0 < d) {H : Ham ℂ} (hH : HamTerms H ds False)
    (hloc : ∀ k, k < ds.length → (H.loc k).dims = [ds.getD k 0, ds.getD k 0])
    (hdim : ∀ k, k < ds.length → H.dim k = ds.getD k 0) (hre : RealTerms ds.length H) (hlast : H.depth (ds.length - 1) = 0) :
    ∃ O, rmpoFromHam H = some O ∧ IsMPO ds O ∧
      ∀ s t, IsCfg ds s → IsCfg ds t → opElt O s t = hamElt ds (reHam H) s t := by
  have hH' : HamTerms (reHam H) ds False := ⟨hH.size, fun k hk => by
      rcases hH.loc k hk with h | h
      · left; exact h
      · right; exact h, hH.left, hH.right, fun h => h.elim, fun h => h.elim⟩
  obtain ⟨O, h1, h3, h4⟩ := C33_cmpo_partial h2 hpos hH' hloc hdim
  refine ⟨O, ?_, h3, h4⟩
  rw [← h1]
  unfold rmpoFromHam cmpoFromHam
  have hdims : H.dimensions = (reHam H).dimensions := rfl
  rw [hdims, dimensions_eq hH'.size hdim]
  obtain ⟨O0, g1, g2, _⟩ := newMPO_spec (R := ℝ) h2 hpos
  have l0 : O0.length = ds.length := by obtain ⟨_, D, hW⟩ := g2.isMPO; exact hW.length
  obtain ⟨O1, k1, k2, _⟩ := foldlM_adds (fun O i => addLocalTerm O ((reHam H).loc i) i)
    (fun k s t => tensorOp ds.length (onSite ds k ((reHam H).loc k)) s t) ds.length
    (fun O k hk hO => addLocalTerm_spec hO hk (hloc k hk)) O0 g2
  have l1 : O1.length = ds.length := by obtain ⟨_, D, hW⟩ := k2.isMPO; exact hW.length
  have e1 : (List.range ds.length).foldlM (fun O (i : Nat) => (safeReal (H.loc i)).bind fun h => addLocalTerm O h i) O0
      = some O1 := by
    rw [← k1]
    apply foldlM_congr
    intro O k hk
    rw [safeReal, if_pos (hre.loc k hk)]
    rfl
  rw [g1]
  simp only [Option.bind_eq_bind, Option.bind_some, l0, e1, k1, l1]
  obtain ⟨n, hn⟩ : ∃ n, ds.length = n + 1 := ⟨ds.length - 1, by omega⟩
  rw [hn, List.range_succ, List.foldlM_append]
  have e2 : (List.range n).foldlM (fun O i => rmpoBond H i O) O1 = (List.range n).foldlM (fun O i => mpoBond (reHam H) i O) O1 := by
    apply foldlM_congr
    intro O k hk
    unfold rmpoBond mpoBond
    apply foldlM_congr
    intro O j hj
    rw [safeReal, if_pos (hre.left k j (by omega) hj), safeReal, if_pos (hre.right k j (by omega) hj)]
    rfl
  rw [e2, Nat.add_sub_cancel]
  have e3 : ∀ O, rmpoBond H n O = some O := by
    intro O
    unfold rmpoBond
    rw [hn, Nat.add_sub_cancel] at hlast
    rw [hlast]
    rfl
  cases (List.range n).foldlM (fun O i => mpoBond (reHam H) i O) O1 with
  | none => rfl
  | some O => simp [e3]

theorem foldlM_length {N : Nat} (f : List (Tensor R) → Nat → Option (List (Tensor R)))
    (hf : ∀ O k O', O.length = N → f O k = some O' → O'.length = N) (n : Nat) (O O' : List (Tensor R)) (hO : O.length = N)
    (h : (List.range n).foldlM f O = some O') : O'.length = N := by
  induction n generalizing O' with
  | zero =>
    simp only [List.range_zero, List.foldlM_nil, Option.pure_def, Option.some.injEq] at h
    rw [← h]; exact hO
  | succ n ih =>
    rw [List.range_succ, List.foldlM_append] at h
    cases h1 : (List.range n).foldlM f O with
    | none => rw [h1] at h; simp at h
    | some O1 =>
      rw [h1] at h
      simp at h
      exact hf O1 n O' (ih O1 h1) h

theorem addLocalTerm_length {O O' : List (Tensor R)} {h : Tensor R} {i : Int} (e : addLocalTerm O h i = some O') :
    O'.length = O.length := by
  unfold addLocalTerm at e
  split at e
  · simp at e
  · split at e
    · simp at e
    · simp only at e
      split at e
      · simp at e
      · simp only [Option.some.injEq] at e; rw [← e]; simp

theorem addInteraction_length {O O' : List (Tensor R)} {a b : Tensor R} {i : Int} (e : addInteraction O a i b = some O') :
    O'.length = O.length := by
  unfold addInteraction at e
  repeat' split at e
  all_goals first
    | (simp at e; done)
    | (simp only at e
       repeat' split at e
       all_goals first
         | (simp at e; done)
         | (simp only [Option.some.injEq] at e; rw [← e]; simp))

theorem rmpoBond_length {H : Ham ℂ} {i N : Nat} {O O' : List (Tensor ℝ)} (hO : O.length = N)
    (e : rmpoBond H i O = some O') : O'.length = N := by
  refine foldlM_length _ ?_ _ _ _ hO e
  intro O k O' hO h
  simp only [Option.bind_eq_bind] at h
  obtain ⟨A, _, h⟩ := Option.bind_eq_some_iff.1 h
  obtain ⟨B, _, h⟩ := Option.bind_eq_some_iff.1 h
  split at h
  · simp only [Option.some.injEq] at h; rw [← h]; exact hO
  · rw [addInteraction_length h]; exact hO

/-- C33: `RMPO(H,t)` aborts when the Hamiltonian answers a positive `interaction_depth` for the last site, as every
`TIHamiltonian` with an interaction does (also with open boundary conditions). -/
theorem C33_rmpo_violated {ds : List Nat} (h2 : 2 ≤ ds.length) (hpos : ∀ d ∈ ds, 0 < d) {H : Ham ℂ} (hs : H.size = ds.length)
    (hdim : ∀ k, k < ds.length → H.dim k = ds.getD k 0)
    (hlast : 0 < H.depth (ds.length - 1)) (hne : (H.left (ds.length - 1) 0).isEmpty = false) : rmpoFromHam H = none := by
  obtain ⟨O0, g1, g2, _⟩ := newMPO_spec (R := ℝ) h2 hpos
  have l0 : O0.length = ds.length := g2.length
  unfold rmpoFromHam
  rw [dimensions_eq hs hdim, g1]
  simp only [Option.bind_eq_bind, Option.bind_some]
  cases e1 : (List.range O0.length).foldlM
      (fun O (i : Nat) => (safeReal (H.loc i)).bind fun h => addLocalTerm O h i) O0 with
  | none => rfl
  | some O1 =>
    have l1 : O1.length = ds.length := by
      refine foldlM_length _ ?_ _ _ _ l0 e1
      intro O k O' hO h
      obtain ⟨A, _, h⟩ := Option.bind_eq_some_iff.1 h
      rw [addLocalTerm_length h]; exact hO
    simp only [Option.bind_some]
    obtain ⟨n, hn⟩ : ∃ n, ds.length = n + 1 := ⟨ds.length - 1, by omega⟩
    rw [l1, hn, List.range_succ, List.foldlM_append]
    cases e2 : (List.range n).foldlM (fun O i => rmpoBond H i O) O1 with
    | none => rfl
    | some O2 =>
      have l2 : O2.length = ds.length := foldlM_length _ (fun O k O' hO h => rmpoBond_length hO h) _ _ _ l1 e2
      rw [hn, Nat.add_sub_cancel] at hlast hne
      obtain ⟨m, hm⟩ : ∃ m, H.depth n = m + 1 := ⟨H.depth n - 1, by omega⟩
      have : rmpoBond H n O2 = none := by
        unfold rmpoBond
        rw [hm, List.range_succ_eq_map, List.foldlM_cons]
        simp only [Option.bind_eq_bind]
        rw [Option.bind_eq_none_iff]
        intro O3 h3
        exfalso
        obtain ⟨A, hA, h3⟩ := Option.bind_eq_some_iff.1 h3
        obtain ⟨B, hB, h3⟩ := Option.bind_eq_some_iff.1 h3
        have hAe : A.isEmpty = false := by
          unfold safeReal at hA
          split at hA
          · simp only [Option.some.injEq] at hA; rw [← hA]; exact hne
          · simp at hA
        rw [hAe] at h3
        unfold addInteraction at h3
        rw [if_neg (by simp), if_neg (by omega), if_pos (by omega)] at h3
        simp at h3
      simp [this]

end MPS.Props
