import Verif.Props.HamProps5

/-!
# Property C74: the two classes of Hamiltonians seen through the common interface
-/

set_option linter.unusedSectionVars false
set_option linter.unusedSimpArgs false

namespace MPS.Props
open MPS Tensor

/-- C74: a `TIHamiltonian` for `N` sites of dimension `d` answers `H1` as local term of every site (a zero matrix if none was
given) and `H12` as interaction of every bond (a zero matrix if none was given); the terms into which the interaction is
split fit the chain, and there are none if the interaction is missing or zero. -/
theorem C74_ti {K : Type} [RCLike K] (svd : Tensor K → SvdRes K) (eps dflt : ℝ) (N d : Nat) (hN : 0 < N)  (periodic : Bool)
    {H12 H1 : Tensor K} (h12 : H12.isEmpty ∨ H12.dims = [d * d, d * d]) (h1 : H1.isEmpty ∨ H1.dims = [d, d])
    (hne : ¬ (H1.isEmpty ∧ H12.isEmpty)) :
    ∃ H, tiHam svd eps dflt N H12 H1 periodic = some H ∧ HamTerms H (List.replicate N d) True ∧ H.periodic = periodic ∧
      ∀ k, H.dim k = d ∧ (H1.isEmpty = false → H.loc k = H1) ∧ (H12.isEmpty = false → H.inter k = H12) ∧
        (H1.isEmpty → (H.loc k).dims = [d, d] ∧ ∀ x, (H.loc k).get x = 0) ∧
        (H12.isEmpty → (H.inter k).dims = [d * d, d * d] ∧ ∀ x, (H.inter k).get x = 0) ∧
        ((H12.isEmpty ∨ ∀ x, H12.get x = 0) → H.depth k = 0) := by
  classical
  set H1' : Tensor K := if H1.isEmpty then zeros [Nat.sqrt (H12.dim 0), Nat.sqrt (H12.dim 0)] else H1 with hH1'
  have hH1d : H1'.dims = [d, d] := by
    rw [hH1']
    split
    · rename_i he
      have h12' : H12.dims = [d * d, d * d] := h12.resolve_left fun h => hne ⟨he, h⟩
      have : H12.dim 0 = d * d := by simp [dim, h12']
      simp [zeros, this, Nat.sqrt_eq]
    · rename_i he; exact h1.resolve_left he
  have hd0 : H1'.dim 0 = d := by simp [dim, hH1d]
  have hd1 : H1'.dim 1 = d := by simp [dim, hH1d]
  set v : List (Tensor K) × List (Tensor K) :=
    if H12.isEmpty ∨ ∀ idx, InB H12.dims idx → H12.get idx = 0 then ([], []) else splitInteraction svd eps dflt H12 with hv
  have hvd : ∀ n, n < v.1.length → (v.1.getD n Tensor.empty).dims = [d, d] ∧ (v.2.getD n Tensor.empty).dims = [d, d] := by
    intro n hn
    by_cases hc : H12.isEmpty ∨ ∀ idx, InB H12.dims idx → H12.get idx = 0
    · rw [hv, if_pos hc] at hn; simp at hn
    · rw [hv, if_neg hc] at hn ⊢
      have h12' : H12.dims = [d * d, d * d] := h12.resolve_left fun h => hc (Or.inl h)
      obtain ⟨a, b, c, _⟩ := split_core svd eps dflt h12'
      rw [a] at hn
      exact c n hn
  have hrep : ∀ k, k < N → (List.replicate N d).getD k 0 = d := fun k hk => by simp [List.getElem?_replicate, hk]
  refine ⟨_, by rw [tiHam, if_neg hne], ?_, rfl, ?_⟩
  · refine ⟨by simp, ?_, ?_, ?_, ?_, ?_⟩
    · intro k hk
      rw [hrep k (by simpa using hk)]
      exact Or.inr hH1d
    · intro k n hk hn
      rw [hrep k (by simp at hk; omega)]
      exact (hvd n hn).1
    · intro k n hk hn
      rw [hrep (k + 1) (by simpa using hk)]
      exact (hvd n hn).2
    · intro _ n hn
      rw [hrep _ (by simp; omega)]
      exact (hvd n hn).1
    · intro _ n hn
      rw [hrep _ hN]
      exact (hvd n hn).2
  · intro k
    refine ⟨hd1, ?_, ?_, ?_, ?_, ?_⟩
    · intro h; show H1' = H1; rw [hH1', if_neg (by simp [h])]
    · intro h; simp [h]
    · intro h
      refine ⟨hH1d, ?_⟩
      intro x
      show H1'.get x = 0
      rw [hH1', if_pos h]; rfl
    · intro h
      simp only [h, if_true]
      rw [← hH1', hd0]
      exact ⟨rfl, fun _ => rfl⟩
    · intro h
      have : v = ([], []) := by
        rw [hv, if_pos]
        exact h.imp id fun h idx _ => h idx
      show v.1.length = 0
      rw [this]; rfl

/-- C74: a `TIHamiltonian` with neither local term nor interaction is rejected. -/
theorem C74_ti_rejects {K : Type} [RCLike K] (svd : Tensor K → SvdRes K) (eps dflt : ℝ) (N : Nat) (periodic : Bool)
    {H12 H1 : Tensor K} (h : H1.isEmpty ∧ H12.isEmpty) : tiHam svd eps dflt N H12 H1 periodic = none := by
  rw [tiHam, if_pos h]

/-- C74: every `ConstantHamiltonian` obtained through valid calls fits its chain, also on the bond (last, first), on which it
never has any term. -/
theorem C74_constant {R : Type} [CommRing R] {ds : List Nat} (hpos : ∀ d ∈ ds, 0 < d) (hl : 0 < ds.length) (periodic : Bool)
    (cs : List (HamCall R)) (hc : ∀ c ∈ cs, c.Valid ds) : ∃ h, runHam ds.length periodic cs = some h ∧
      HamTerms h.toHam ds True ∧ h.toHam.depth (ds.length - 1) = 0 := by
  obtain ⟨h, h1, hr⟩ := hamRep_run hpos periodic cs hc
  have hloc : ∀ cs : List (HamCall R), (∀ c ∈ cs, c.Valid ds) → ∀ k x, localAfter cs k = some x → x.dims = [ds.getD k 0, ds.getD k 0] := by
    intro cs
    induction cs using List.reverseRecOn with
    | nil => intro _ k x h; simp [localAfter] at h
    | append_singleton cs c ih =>
      intro hc k x h
      have ih := ih fun c' hc' => hc c' (by simp [hc'])
      rw [localAfter_snoc] at h
      cases c with
      | setLocal k' y =>
        simp only at h
        split at h
        · rename_i e
          simp only [Option.some.injEq] at h
          subst h; subst e
          exact (hc (.setLocal k' y) (by simp)).2
        · exact ih k x h
      | setInter => exact ih k x h
      | addInter => exact ih k x h
  have hd : ∀ k, h.interactionDepth k = 0 ∨ k < ds.length := by
    intro k
    by_cases hk : k < ds.length
    · exact Or.inr hk
    · left
      have : h.left.length ≤ k := by rw [hr.l2]; omega
      simp [ConstHam.interactionDepth, this]
  have hfit : ∀ k n, k < ds.length → n < h.interactionDepth k → k + 1 < ds.length ∧
      (h.interactionLeft k n).dims = [ds.getD k 0, ds.getD k 0] ∧
      (h.interactionRight k n).dims = [ds.getD (k + 1) 0, ds.getD (k + 1) 0] := by
    intro k n hk hn
    have e1 := hr.left k hk
    have e2 := hr.right k hk
    have hn' : n < (termsAfter cs k).length := by
      simp only [ConstHam.interactionDepth] at hn
      rw [e1, List.length_map] at hn; exact hn
    have := hr.fits k (termsAfter cs k)[n] (List.getElem_mem hn')
    simp only [ConstHam.interactionLeft, ConstHam.interactionRight]
    rw [e1, e2]
    simpa [hn'] using this
  have hlast : h.interactionDepth (ds.length - 1) = 0 := by
    by_contra hcon
    have := hfit (ds.length - 1) 0 (by omega) (by omega)
    omega
  refine ⟨h, h1, ⟨hr.l1, ?_, ?_, ?_, ?_, ?_⟩, hlast⟩
  · intro k hk
    show (h.localTerm k).isEmpty ∨ _
    have e : h.localTerm k = (localAfter cs k).getD Tensor.empty := hr.loc k hk
    cases hx : localAfter cs k with
    | none => left; rw [e, hx]; simp [Tensor.empty, isEmpty, size]
    | some x =>
      right
      show (h.localTerm k).dims = _
      rw [e, hx]; exact hloc cs hc k x hx
  · intro k n hk hn; exact (hfit k n (by omega) hn).2.1
  · intro k n hk hn; exact (hfit k n (by omega) hn).2.2
  · intro _ n hn; exact absurd hn (by show ¬ n < h.interactionDepth _; rw [hlast]; omega)
  · intro _ n hn; exact absurd hn (by show ¬ n < h.interactionDepth _; rw [hlast]; omega)

/-- the hypotheses of C33, C38, C72 are met by a chain of a spin 1/2 and a spin 1 with local terms and an interaction -/
theorem ham_witness : let H : Ham Int := ⟨2, fun k => k + 2, fun k => eye (k + 2), fun _ => eye 6,
      fun k => 1 - k, fun k _ => smul 3 (eye (k + 2)), fun k _ => eye (k + 3), false⟩
    HamTerms H [2, 3] False ∧ (∀ k, k < 2 → (H.loc k).dims = [[2, 3].getD k 0, [2, 3].getD k 0]) ∧
    (∀ k, k < 2 → H.dim k = [2, 3].getD k 0) ∧ H.depth 0 = 1 ∧
    IsMPS [2, 3] [(⟨[1, 2, 2], fun i => if i.getD 1 0 = i.getD 2 0 then 1 else 0⟩ : Tensor Int), ⟨[2, 3, 1], fun _ => 1⟩] := by
  refine ⟨⟨rfl, ?_, ?_, ?_, fun h => h.elim, fun h => h.elim⟩, ?_, ?_, rfl, by simp, 1, ?_⟩
  · intro k hk
    right
    have : k = 0 ∨ k = 1 := by simp at hk; omega
    rcases this with rfl | rfl <;> rfl
  · intro k n hk _
    have : k = 0 := by simp at hk; omega
    subst this; rfl
  · intro k n hk _
    have : k = 0 := by simp at hk; omega
    subst this; rfl
  · intro k hk
    have : k = 0 ∨ k = 1 := by omega
    rcases this with rfl | rfl <;> rfl
  · intro k hk
    have : k = 0 ∨ k = 1 := by omega
    rcases this with rfl | rfl <;> rfl
  · exact .cons rfl (by omega) (by omega) (by omega) (.cons rfl (by omega) (by omega) (by omega) (.nil 1))

end MPS.Props
