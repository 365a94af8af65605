import Verif.Props.HamProps2

/-!
# Property C38: energy of a Hamiltonian over an MPS
-/

set_option linter.unusedSectionVars false
set_option linter.unusedSimpArgs false

namespace MPS.Props
open MPS Tensor
variable {R : Type} [CommRing R] [StarRing R]

/-- expectation value of the local term of site `k` (nothing if there is no local term) -/
def localEnergy (ds : List Nat) (H : Ham R) (φ : List Nat → R) (k : Nat) : R :=
  if (H.loc k).isEmpty then 0 else MPS.inner ds φ (actSite (ds.getD k 0) (H.loc k) k φ)

/-- expectation value of the interaction terms number `k`, with their factors on the sites `k` and `k2` -/
def bondEnergy (ds : List Nat) (H : Ham R) (φ : List Nat → R) (k k2 : Nat) : R :=
  ∑ n ∈ Finset.range (H.depth k), corr ds φ (H.left k n) k (H.right k n) k2

theorem normalIndex_nat {L k : Nat} (h : k < L) : normalIndex L (k : Int) = some k := by
  unfold normalIndex
  rw [if_neg (by omega), if_pos (by omega)]
  simp

theorem energyBond_spec {ds : List Nat} {P : List (Tensor R)} (hP : IsMPS ds P) {H : Ham R} {k k2 : Nat} (hk : k < ds.length)
    (hk2 : k2 < ds.length) (hne : k ≠ k2)
    (hl : ∀ n, n < H.depth k → (H.left k n).dims = [ds.getD k 0, ds.getD k 0])
    (hr : ∀ n, n < H.depth k → (H.right k n).dims = [ds.getD k2 0, ds.getD k2 0]) (E : R) :
    energyBond P H k k2 E = some (E + bondEnergy ds H (amp P) k k2) := by
  unfold energyBond bondEnergy
  have key : ∀ m, m ≤ H.depth k → (List.range m).foldlM (fun E i =>
      (expected2 P (H.left k i) k (H.right k i) k2).map (E + ·)) E
      = some (E + ∑ n ∈ Finset.range m, corr ds (amp P) (H.left k n) k (H.right k n) k2) := by
    intro m
    induction m with
    | zero => intro _; simp
    | succ m ih =>
      intro hm
      rw [List.range_succ, List.foldlM_append, ih (by omega)]
      have := expected2_spec hP (normalIndex_nat hk) (normalIndex_nat hk2) (Or.inr hne) (hl m (by omega)) (hr m (by omega))
      simp only [Option.bind_eq_bind, Option.bind_some, List.foldlM_cons, List.foldlM_nil, this, Option.map_some,
        Option.pure_def, Finset.sum_range_succ, corr, add_assoc]
  exact key _ le_rfl

theorem energyLoop_spec {ds : List Nat} {P : List (Tensor R)} (hP : IsMPS ds P) {H : Ham R}
    (hH : HamTerms H ds (H.periodic = true ∧ 1 < ds.length)) (fuel k : Nat) (hk : k + (fuel + 1) = ds.length) (E : R) :
    energyLoop P H (fuel + 1) k (k + 1) E = some (E + ∑ j ∈ Finset.Ico k ds.length, localEnergy ds H (amp P) j +
      ∑ j ∈ Finset.Ico k (ds.length - 1), bondEnergy ds H (amp P) j (j + 1) +
      if H.periodic = true ∧ 1 < ds.length then bondEnergy ds H (amp P) (ds.length - 1) 0 else 0) := by
  induction fuel generalizing k E with
  | zero =>
    have hloc : energyLocal P H k E = some (E + localEnergy ds H (amp P) k) := by
      unfold localEnergy energyLocal
      split
      · simp
      · rcases hH.loc k (by omega) with h | h
        · contradiction
        · rw [expected1_spec hP (normalIndex_nat (by omega : k < ds.length)) (by omega) h]; rfl
    have e1 : Finset.Ico k ds.length = {k} := by rw [← hk]; simp
    have e2 : Finset.Ico k (ds.length - 1) = ∅ := by rw [← hk]; simp
    have hN : ds.length = k + 1 := by omega
    rw [energyLoop, hloc, e1, e2]
    simp only [Option.bind_eq_bind, Option.bind_some, hH.size, Finset.sum_singleton, Finset.sum_empty, add_zero]
    by_cases hp : H.periodic = true ∧ 1 < ds.length
    · have hb := energyBond_spec hP (k := k) (k2 := 0) (H := H) (by omega) (by omega) (by omega)
        (fun n hn => by have := hH.wrapL hp n; rw [hN, Nat.add_sub_cancel] at this; exact this hn)
        (fun n hn => by have := hH.wrapR hp n; rw [hN, Nat.add_sub_cancel] at this; exact this hn) (E + localEnergy ds H (amp P) k)
      rw [if_neg (by rintro ⟨_, h | h⟩; · omega
                     · exact h hp.1), if_pos hN.symm, hb, if_pos hp]
      simp [energyLoop, hN]
    · rw [if_neg hp, if_pos, add_zero]
      refine ⟨hN.symm, ?_⟩
      by_cases h0 : k = 0
      · exact Or.inl h0
      · exact Or.inr fun h => hp ⟨h, by omega⟩
  | succ fuel ih =>
    have hloc : energyLocal P H k E = some (E + localEnergy ds H (amp P) k) := by
      unfold localEnergy energyLocal
      split
      · simp
      · rcases hH.loc k (by omega) with h | h
        · contradiction
        · rw [expected1_spec hP (normalIndex_nat (by omega : k < ds.length)) (by omega) h]; rfl
    rw [energyLoop, hloc]
    have hb := energyBond_spec hP (k := k) (k2 := k + 1) (H := H) (by omega) (by omega) (by omega)
        (fun n hn => hH.left k n (by omega) hn) (fun n hn => hH.right k n (by omega) hn) (E + localEnergy ds H (amp P) k)
    simp only [Option.bind_eq_bind, Option.bind_some, hH.size]
    rw [if_neg (by omega), if_neg (by omega), hb]
    simp only [Option.bind_some]
    rw [ih (k + 1) (by omega)]
    rw [Finset.sum_eq_sum_Ico_succ_bot (by omega : k < ds.length), Finset.sum_eq_sum_Ico_succ_bot (by omega : k < ds.length - 1)]
    congr 1
    ring

/-- C38: the number whose real part `expected(psi,H,t)` returns is the sum of the expectation values of the local terms, of
the interactions between neighbours and, for a periodic Hamiltonian with more than one site, of those between the last
and the first site. -/
theorem C38_energy {ds : List Nat} {P : List (Tensor R)} (hP : IsMPS ds P) {H : Ham R}
    (hH : HamTerms H ds (H.periodic = true ∧ 1 < ds.length)) :
    energy P H = some (∑ k ∈ Finset.range ds.length, localEnergy ds H (amp P) k +
      ∑ k ∈ Finset.range (ds.length - 1), bondEnergy ds H (amp P) k (k + 1) +
      if H.periodic = true ∧ 1 < ds.length then bondEnergy ds H (amp P) (ds.length - 1) 0 else 0) := by
  obtain ⟨hne, D, hW⟩ := id hP
  have hl : 0 < ds.length := by rw [← hW.length]; exact List.length_pos_iff.mpr hne
  have := energyLoop_spec hP hH (ds.length - 1) 0 (by omega) 0
  rw [Nat.sub_add_cancel hl] at this
  simp only [zero_add] at this
  rw [energy, hH.size, this]
  simp

end MPS.Props
