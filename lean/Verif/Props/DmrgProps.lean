import Verif.DmrgLemmas7
import Verif.Props.HamProps4
import Verif.EigsExists
import Verif.SvdExists

/-!
# C56, C97, C98, C99: `DMRG<MPS>::minimize`
-/

set_option linter.unusedSectionVars false
set_option linter.unusedSimpArgs false

namespace MPS.Props
open MPS Tensor Form Minim Dmrg
variable {K : Type} [RCLike K]

/-- `expected(P, H)` is `⟨P|H|P⟩` -/
theorem energy_ham {ds : List Nat} {H : Ham K} (hH : HamOk ds H) {P : List (Tensor K)} (hw : WF 1 P ds 1) : energy P H = some (hamExp ds H P P) := by
  have hl2 := hH.two
  have hne : P ≠ [] := by rintro rfl; have := hw.length; simp at this; omega
  have hP : IsMPS ds P := ⟨hne, 1, hw⟩
  have hT : HamTerms { H with dim := fun k => ds.getD k 0 } ds False :=
    ⟨hH.size, fun k hk => Or.inr (hH.loc k hk), hH.left, hH.right, by simp, by simp⟩
  obtain ⟨O, e1, E, e2, e3⟩ := C72_energy_mpo hH.two hH.pos hT hH.opened hH.loc (fun k _ => rfl) hP
  obtain ⟨O', f1, f2, f3⟩ := C33_cmpo_partial hH.two hH.pos hT hH.loc (fun k _ => rfl)
  rw [e1] at f1
  cases f1
  rw [C32_expected_same f2 hP] at e2
  have hsame : energy P H = energy P { H with dim := fun k => ds.getD k 0 } := by
    have a := C38_energy hP (H := H) ⟨hH.size, fun k hk => Or.inr (hH.loc k hk), hH.left, hH.right, by simp [hH.opened], by simp [hH.opened]⟩
    have b := C38_energy hP (H := { H with dim := fun k => ds.getD k 0 })
      ⟨hH.size, fun k hk => Or.inr (hH.loc k hk), hH.left, hH.right, by simp [hH.opened], by simp [hH.opened]⟩
    exact a.trans b.symm
  rw [hsame, e3, ← e2]
  congr 1
  unfold hamExp MPS.inner actOp
  refine sumCfg_congr fun s hs => ?_
  rw [← sumCfg_mul_left]
  refine sumCfg_congr fun t ht => ?_
  rw [f3 s t hs ht, mul_assoc]
  rfl

/-- **C97.**  Single-site DMRG (`Dmax = 0`) for an open Hermitian Hamiltonian, if it returns and at least one sweep is allowed.  The state returned is
well formed.  The number returned is exactly the energy `expected(χ, H)` of a normalised state `χ` whose energy cannot be lowered by changing one
of its tensors; the squared distance of `χ` and the state returned is the weight of the singular values dropped in the last
step, and it is zero if the number of sweeps was odd.  If it is zero, the state returned is normalised and has that energy.  If nothing has been dropped at all,
then the energies of the sweeps do not increase, and the last one is not above that of the initial state.  There are at most
`sweeps` sweeps, and fewer only if the last two energies differ by less than `tolerance` or the energy has grown; earlier energies differ by
at least `tolerance`. -/
theorem C97_single_site {svd : Tensor K → SvdRes K} (hg : GoodSvd svd) (eps : ℝ) {dflt : ℝ} (hd0 : 0 < dflt) {eigs : Eigs K} (he : GoodEigs eigs)
    (solve : Solve K) {ds : List Nat} {H : Ham K} (hH : HamOk ds H) (P0 : List (List (Tensor K))) {P : List (Tensor K)} (hw : WF 1 P ds 1)
    (o : Dmrg.Opts) (hs : 0 < o.sweeps) (E0 : ℝ) {out : Dmrg.Out K} (h : Dmrg.minimize svd eps dflt eigs solve o H P0 P 0 E0 = some out) :
    WF 1 out.P ds 1 ∧
    (∃ χ k, WF 1 χ ds 1 ∧ k < ds.length ∧ normSq ds χ = 1 ∧ energy χ H = some (out.E : K) ∧ distSq ds χ out.P = out.last.lost ∧
      ∀ Y : Tensor K, Y.dims = (site χ k).dims → out.E * normSq ds (χ.set k Y) ≤ hamEnergy ds H (χ.set k Y)) ∧
    (out.energies.length % 2 = 1 → out.last.lost = 0) ∧
    (out.last.lost = 0 → normSq ds out.P = 1 ∧ energy out.P H = some (out.E : K)) ∧
    (out.last.total = 0 → out.last.lost = 0 ∧ out.energies.Pairwise (fun x y => y ≤ x) ∧ out.E * normSq ds P ≤ hamEnergy ds H P) ∧
    out.energies.getLast? = some out.E ∧ out.energies.length ≤ o.sweeps ∧
    (out.energies.length < o.sweeps → ∃ es E, out.energies = es ++ [E, out.E] ∧ (|out.E - E| < o.tolerance ∨ out.E - E > 1 / 10 ^ 14 * |out.E|)) ∧
    (∀ j, j + 2 < out.energies.length → o.tolerance ≤ |out.energies.getD (j + 1) 0 - out.energies.getD j 0|) := by
  have h2 := hH.two
  unfold Dmrg.minimize at h
  rw [if_neg (by rw [hH.size, hH.opened]; simp; omega)] at h
  split_ifs at h with hl
  obtain ⟨s1, s2, s3, s4, s5⟩ := start_spec hg eps hd0 hH P0 hw
  set d0 := start svd eps dflt H P0 P with hd
  have sp := Dmrg.loop_core (iter := iteration svd eps dflt eigs solve o.svdTolerance H P0 0) (E0 := E0) (d0 := d0)
    (fun es d r hr hi => by
      obtain ⟨c1, -⟩ := single_run hg eps hd0 he solve o.svdTolerance hH P0 s1 hr
      obtain ⟨d', E, e1, -⟩ := single_iteration hg eps hd0 he solve o.svdTolerance hH P0 c1 hi
      exact ⟨d', E, e1⟩)
    o.sweeps 0 0 E0 d0 [] (by simp) rfl rfl Run.nil (fun j hj => by simp at hj) h
  obtain ⟨c1, c2, c3, c4⟩ := single_run hg eps hd0 he solve o.svdTolerance hH P0 s1 sp.ran
  have hne : out.energies ≠ [] := by
    intro hh
    obtain ⟨es, E, E', h1, -⟩ := sp.stop (by rw [hh]; exact hs)
    rw [hh] at h1
    simp at h1
  have hlast : out.energies.getLast hne = out.E := by
    rw [sp.energy, List.getLastD_eq_getLast?, List.getLast?_eq_some_getLast hne]; rfl
  obtain ⟨q1, q2, q3⟩ := c4 out.energies.dropLast out.E (by rw [← hlast]; exact (List.dropLast_append_getLast hne).symm)
  have hwP : WF 1 out.P ds 1 := by rw [sp.same]; exact c1.wf
  refine ⟨hwP, ?_, q3, fun h0 => ?_, fun h0 => ?_, by rw [List.getLast?_eq_some_getLast hne, hlast], sp.count, fun hlt => ?_, sp.go⟩
  · obtain ⟨χ, k, x1, x2, x3, x4, x5, x6⟩ := q1.best.near
    exact ⟨χ, k, x1, x2, x3, by rw [energy_ham hH x1, x4], by rw [sp.same]; exact x5, x6⟩
  · obtain ⟨n1, n2⟩ := q1.best.exact h0
    rw [← sp.same] at n1 n2
    exact ⟨n1, by rw [energy_ham hH hwP, n2]⟩
  · have t1 := q1.total
    have t2 := q1.best.pos
    have hd00 : d0.total = 0 := by linarith
    refine ⟨by linarith, c3 (by linarith), ?_⟩
    have := q1.le (by linarith)
    unfold hamEnergy at this ⊢
    rwa [normSq_congr (s5 hd00), hamExp_congr (s5 hd00)] at this
  · obtain ⟨es, E, E', h1, h2⟩ := sp.stop hlt
    have eE : E' = out.E := by rw [← hlast]; simp [h1]
    subst eE
    exact ⟨es, E, h1, h2⟩

theorem loc_nonempty {ds : List Nat} {H : Ham K} (hH : HamOk ds H) {k : Nat} (hk : k < ds.length) : (H.loc k).isEmpty = false := by
  have hp : 0 < ds.getD k 0 := by
    rw [List.getD_eq_getElem _ _ hk]; exact hH.pos _ (List.getElem_mem hk)
  simp only [Tensor.isEmpty, Tensor.size, hH.loc k hk]
  simp at hp ⊢
  omega

/-- **C97**: with a solver that always succeeds, single-site DMRG returns. -/
theorem C97_returns (svd : Tensor K → SvdRes K) (eps dflt : ℝ) {eigs : Eigs K} (hok : ∀ A n P, (eigs A n P).ok = true)
    (solve : Solve K) {ds : List Nat} {H : Ham K} (hH : HamOk ds H) (P0 : List (List (Tensor K))) (P : List (Tensor K)) (o : Dmrg.Opts) (E0 : ℝ) :
    ∃ out, Dmrg.minimize svd eps dflt eigs solve o H P0 P 0 E0 = some out := by
  have h2 := hH.two
  unfold Dmrg.minimize
  rw [if_neg (by rw [hH.size, hH.opened]; simp; omega), if_neg (by
    rw [List.any_eq_true]
    rintro ⟨k, hk, hh⟩
    rw [loc_nonempty hH (by rw [← hH.size]; simpa using hk)] at hh
    exact absurd hh (by simp))]
  apply Dmrg.loop_runs
  intro dk d
  unfold iteration
  rw [if_neg (by simp), hH.size]
  split_ifs
  · exact Dmrg.singleRight_runs svd eps dflt hok H P0 ds.length (by omega) d 0 fun j hj => loc_nonempty hH hj
  · exact Dmrg.singleLeft_runs svd eps dflt hok H P0 (N := ds.length) (by omega) d 0 fun j hj => loc_nonempty hH hj

/-- **C97**: chains of less than two sites, periodic Hamiltonians and Hamiltonians without one of the local terms are rejected, whatever the algorithm. -/
theorem C97_rejects (svd : Tensor K → SvdRes K) (eps dflt : ℝ) (eigs : Eigs K) (solve : Solve K) (H : Ham K) (P0 : List (List (Tensor K)))
    (P : List (Tensor K)) (Dmax : Nat) (o : Dmrg.Opts) (E0 : ℝ) (h : H.size < 2 ∨ H.periodic = true ∨ ∃ k < H.size, (H.loc k).isEmpty = true) :
    Dmrg.minimize svd eps dflt eigs solve o H P0 P Dmax E0 = none := by
  unfold Dmrg.minimize
  by_cases h1 : H.size < 2 ∨ H.periodic = true
  · rw [if_pos h1]
  · rw [if_neg h1, if_pos]
    obtain ⟨k, hk, hh⟩ : ∃ k < H.size, (H.loc k).isEmpty = true := by tauto
    exact List.any_eq_true.2 ⟨k, List.mem_range.2 hk, hh⟩

/-- a Hamiltonian of two sites: `-σz/2` on both, and `σx⊗σx` between them -/
noncomputable def twoIsing : Ham K :=
  let z : Tensor K := ⟨[2, 2], fun I => if I.getD 0 0 = I.getD 1 0 then (if I.getD 0 0 = 0 then -1 else 1) else 0⟩
  let x : Tensor K := ⟨[2, 2], fun I => if I.getD 0 0 = I.getD 1 0 then 0 else 1⟩
  ⟨2, fun _ => 2, fun _ => z, fun _ => Tensor.empty, fun _ => 1, fun _ _ => x, fun _ _ => x, false⟩

theorem twoIsing_ok : HamOk [2, 2] (twoIsing : Ham K) := by
  refine ⟨rfl, by simp, rfl, by simp, ?_, ?_, ?_, ?_, ?_⟩
  · intro k hk; rcases k with _ | _ | k
    · rfl
    · rfl
    · simp at hk
  · intro k n hk _; rcases k with _ | k
    · rfl
    · simp at hk
  · intro k n hk _; rcases k with _ | k
    · rfl
    · simp at hk
  · intro k _ i j _ _
    simp only [twoIsing, List.getD_cons_zero, List.getD_cons_succ]
    by_cases hij : i = j
    · subst hij; by_cases h0 : i = 0 <;> simp [h0]
    · simp [hij, Ne.symm hij]
  · intro k _ i j p q _ _ _ _
    simp only [twoIsing, List.getD_cons_zero, List.getD_cons_succ, Finset.sum_range_one]
    by_cases hij : i = j
    · subst hij; simp
    · by_cases hpq : p = q
      · subst hpq; simp
      · simp [hij, hpq, Ne.symm hij, Ne.symm hpq]

/-- the state with all qubits in `|0⟩` -/
def twoZero : List (Tensor K) :=
  [⟨[1, 2, 1], fun I => if I.getD 1 0 = 0 then 1 else 0⟩, ⟨[1, 2, 1], fun I => if I.getD 1 0 = 0 then 1 else 0⟩]

theorem twoZero_wf : WF 1 (twoZero : List (Tensor K)) [2, 2] 1 :=
  WF.cons rfl Nat.one_pos (by decide) Nat.one_pos (WF.cons rfl Nat.one_pos (by decide) Nat.one_pos (WF.nil 1))

/-- C97 is not vacuous: one sweep for a two-site Ising chain returns a normalised state and its energy -/
example : ∃ (svd : Tensor ℂ → SvdRes ℂ) (eigs : Eigs ℂ), GoodSvd svd ∧ GoodEigs eigs ∧ ∀ (solve : Solve ℂ) (eps dflt E0 : ℝ), 0 < dflt →
    ∃ out, Dmrg.minimize svd eps dflt eigs solve ⟨1, 1e-6, 1e-8, 0⟩ twoIsing [] twoZero 0 E0 = some out ∧
      normSq [2, 2] out.P = 1 ∧ energy out.P twoIsing = some (out.E : ℂ) := by
  obtain ⟨svd, hg⟩ := exists_goodSvd (K := ℂ)
  obtain ⟨eigs, he, hok⟩ := exists_goodEigs (K := ℂ)
  refine ⟨svd, eigs, hg, he, fun solve eps dflt E0 hd => ?_⟩
  obtain ⟨out, h⟩ := C97_returns svd eps dflt hok solve twoIsing_ok [] twoZero ⟨1, 1e-6, 1e-8, 0⟩ E0
  obtain ⟨-, -, c1, c2, -, c3, c4, -⟩ := C97_single_site hg eps hd he solve twoIsing_ok [] twoZero_wf ⟨1, 1e-6, 1e-8, 0⟩ (by simp) E0 h
  have : out.energies.length = 1 := by
    have h0 : out.energies ≠ [] := by rintro h0; rw [h0] at c3; simp at c3
    have := List.length_pos_iff.2 h0
    simp at c4; omega
  exact ⟨out, h, c2 (c1 (by rw [this]))⟩

end MPS.Props
