import Verif.MPSLemmas3
import Verif.MPSNorm
import Mathlib.Analysis.Complex.Basic

/-!
# Properties C01–C08: vectors, scalar products and expected values of matrix product states

Every theorem is about the model function of the API call (left) and the specification of
`Verif/Spec.lean` (right): amplitudes `amp`, wave functions, `inner`, `actSite`.
-/

namespace MPS.Props
open MPS Tensor
variable {R : Type} [CommRing R]

/-! ### concrete states used to show that hypotheses can be met -/

/-- a 3-site open chain with local dimensions 2,3,2 and bonds 1,2,2,1 over ℤ -/
def exT (a d b : Nat) (seed : Int) : Tensor ℤ :=
  ⟨[a, d, b], fun i => seed + (i.getD 0 0 : Int) * 2 - (i.getD 1 0 : Int) * 3 + (i.getD 2 0 : Int)⟩
def exOpen : List (Tensor ℤ) := [exT 1 2 2 1, exT 2 3 2 (-1), exT 2 2 1 2]
/-- a 2-site periodic chain with local dimensions 2,2 and bonds 2,3,2 -/
def exPer : List (Tensor ℤ) := [exT 2 2 3 1, exT 3 2 2 (-2)]

theorem exOpen_isMPS : IsMPS [2, 3, 2] exOpen :=
  ⟨by simp [exOpen], 1, .cons rfl (by simp) (by simp) (by simp) (.cons rfl (by simp) (by simp) (by simp)
    (.cons rfl (by simp) (by simp) (by simp) (.nil 1)))⟩
theorem exPer_isMPS : IsMPS [2, 2] exPer :=
  ⟨by simp [exPer], 2, .cons rfl (by simp) (by simp) (by simp) (.cons rfl (by simp) (by simp) (by simp)
    (.nil 2))⟩

/-! ### C01 -/

/-- C01: `mps_to_vector` succeeds on every matrix product state (open or periodic); its result is a vector of
length `∏ d_k` whose entry at column-major position `flat ds s = s_0 + d_0 (s_1 + d_1 (s_2 + ⋯))` is the amplitude
`tr(A_0[s_0] ⋯ A_{L-1}[s_{L-1}])`; and every position is the position of some configuration. -/
theorem C01_mps_to_vector {ds : List Nat} {ψ : List (Tensor R)} (h : IsMPS ds ψ) :
    ∃ v, mpsToVector ψ = some v ∧ v.dims = [ds.prod] ∧
      (∀ s, IsCfg ds s → v.get [flat ds s] = amp ψ s) ∧
      (∀ n, n < ds.prod → ∃ s, IsCfg ds s ∧ flat ds s = n) := by
  obtain ⟨v, h1, h2, h3⟩ := mpsToVector_spec h
  exact ⟨v, h1, h2, h3, fun n hn => flat_surj hn⟩

/-- the empty state is rejected (`assert(mps.size() > 0)`) -/
theorem C01_empty_rejected : mpsToVector ([] : List (Tensor R)) = none := rfl

example : IsMPS [2, 3, 2] exOpen := exOpen_isMPS
/-- test (not a proof of the general claim): a non-trivial entry -/
example : (mpsToVector exOpen).map (fun v => (v.dims, v.get [flat [2, 3, 2] [1, 2, 0]])) =
    some ([12], amp exOpen [1, 2, 0]) ∧ amp exOpen [1, 2, 0] = 102 := by
  decide +kernel

section Star
variable [StarRing R]

/-! ### C02 -/

/-- C02: `scprod(bra, ket, sense)` is `∑_s conj(bra(s)) ket(s)` for both senses, any bonds, any boundary conditions. -/
theorem C02_scprod {ds : List Nat} {a b : List (Tensor R)} (ha : IsMPS ds a) (hb : IsMPS ds b)
    (sense : Int) : scprod a b sense = some (sumCfg ds fun s => star (amp a s) * amp b s) :=
  scprod_spec ha hb sense

/-- the sweep direction is immaterial -/
theorem C02_sense_irrelevant {ds : List Nat} {a b : List (Tensor R)} (ha : IsMPS ds a)
    (hb : IsMPS ds b) (s1 s2 : Int) : scprod a b s1 = scprod a b s2 := by
  rw [scprod_spec ha hb, scprod_spec ha hb]

/-- states of different lengths are rejected -/
theorem C02_size_mismatch {a b : List (Tensor R)} (h : a.length ≠ b.length) (sense : Int) :
    scprod a b sense = none := by simp [scprod, h]

/-- conjugate symmetry (C03, second part), any scalars -/
theorem C03_conj_symmetric {ds : List Nat} {a b : List (Tensor R)} (ha : IsMPS ds a)
    (hb : IsMPS ds b) (sense : Int) : scprod b a sense = (scprod a b sense).map star := by
  rw [scprod_spec ha hb, scprod_spec hb ha]
  simp only [Option.map_some, MPS.inner, sumCfg_star, star_mul', star_star]
  simp only [mul_comm]

example : scprod exPer exPer 1 = some 1798 ∧ scprod exPer exPer (-1) = some 1798 := by
  decide +kernel

/-! ### C04 -/

/-- C04: `expected(psi, op, k)` is `⟨psi| op_k |psi⟩` for every valid index, negative ones counting from the end. -/
theorem C04_expected {ds : List Nat} {ψ : List (Tensor R)} (h : IsMPS ds ψ) (op : Tensor R) (k : Int)
    (hk : -(ds.length : Int) ≤ k ∧ k < ds.length) (n : Nat)
    (hn : (n : Int) = if k < 0 then k + ds.length else k)
    (hop : op.dims = [ds.getD n 0, ds.getD n 0]) :
    expected1 ψ op k = some (MPS.inner ds (amp ψ) (actSite (ds.getD n 0) op n (amp ψ))) := by
  refine expected1_spec h ?_ ?_ hop
  · unfold normalIndex
    split <;> rename_i h1
    · rw [if_pos h1] at hn
      rw [if_pos hk.1]; congr 1; omega
    · rw [if_neg h1] at hn
      rw [if_pos hk.2]; congr 1; omega
  · split at hn <;> omega

/-- C04: an index outside `[-L, L)` is rejected. -/
theorem C04_out_of_range {ds : List Nat} {ψ : List (Tensor R)} (h : IsMPS ds ψ) (op : Tensor R) (k : Int)
    (hk : ¬ (-(ds.length : Int) ≤ k ∧ k < ds.length)) : expected1 ψ op k = none := by
  have hlen : ψ.length = ds.length := by obtain ⟨_, D, hW⟩ := h; exact hW.length
  have : normalIndex ψ.length k = none := by
    rw [hlen]; unfold normalIndex
    split <;> rename_i h1
    · rw [if_neg (by omega)]
    · rw [if_neg (by omega)]
  simp [expected1, this]

/-- a 2×2 and a 3×3 operator that are not symmetric -/
def exOp2 : Tensor ℤ := ⟨[2, 2], fun i => 1 + 2 * (i.getD 0 0 : Int) - (i.getD 1 0 : Int)⟩
def exOp3 : Tensor ℤ := ⟨[3, 3], fun i => 1 + 2 * (i.getD 0 0 : Int) - (i.getD 1 0 : Int)⟩

example : IsMPS [2, 3, 2] exOpen ∧ exOp3.dims = [[2, 3, 2].getD 1 0, [2, 3, 2].getD 1 0] ∧
    expected1 exOpen exOp3 (-2) = expected1 exOpen exOp3 1 ∧
    expected1 exOpen exOp3 1 ≠ expected1 exOpen exOp2 0 :=
  ⟨exOpen_isMPS, rfl, by decide +kernel, by decide +kernel⟩

/-! ### C05 -/

/-- C05 at full strength, for all pairs of (possibly negative) indices.  It is FALSE of the code, see
`C05_alias_violated`; `C05_expected2_partial` is what holds. -/
def C05Statement (R : Type) [CommRing R] [StarRing R] : Prop :=
  ∀ (ds : List Nat) (ψ : List (Tensor R)) (op1 op2 : Tensor R) (k1 k2 : Int) (n1 n2 : Nat),
    IsMPS ds ψ → normalIndex ds.length k1 = some n1 → normalIndex ds.length k2 = some n2 →
    op1.dims = [ds.getD n1 0, ds.getD n1 0] → op2.dims = [ds.getD n2 0, ds.getD n2 0] →
    expected2 ψ op1 k1 op2 k2 = some (corr ds (amp ψ) op1 n1 op2 n2)

/-- C05, all pairs except two different spellings (`k` and `k - L`) of the same site. -/
theorem C05_expected2_partial {ds : List Nat} {ψ : List (Tensor R)} (h : IsMPS ds ψ)
    (op1 op2 : Tensor R) (k1 k2 : Int) (n1 n2 : Nat)
    (h1 : normalIndex ds.length k1 = some n1) (h2 : normalIndex ds.length k2 = some n2)
    (ho1 : op1.dims = [ds.getD n1 0, ds.getD n1 0]) (ho2 : op2.dims = [ds.getD n2 0, ds.getD n2 0])
    (halias : ¬ (k1 ≠ k2 ∧ n1 = n2)) :
    expected2 ψ op1 k1 op2 k2 = some (corr ds (amp ψ) op1 n1 op2 n2) :=
  expected2_spec h h1 h2 (by tauto) ho1 ho2

/-- when both are given as non-negative indices there is no exception -/
theorem C05_expected2_nonneg {ds : List Nat} {ψ : List (Tensor R)} (h : IsMPS ds ψ)
    (op1 op2 : Tensor R) (n1 n2 : Nat) (h1 : n1 < ds.length) (h2 : n2 < ds.length)
    (ho1 : op1.dims = [ds.getD n1 0, ds.getD n1 0]) (ho2 : op2.dims = [ds.getD n2 0, ds.getD n2 0]) :
    expected2 ψ op1 n1 op2 n2 = some (corr ds (amp ψ) op1 n1 op2 n2) := by
  refine C05_expected2_partial h op1 op2 n1 n2 n1 n2 ?_ ?_ ho1 ho2 (by omega)
  · unfold normalIndex; rw [if_neg (by omega), if_pos (by omega)]; simp
  · unfold normalIndex; rw [if_neg (by omega), if_pos (by omega)]; simp

/-- the one-site state |1⟩ -/
def exOne : List (Tensor ℤ) := [⟨[1, 2, 1], fun i => if i.getD 1 0 = 1 then 1 else 0⟩]

/-- C05 fails: on the one-site state |1⟩, `expected(psi, n, 0, P0, -1)` with `n = |1⟩⟨1|` and `P0 = |0⟩⟨0|` should be
`⟨1|n P0|1⟩ = 0`, the code returns `⟨1|n|1⟩ = 1` because it compares `k1 == k2` before normalising the indices. -/
theorem C05_alias_violated : ¬ C05Statement ℤ := by
  intro h
  have := h [2] exOne ⟨[2, 2], fun i => if i = [1, 1] then 1 else 0⟩
    ⟨[2, 2], fun i => if i = [0, 0] then 1 else 0⟩ 0 (-1) 0 0
    ⟨by simp [exOne], 1, .cons rfl (by simp) (by simp) (by simp) (.nil 1)⟩ rfl rfl rfl rfl
  revert this
  decide +kernel

example : expected2 exOpen exOp2 0 exOp3 (-2) = some (corr [2, 3, 2] (amp exOpen) exOp2 0 exOp3 1) :=
  C05_expected2_partial exOpen_isMPS _ _ 0 (-2) 0 1 rfl rfl rfl rfl (by simp)

/-! ### C06 -/

/-- C06: `expected_vector(psi, ops)[k] = ⟨psi| ops[k]_k |psi⟩` for all `k`. -/
theorem C06_expected_vector {ds : List Nat} {ψ ops : List (Tensor R)} (h : IsMPS ds ψ)
    (ho : OpsFor ds ops) :
    expectedVector ψ ops = some ((List.range ds.length).map fun k =>
      MPS.inner ds (amp ψ) (actSite (ds.getD k 0) (ops.getD k Tensor.empty) k (amp ψ))) := by
  have hlen : ψ.length = ds.length := by obtain ⟨_, D, hW⟩ := h; exact hW.length
  have hol : ops.length = ψ.length := by rw [hlen]; exact (List.Forall₂.length_eq ho).symm
  simp only [expectedVector, allExpectedVector, hol, and_self, if_true]
  congr 1
  have := expVecLoop_spec ψ ops (auxLefts Tensor.empty ((ψ.zip ψ).dropLast))
    (fun k => MPS.inner ds (amp ψ) (actSite (ds.getD k 0) (site ops k) k (amp ψ))) ψ.length []
    (le_refl _) (fun i hi => by
      rw [auxLefts_trips ψ hi]
      exact close_trips1 h (by omega) (ho.get (by omega)))
  have hd : (trips ψ (fun _ => none)).drop ψ.length = [] := by
    apply List.drop_eq_nil_of_le; rw [trips_length]
  rw [hd, List.append_nil, hlen] at this
  rw [hlen]
  exact this

/-- C06: the entries agree with the single-site function. -/
theorem C06_agrees_with_expected {ds : List Nat} {ψ ops : List (Tensor R)} (h : IsMPS ds ψ)
    (ho : OpsFor ds ops) (k : Nat) (hk : k < ds.length) :
    ((expectedVector ψ ops).bind fun v => v[k]?) = expected1 ψ (ops.getD k Tensor.empty) k := by
  rw [C06_expected_vector h ho,
    C04_expected h (ops.getD k Tensor.empty) k (by omega) k (by omega) (ho.get hk)]
  simp [hk]

/-- C06: one operator for all sites (all of the same dimension `d`). -/
theorem C06_expected_vector1 {L d : Nat} {ψ : List (Tensor R)} (h : IsMPS (List.replicate L d) ψ)
    (op : Tensor R) (ho : op.dims = [d, d]) :
    expectedVector1 ψ op = some ((List.range L).map fun k =>
      MPS.inner (List.replicate L d) (amp ψ) (actSite d op k (amp ψ))) := by
  have hlen : ψ.length = L := by obtain ⟨_, D, hW⟩ := h; simpa using hW.length
  have hops : OpsFor (List.replicate L d) (List.replicate L op) := by
    unfold OpsFor; rw [List.forall₂_iff_get]
    exact ⟨by simp, fun i h1 h2 => by simpa using ho⟩
  have := C06_expected_vector h hops
  simp only [expectedVector1, hlen]
  simp only [expectedVector] at this
  rw [this]
  simp only [List.length_replicate]
  congr 1
  refine List.map_congr_left fun k hk => ?_
  have : k < L := by simpa using hk
  simp [List.getD_eq_getElem?_getD, this]

/-- C06: `expected(psi, op)` without a site is the sum over all sites. -/
theorem C06_expected_sum {L d : Nat} {ψ : List (Tensor R)} (h : IsMPS (List.replicate L d) ψ)
    (op : Tensor R) (ho : op.dims = [d, d]) :
    expectedSum ψ op = some (∑ k ∈ Finset.range L,
      MPS.inner (List.replicate L d) (amp ψ) (actSite d op k (amp ψ))) := by
  have hlen : ψ.length = L := by obtain ⟨_, D, hW⟩ := h; simpa using hW.length
  have he : ∀ k, k < L → expected1 ψ op (k : Int)
      = some (MPS.inner (List.replicate L d) (amp ψ) (actSite d op k (amp ψ))) := by
    intro k hk
    have hd : (List.replicate L d).getD k 0 = d := by
      simp [List.getD_eq_getElem?_getD, hk]
    have := C04_expected h op k (by simp; omega) k (by omega) (by rw [hd]; exact ho)
    rw [this, hd]
  have key : ∀ n, n ≤ L → (List.range n).foldlM
      (fun out (i : Nat) => (expected1 ψ op (i : Int)).map (fun v => out + v)) (0 : R)
      = some (∑ k ∈ Finset.range n, MPS.inner (List.replicate L d) (amp ψ) (actSite d op k (amp ψ))) := by
    intro n
    induction n with
    | zero => intro _; simp
    | succ n ih =>
      intro hn
      rw [List.range_succ, List.foldlM_append, ih (by omega)]
      simp [he n (by omega), Finset.sum_range_succ]
  rw [expectedSum, hlen, key L (le_refl _)]

/-- C06: mismatching list lengths abort. -/
theorem C06_length_mismatch {ψ ops : List (Tensor R)} (h : ops.length ≠ ψ.length) :
    expectedVector ψ ops = none := by simp [expectedVector, allExpectedVector, h]

example : OpsFor [2, 3, 2] [exOp2, exOp3, exOp2] := by simp [OpsFor, exOp2, exOp3]
example : (expectedVector exOpen [exOp2, exOp3, exOp2]) =
    some [(expected1 exOpen exOp2 0).get (by decide +kernel),
      (expected1 exOpen exOp3 1).get (by decide +kernel),
      (expected1 exOpen exOp2 2).get (by decide +kernel)] := by decide +kernel

/-! ### C07 -/

/-- C07: `expected(psi, ops1, ops2)(i,j) = ⟨psi| ops1[i]_i ops2[j]_j |psi⟩` for all `i`, `j`. -/
theorem C07_expected_matrix {ds : List Nat} {ψ op1 op2 : List (Tensor R)} (h : IsMPS ds ψ)
    (h1 : OpsFor ds op1) (h2 : OpsFor ds op2) :
    ∃ M, expectedMatrix ψ op1 op2 = some M ∧ ∀ i j, i < ds.length → j < ds.length →
      M i j = corr ds (amp ψ) (op1.getD i Tensor.empty) i (op2.getD j Tensor.empty) j := by
  have hlen : ψ.length = ds.length := by obtain ⟨_, D, hW⟩ := h; exact hW.length
  have hl1 : op1.length = ψ.length := by rw [hlen]; exact (List.Forall₂.length_eq h1).symm
  have hl2 : op2.length = ψ.length := by rw [hlen]; exact (List.Forall₂.length_eq h2).symm
  simp only [expectedMatrix, allCorrelations, hl1, hl2, and_self, if_true, Bool.false_eq_true,
    if_false]
  refine ⟨_, rfl, fun i j hi hj => ?_⟩
  rw [hlen, foldl_outer2 h h1 h2 _ (le_refl _) _ _ _ hi]
  by_cases hji : j < i
  · rw [if_pos ⟨hj, hji⟩]; rfl
  · rw [if_neg (by tauto), foldl_outer1 h h1 h2 _ (le_refl _) i j hi hj (by omega)]; rfl

/-- C07: the single-operator version, which the code obtains by repeating the operators. -/
theorem C07_expected_matrix1 {L d : Nat} {ψ : List (Tensor R)} (h : IsMPS (List.replicate L d) ψ)
    (op1 op2 : Tensor R) (ho1 : op1.dims = [d, d]) (ho2 : op2.dims = [d, d]) :
    ∃ M, expectedMatrix1 ψ op1 op2 = some M ∧ ∀ i j, i < L → j < L →
      M i j = corr (List.replicate L d) (amp ψ) op1 i op2 j := by
  have hlen : ψ.length = L := by obtain ⟨_, D, hW⟩ := h; simpa using hW.length
  have hops : ∀ op : Tensor R, op.dims = [d, d] →
      OpsFor (List.replicate L d) (List.replicate L op) := by
    intro op ho
    unfold OpsFor; rw [List.forall₂_iff_get]
    exact ⟨by simp, fun i h1 h2 => by simpa using ho⟩
  obtain ⟨M, hM, hv⟩ := C07_expected_matrix h (hops op1 ho1) (hops op2 ho2)
  refine ⟨M, by rw [expectedMatrix1, hlen]; exact hM, fun i j hi hj => ?_⟩
  rw [hv i j (by simpa using hi) (by simpa using hj)]
  simp [List.getD_eq_getElem?_getD, hi, hj]

/-- C07: mismatching list lengths abort. -/
theorem C07_length_mismatch {ψ op1 op2 : List (Tensor R)}
    (h : op1.length ≠ ψ.length ∨ op2.length ≠ ψ.length) : expectedMatrix ψ op1 op2 = none := by
  simp only [expectedMatrix, allCorrelations]
  rw [if_neg (by tauto)]

example : ((expectedMatrix exOpen [exOp2, exOp3, exOp2] [exOp2, exOp3, exOp2]).map fun M => M 2 0) =
    expected2 exOpen exOp2 2 exOp2 0 := by decide +kernel

end Star

/-! ### C08 -/

/-- C08: `apply_local_operator(psi, op, k)` is the wave function `∑_t op(s_k,t) psi(s with s_k := t)`, still a matrix
product state on the same local dimensions, and every other tensor is untouched. -/
theorem C08_apply_local_operator {ds : List Nat} {ψ : List (Tensor R)} (h : IsMPS ds ψ)
    (op : Tensor R) (k : Nat) (hk : k < ds.length) (ho : op.dims = [ds.getD k 0, ds.getD k 0]) :
    ∃ φ, applyLocalOperator ψ op k = some φ ∧ IsMPS ds φ ∧
      (∀ s, IsCfg ds s → amp φ s = ∑ t ∈ Finset.range (ds.getD k 0),
          op.get [s.getD k 0, t] * amp ψ (s.set k t)) ∧
      (∀ j, j ≠ k → φ[j]? = ψ[j]?) := by
  have hlen : ψ.length = ds.length := by obtain ⟨_, D, hW⟩ := h; exact hW.length
  refine ⟨_, by simp [applyLocalOperator, hlen, hk], h.set_act ho, fun s hs => ?_, fun j hj => ?_⟩
  · exact amp_set_act h hk ho hs.length
  · rw [List.getElem?_set_ne (Ne.symm hj)]

/-- C08: a site outside the chain is rejected; in particular negative sites are (unlike in `expected`). -/
theorem C08_out_of_range {ψ : List (Tensor R)} (op : Tensor R) (k : Int)
    (hk : k < 0 ∨ ψ.length ≤ k) : applyLocalOperator ψ op k = none := by
  unfold applyLocalOperator; rw [if_neg (by omega)]

example : ∃ φ, applyLocalOperator exOpen exOp3 1 = some φ ∧
    amp φ [1, 2, 1] ≠ amp exOpen [1, 2, 1] := ⟨_, rfl, by decide +kernel⟩

/-! ### C03 -/

section RCLike
variable {𝕜 : Type} [RCLike 𝕜]

/-- C03: `norm2(psi) = sqrt(∑_s |psi(s)|²)`. -/
theorem C03_norm2 {ds : List Nat} {ψ : List (Tensor 𝕜)} (h : IsMPS ds ψ) :
    norm2 ψ = Real.sqrt (sumCfg ds fun s => ‖amp ψ s‖ ^ 2) := norm2_spec h

/-- C03: `scprod(psi,psi)` is real and non-negative, namely `norm2(psi)²`. -/
theorem C03_scprod_self {ds : List Nat} {ψ : List (Tensor 𝕜)} (h : IsMPS ds ψ) (sense : Int) :
    scprod ψ ψ sense = some ((norm2 ψ ^ 2 : ℝ) : 𝕜) ∧ 0 ≤ norm2 ψ := by
  refine ⟨?_, Real.sqrt_nonneg _⟩
  rw [scprod_spec h h, norm2_spec h, Real.sq_sqrt (sumCfg_nonneg _ _ fun s _ => by positivity),
    inner_self_ofReal]

example : ∃ ψ : List (Tensor ℂ), IsMPS [2] ψ ∧ amp ψ [1] = Complex.I :=
  ⟨[⟨[1, 2, 1], fun i => if i.getD 1 0 = 1 then Complex.I else 0⟩],
   ⟨by simp, 1, .cons rfl (by simp) (by simp) (by simp) (.nil 1)⟩, by
    simp [amp, path, dim]⟩

end RCLike
end MPS.Props
