import Verif.DmrgQModel
import Verif.Props.DmrgProps2

/-!
# C124: DMRG with conserved quantities (`commutes_with`, `Q_values`)
-/

set_option linter.unusedSectionVars false
set_option linter.unusedSimpArgs false

namespace MPS.Props
open MPS Tensor Form Minim Dmrg
variable {K : Type} [RCLike K]

theorem storeQ_ok {Qr : List (List (Tensor K))} {N n k : Nat} (hQ : ∀ q ∈ Qr, q.length = N) (hn : n < Qr.length) (hk : k < N) (v : Tensor K) :
    ∃ Qr', storeQ Qr n k v = some Qr' ∧ Qr'.length = Qr.length ∧ ∀ q ∈ Qr', q.length = N := by
  have h1 : Qr[n]? = some Qr[n] := List.getElem?_eq_getElem hn
  have h2 : Qr[n].length = N := hQ _ (List.getElem_mem hn)
  have h3 : Qr[n][k]? = some (Qr[n][k]'(by omega)) := List.getElem?_eq_getElem (by omega)
  refine ⟨Qr.set n (Qr[n].set k v), by simp [storeQ, atQ, h1, h3], by simp, fun q hq => ?_⟩
  rcases List.mem_or_eq_of_mem_set hq with h | h
  · exact hQ q h
  · rw [h]; simpa using h2

theorem updateQ_ok (value : Nat → Nat → Tensor K) {nQ k N : Nat} (hk : k < N) (left : Nat) (hl : left ≤ nQ) {Qr : List (List (Tensor K))}
    (hn : Qr.length = nQ) (hQ : ∀ q ∈ Qr, q.length = N) : ∃ Qr', updateQ value nQ k left Qr = some Qr' ∧ Qr'.length = nQ ∧ ∀ q ∈ Qr', q.length = N := by
  induction left generalizing Qr with
  | zero => exact ⟨Qr, rfl, hn, hQ⟩
  | succ left ih =>
    obtain ⟨Q1, a1, a2, a3⟩ := storeQ_ok hQ (n := nQ - (left + 1)) (by omega) hk (value (nQ - (left + 1)) k)
    rw [updateQ, a1, Option.bind_some]
    exact ih (by omega) (by omega) a3

theorem initQ_ok (value : Nat → Nat → Tensor K) {nQ N : Nat} (i : Nat) (hi : i ≤ N) {Qr : List (List (Tensor K))}
    (hn : Qr.length = nQ) (hQ : ∀ q ∈ Qr, q.length = N) : ∃ Qr', initQ value nQ i Qr = some Qr' := by
  induction i generalizing Qr with
  | zero => exact ⟨Qr, rfl⟩
  | succ i ih =>
    obtain ⟨Q1, a1, a2, a3⟩ := updateQ_ok value (show i < N by omega) nQ le_rfl hn hQ
    rw [initQ, a1, Option.bind_some]
    exact ih (by omega) a2 a3

/-- **C124** is false for the single-site algorithm: with conserved quantities `minimize(&P)` always ends with the exception `out_of_range`, because
the vector in which it stores their values is left empty unless `Dmax > 0`. -/
theorem C124_single_site_violated (svd : Tensor K → SvdRes K) (eps dflt : ℝ) (eigs : Eigs K) (solve : Solve K) (o : Dmrg.Opts) (H : Ham K)
    (value : Nat → Nat → Tensor K) {nQ : Nat} (hn : 0 < nQ) (hN : 0 < H.size) (P0 : List (List (Tensor K))) (P : List (Tensor K)) (E : ℝ) :
    minimizeQ svd eps dflt eigs solve o H value nQ P0 P 0 E = none := by
  obtain ⟨N, hN⟩ : ∃ N, H.size = N + 1 := ⟨H.size - 1, by omega⟩
  obtain ⟨n, rfl⟩ : ∃ n, nQ = n + 1 := ⟨nQ - 1, by omega⟩
  simp [minimizeQ, hN, emptyQ, initQ, updateQ, storeQ, atQ]

/-- **C124** is false for the two-site algorithm too: whenever its solver succeeds (it gives back a vector or a matrix), it ends in the failure of C56. -/
theorem C124_two_site_violated (svd : Tensor K → SvdRes K) (eps dflt : ℝ) (eigs : Eigs K) {solve : Solve K} (hok : ∀ d k, (solve d k).2.2 = true)
    (hrank : ∀ d k, (solve d k).1.rank ≤ 2) {o : Dmrg.Opts} (hs : 0 < o.sweeps) (H : Ham K) (value : Nat → Nat → Tensor K) (nQ : Nat)
    (P0 : List (List (Tensor K))) (P : List (Tensor K)) {Dmax : Nat} (hD : 0 < Dmax) (E : ℝ) :
    minimizeQ svd eps dflt eigs solve o H value nQ P0 P Dmax E = none := by
  unfold minimizeQ
  cases initQ value nQ H.size (emptyQ H.size nQ (0 < Dmax)) with
  | none => rfl
  | some Q => exact C56_aborts_violated svd eps dflt eigs hok hrank hs H P0 P hD E

/-- **C124**, what does hold: without conserved quantities, and also with them when `Dmax > 0`, the vectors of their values do not stop the algorithm. -/
theorem C124_vectors_partial (svd : Tensor K → SvdRes K) (eps dflt : ℝ) (eigs : Eigs K) (solve : Solve K) (o : Dmrg.Opts) (H : Ham K)
    (value : Nat → Nat → Tensor K) {nQ : Nat} (P0 : List (List (Tensor K))) (P : List (Tensor K)) {Dmax : Nat} (h : nQ = 0 ∨ 0 < Dmax) (E : ℝ) :
    minimizeQ svd eps dflt eigs solve o H value nQ P0 P Dmax E = Dmrg.minimize svd eps dflt eigs solve o H P0 P Dmax E := by
  have hq : ((emptyQ H.size nQ (0 < Dmax) : List (List (Tensor K))).length = nQ ∧
      ∀ q ∈ (emptyQ H.size nQ (0 < Dmax) : List (List (Tensor K))), q.length = H.size) := by
    unfold emptyQ
    rcases h with rfl | h
    · split_ifs <;> simp
    · simp only [h, decide_true, if_true]
      refine ⟨by simp, fun q hq => ?_⟩
      rw [(List.mem_replicate.1 hq).2]; simp
  obtain ⟨Q, hQ⟩ := initQ_ok value H.size le_rfl hq.1 hq.2
  unfold minimizeQ
  rw [hQ, Option.bind_some]

/-- the two-site Ising chain with one conserved quantity: the exception -/
example (svd : Tensor ℂ → SvdRes ℂ) (eps dflt : ℝ) (eigs : Eigs ℂ) (solve : Solve ℂ) (value : Nat → Nat → Tensor ℂ) :
    minimizeQ svd eps dflt eigs solve ⟨32, 1e-6, 1e-8, 0⟩ twoIsing value 1 [] twoZero 0 0 = none :=
  C124_single_site_violated svd eps dflt eigs solve _ twoIsing value Nat.one_pos (by simp [twoIsing]) [] twoZero 0

end MPS.Props
