import Verif.Props.TrotterProps3
import Verif.ExpmExists
import Verif.SvdExists

/-!
# C69: real-time evolution with a Hermitian Hamiltonian preserves the norm
-/

set_option linter.unusedSectionVars false
set_option linter.unusedSimpArgs false

namespace MPS.Props
open MPS Tensor Trotter

/-- all terms of the Hamiltonian are Hermitian -/
structure HamHermitian (H : Ham ℂ) (ds : List Nat) : Prop where
  loc : ∀ p, p < ds.length → IsHermitian (ds.getD p 0) (H.loc p)
  inter : ∀ p, p + 1 < ds.length → IsHermitian (ds.getD p 0 * ds.getD (p + 1) 0) (H.inter p)

theorem herm_add {n : Nat} {A B : Tensor ℂ} (hA : IsHermitian n A) (hB : IsHermitian n B) : IsHermitian n (Tensor.add A B) := by
  intro x y hx hy
  simp only [Tensor.add, star_add, hA x y hx hy, hB x y hx hy]

theorem herm_half {n : Nat} {A : Tensor ℂ} (hA : IsHermitian n A) : IsHermitian n (smul (1 / 2) A) := by
  intro x y hx hy
  simp only [smul, star_mul', hA x y hx hy]
  congr 1
  simp

theorem eye_hermitian (n : Nat) : IsHermitian n (eye n : Tensor ℂ) := by
  intro x y _ _
  simp only [eye, List.getD_cons_zero, List.getD_cons_succ]
  by_cases h : x = y <;> simp [h, eq_comm]

theorem herm_kron2 {n m : Nat} {A B : Tensor ℂ} (hn : A.dims = [n, n]) (hA : IsHermitian n A) (hB : IsHermitian m B) :
    IsHermitian (n * m) (Tensor.kron2 A B) := by
  intro x y hx hy
  have d0 : A.dim 0 = n := by simp [dim, hn]
  have d1 : A.dim 1 = n := by simp [dim, hn]
  have hn0 : 0 < n := by rcases Nat.eq_zero_or_pos n with h | h; · subst h; simp at hx
                         · exact h
  have hx2 : x / n < m := Nat.div_lt_of_lt_mul hx
  have hy2 : y / n < m := Nat.div_lt_of_lt_mul hy
  simp only [Tensor.kron2, kron, List.getD_cons_zero, List.getD_cons_succ, d0, d1, star_mul', hB _ _ hx2 hy2,
    hA _ _ (Nat.mod_lt x hn0) (Nat.mod_lt y hn0)]

theorem layerGen_hermitian {H : Ham ℂ} {ds : List Nat} (hH : HamFits H ds) (hh : HamHermitian H ds) (k : Nat) :
    (∀ p, PairAt ds.length k p → IsHermitian (ds.getD p 0 * ds.getD (p + 1) 0) (layerGen H k p)) ∧
    (∀ p, Single ds.length k p → IsHermitian (ds.getD p 0) (layerGen H k p)) := by
  constructor
  · intro p hp
    have h2 := hp.2
    unfold layerGen
    rw [hH.size, if_pos hp, hH.dim p (by omega), hH.dim (p + 1) h2]
    exact herm_add (herm_add (hh.inter p h2) (herm_kron2 (by exact hH.loc p (by omega)) (herm_half (hh.loc p (by omega))) (eye_hermitian _)))
      (herm_kron2 rfl (eye_hermitian _) (herm_half (hh.loc (p + 1) h2)))
  · intro p hp
    unfold layerGen
    rw [hH.size, if_neg hp.2.1]
    exact herm_half (hh.loc p hp.1)

theorem layerGen_dims {H : Ham ℂ} {ds : List Nat} (hH : HamFits H ds) (k : Nat) :
    (∀ p, PairAt ds.length k p → (layerGen H k p).dims = [ds.getD p 0 * ds.getD (p + 1) 0, ds.getD p 0 * ds.getD (p + 1) 0]) ∧
    (∀ p, Single ds.length k p → (layerGen H k p).dims = [ds.getD p 0, ds.getD p 0]) := by
  constructor
  · intro p hp
    unfold layerGen
    rw [hH.size, if_pos hp]
    exact hH.inter p hp.2
  · intro p hp
    unfold layerGen
    rw [hH.size, if_neg hp.2.1]
    exact hH.loc p hp.1

theorem anti_of_herm {n : Nat} {A : Tensor ℂ} (hA : IsHermitian n A) {z : ℂ} (hz : z.re = 0) : IsAntiHermitian n (smul z A) := by
  intro x y hx hy
  simp only [smul, star_mul', hA x y hx hy]
  have : star z = -z := by apply Complex.ext <;> simp [hz]
  rw [this, neg_mul]

/-- one layer with a real duration preserves all norms -/
theorem layerStep_norm {expm : Tensor ℂ → Tensor ℂ} (he : GoodExpm expm) {H : Ham ℂ} {ds : List Nat} (hH : HamFits H ds)
    (hh : HamHermitian H ds) (dt : ℂ) (l : Nat × ℂ) (hl : (dt * l.2).im = 0) (φ : List Nat → ℂ) :
    MPS.inner ds (layerStep expm H ds dt φ l) (layerStep expm H ds dt φ l) = MPS.inner ds φ φ := by
  unfold layerStep
  apply inner_layer
  · intro p hp
    exact he.unitary _ _ (by exact (layerGen_dims hH l.1).1 p hp) (anti_of_herm ((layerGen_hermitian hH hh l.1).1 p hp) (by simp [hl]))
  · intro p hp
    exact he.unitary _ _ (by exact (layerGen_dims hH l.1).2 p hp) (anti_of_herm ((layerGen_hermitian hH hh l.1).2 p hp) (by simp [hl]))

theorem layerSteps_norm {expm : Tensor ℂ → Tensor ℂ} (he : GoodExpm expm) {H : Ham ℂ} {ds : List Nat} (hH : HamFits H ds)
    (hh : HamHermitian H ds) (dt : ℂ) (ls : List (Nat × ℂ)) (hl : ∀ l ∈ ls, (dt * l.2).im = 0) (φ : List Nat → ℂ) :
    MPS.inner ds (layerSteps expm H ds dt ls φ) (layerSteps expm H ds dt ls φ) = MPS.inner ds φ φ := by
  induction ls generalizing φ with
  | nil => rfl
  | cons l ls ih =>
    have := ih (fun l hl' => hl l (by simp [hl'])) (layerStep expm H ds dt φ l)
    simp only [layerSteps, List.foldl_cons] at this ⊢
    rw [this]
    exact layerStep_norm he hH hh dt l (hl l (by simp)) φ

/-- **C69**: with a Hermitian Hamiltonian and a real time step, one step of any of the Trotter solvers, with truncation of
each unitary or without truncation, preserves the norm if no singular value has been dropped. -/
theorem C69_norm {svd : Tensor ℂ → SvdRes ℂ} (hg : GoodSvd svd) {eps : ℝ} (heps : 0 < eps) {dflt : ℝ} (hd0 : 0 < dflt)
    (simplifyObc : List (Tensor ℂ) → Int → Nat → Bool → Nat → List (Tensor ℂ) × ℝ)
    {expm : Tensor ℂ → Tensor ℂ} (he : GoodExpm expm) {H : Ham ℂ} {ds : List Nat} (hH : HamFits H ds) (hh : HamHermitian H ds) (dt : ℝ)
    (S : Solver) (hS : S = trotter2 eps ∨ S = trotter3 eps ∨ S = forestRuth)
    (strategy : Strategy) (hst : strategy = .eachUnitary ∨ strategy = .doNotTruncate) :
    ∃ U, S.unitaries expm H dt = some U ∧
    ∀ (P : List (Tensor ℂ)), IsMPS ds P → ∀ (sense : Int) (Dmax : Nat), (strategy ≠ .doNotTruncate → Dmax ≠ 0) →
    ∃ y sense', oneStep svd eps dflt simplifyObc S U strategy false sense P Dmax = some (y, sense') ∧
      (y.err = 0 → y.hidden = 0 → norm2 y.P = norm2 P) := by
  have key : ∀ ls, StepIs svd eps dflt S strategy ls → (∀ l ∈ ls, l.2.im = 0) → ∃ U, S.unitaries expm H dt = some U ∧
      ∀ (P : List (Tensor ℂ)), IsMPS ds P → ∀ (sense : Int) (Dmax : Nat), (strategy ≠ .doNotTruncate → Dmax ≠ 0) →
      ∃ y sense', oneStep svd eps dflt simplifyObc S U strategy false sense P Dmax = some (y, sense') ∧
      (y.err = 0 → y.hidden = 0 → norm2 y.P = norm2 P) := by
    intro ls h hr
    obtain ⟨U, h1, h2⟩ := h simplifyObc expm he.dims H ds hH dt
    refine ⟨U, h1, fun P hP sense Dmax hD => ?_⟩
    obtain ⟨y, s', g1, g2, -, -, g5⟩ := h2 P hP sense Dmax hD
    refine ⟨y, s', g1, fun e1 e2 => ?_⟩
    unfold norm2
    rw [normClosed_spec g2, normClosed_spec hP,
      ← layerSteps_norm he hH hh dt ls (fun l hl => by simp [hr l hl]) (amp P)]
    congr 3
    unfold MPS.inner
    exact sumCfg_congr fun s hs => by rw [g5 e1 e2 s hs]
  have i2 : ∀ l ∈ steps2, l.2.im = 0 := by simp [steps2]
  have i3 : ∀ l ∈ steps3, l.2.im = 0 := by
    have : (2⁻¹ : ℂ).im = 0 := by norm_num
    simp [steps3, this]
  have iF : ∀ l ∈ stepsFR, l.2.im = 0 := by
    have hs : stepsFR = [(0, ((0.67560359597983 : ℝ) : ℂ)), (1, ((1.35120719195966 : ℝ) : ℂ)), (0, ((-0.17560359597983 : ℝ) : ℂ)),
      (1, ((-1.70241438391932 : ℝ) : ℂ)), (0, ((-0.17560359597983 : ℝ) : ℂ)), (1, ((1.35120719195966 : ℝ) : ℂ)), (0, ((0.67560359597983 : ℝ) : ℂ))] := by
      simp only [stepsFR]; norm_num
    rw [hs]
    intro l hl
    simp only [List.mem_cons, List.not_mem_nil, or_false] at hl
    rcases hl with rfl | rfl | rfl | rfl | rfl | rfl | rfl <;> exact Complex.ofReal_im _
  rcases hS with rfl | rfl | rfl <;> rcases hst with rfl | rfl
  · exact key _ (C59_trotter2 hg heps hd0).1 i2
  · exact key _ (C59_trotter2 hg heps hd0).2 i2
  · exact key _ (C59_trotter3 hg heps hd0).1 i3
  · exact key _ (C59_trotter3 hg heps hd0).2 i3
  · exact key _ (C59_forest_ruth hg eps hd0).1 iF
  · exact key _ (C59_forest_ruth hg eps hd0).2 iF

/-- the hypotheses can be met: the matrix exponential, a singular value decomposition, and a Hamiltonian of three sites
of dimension 2 -/
example : GoodExpm matrixExp ∧ (∃ svd : Tensor ℂ → SvdRes ℂ, GoodSvd svd) ∧ ∃ H, HamFits H [2, 2, 2] ∧ HamHermitian H [2, 2, 2] := by
  refine ⟨exists_goodExpm, exists_goodSvd, ⟨3, fun _ => 2, fun _ => ⟨[2, 2], fun i => if i.getD 0 0 = i.getD 1 0 then i.getD 0 0 else 1⟩,
    fun _ => ⟨[4, 4], fun i => if i.getD 0 0 = i.getD 1 0 then 3 else 0⟩, fun _ => 0, fun _ _ => Tensor.empty, fun _ _ => Tensor.empty, false⟩,
    ⟨rfl, ?_, ?_, ?_⟩, ?_, ?_⟩
  · intro p hp; have : p = 0 ∨ p = 1 ∨ p = 2 := by simp at hp; omega
    rcases this with rfl | rfl | rfl <;> rfl
  · intro p hp; have : p = 0 ∨ p = 1 ∨ p = 2 := by simp at hp; omega
    rcases this with rfl | rfl | rfl <;> rfl
  · intro p hp; have : p = 0 ∨ p = 1 := by simp at hp; omega
    rcases this with rfl | rfl <;> rfl
  · intro p _ x y _ _
    by_cases h : x = y <;> simp [h, eq_comm]
  · intro p _ x y _ _
    by_cases h : x = y <;> simp [h, eq_comm]

end MPS.Props
