import Verif.ITebdSlowModel
import Verif.ITebdSlowSpec
import Verif.ITebdLemmas3
import Verif.CanonLemmas3

/-!
# Powers of the transfer matrix are rings
-/

set_option linter.unusedSectionVars false
set_option linter.unusedSimpArgs false

namespace MPS.ITebd
open MPS Tensor
variable {K : Type} [RCLike K]

theorem mmult_mat {M N : Tensor K} {x y z : Nat} (hM : M.dims = [x, y]) (hN : N.dims = [y, z]) :
    (mmult M N).dims = [x, z] ∧ ∀ i j, (mmult M N).get [i, j] = ∑ k ∈ Finset.range y, M.get [i, k] * N.get [k, j] := by
  constructor
  · simp [mmult, fold, hM, hN, nrm]
  · intro i j; simp [mmult, fold, hM, hN, nrm]

/-- the matrix `M` is `c` times the transfer matrix of the tensors `As` with the operator `O` -/
def Rep (D E : Nat) (As : List (Tensor K)) (ds : List Nat) (O : List Nat → List Nat → K) (c : K) (M : Tensor K) : Prop :=
  M.dims = [D * D, E * E] ∧ ∀ a < D, ∀ a' < D, ∀ b < E, ∀ b' < E, M.get [a + D * a', b + E * b'] = c * transferO As ds O a' a b' b

theorem Rep.mmult {D m E : Nat} {As Bs : List (Tensor K)} {ds es : List Nat} (h : WF D As ds m) (h' : WF m Bs es E)
    {O O1 O2 : List Nat → List Nat → K} {c1 c2 : K} {M N : Tensor K} (h1 : Rep D m As ds O1 c1 M) (h2 : Rep m E Bs es O2 c2 N)
    (hO : ∀ s t, IsCfg ds s → IsCfg ds t → ∀ s' t', IsCfg es s' → IsCfg es t' → O (s ++ s') (t ++ t') = O1 s t * O2 s' t') :
    Rep D E (As ++ Bs) (ds ++ es) O (c1 * c2) (mmult M N) := by
  obtain ⟨e1, e2⟩ := mmult_mat h1.1 h2.1
  refine ⟨e1, fun a ha a' ha' b hb b' hb' => ?_⟩
  rw [e2, sum_range_mul, transferO_append h h' hO a' a b' b ha' ha, Finset.mul_sum]
  refine Finset.sum_congr rfl fun x hx => ?_
  rw [Finset.mul_sum]
  refine Finset.sum_congr rfl fun y hy => ?_
  rw [h1.2 a ha a' ha' y (Finset.mem_range.1 hy) x (Finset.mem_range.1 hx),
    h2.2 y (Finset.mem_range.1 hy) x (Finset.mem_range.1 hx) b hb b' hb']
  ring

theorem Rep.smul {D E : Nat} {As : List (Tensor K)} {ds : List Nat} {O : List Nat → List Nat → K} {c : K} {M : Tensor K}
    (h : Rep D E As ds O c M) (x : K) : Rep D E As ds O (x * c) (smul x M) := by
  refine ⟨h.1, fun a ha a' ha' b hb b' hb' => ?_⟩
  show x * M.get _ = _
  rw [h.2 a ha a' ha' b hb b' hb', mul_assoc]

theorem Rep.congr {D E : Nat} {As : List (Tensor K)} {ds : List Nat} {O O' : List Nat → List Nat → K} {c : K} {M : Tensor K}
    (h : Rep D E As ds O c M) (hO : ∀ s, IsCfg ds s → ∀ t, IsCfg ds t → O s t = O' s t) : Rep D E As ds O' c M := by
  refine ⟨h.1, fun a ha a' ha' b hb b' hb' => ?_⟩
  rw [h.2 a ha a' ha' b hb b' hb']
  congr 1
  exact sumCfg_congr fun s hs => sumCfg_congr fun t ht => by rw [hO s hs t ht]

/-- the elements of a transfer matrix -/
theorem eMatrix_get {A1 A2 : Tensor K} {D d E : Nat} (h1 : A1.dims = [D, d, E]) (h2 : A2.dims = [D, d, E]) :
    (eMatrix A1 A2).dims = [D * D, E * E] ∧ ∀ a < D, ∀ a' < D, ∀ b < E, ∀ b' < E,
      (eMatrix A1 A2).get [a + D * a', b + E * b'] = ∑ i ∈ Finset.range d, A1.get [a, i, b] * star (A2.get [a', i, b']) := by
  have hd : (fold A1 1 (conj A2) 1).dims = [D, E, D, E] := by simp [fold, conj, h1, h2, nrm]
  have hp : (permute (fold A1 1 (conj A2) 1) 1 2).dims = [D, D, E, E] := by simp [permute, hd, nrm, swapIdx]
  unfold eMatrix
  simp only
  rw [show (fold A1 1 (conj A2) 1).dim 2 = D by simp [dim, hd, nrm], show (fold A1 1 (conj A2) 1).dim 3 = E by simp [dim, hd, nrm]]
  refine ⟨rfl, fun a ha a' ha' b hb b' hb' => ?_⟩
  rw [show (reshape (permute (fold A1 1 (conj A2) 1) 1 2) [D * D, E * E]).get [a + D * a', b + E * b'] =
      (permute (fold A1 1 (conj A2) 1) 1 2).get [a, a', b, b'] from by
    apply reshape_get
    · rw [hp]; exact List.Forall₂.cons ha (List.Forall₂.cons ha' (List.Forall₂.cons hb (List.Forall₂.cons hb' List.Forall₂.nil)))
    · rw [hp]; simp only [flat]; ring]
  have : (permute (fold A1 1 (conj A2) 1) 1 2).get [a, a', b, b'] = (fold A1 1 (conj A2) 1).get [a, b, a', b'] := by
    simp [permute, hd, nrm, swapIdx]
  rw [this]
  simp [fold, conj, h1, h2, nrm]

theorem path_one {A : Tensor K} {D d E : Nat} (hA : A.dims = [D, d, E]) {x s y : Nat} (hy : y < E) : path [A] [s] x y = A.get [x, s, y] := by
  rw [path_cons, dim2_of hA]
  simp only [path_nil]
  rw [Finset.sum_eq_single_of_mem y (Finset.mem_range.2 hy) (fun z _ h => by simp [h])]
  simp

theorem foldin_op {A op : Tensor K} {D d E : Nat} (hA : A.dims = [D, d, E]) (hop : op.dims = [d, d]) :
    (foldin op (-1) A 1).dims = [D, d, E] ∧ ∀ a i b, (foldin op (-1) A 1).get [a, i, b] = ∑ j ∈ Finset.range d, op.get [i, j] * A.get [a, j, b] := by
  constructor
  · simp [foldin, hA, hop, nrm]
  · intro a i b; simp [foldin, hA, hop, nrm]

/-- one site with an operator -/
theorem Rep.op {A op : Tensor K} {D d E : Nat} (hA : A.dims = [D, d, E]) (hop : op.dims = [d, d]) :
    Rep D E [A] [d] (fun s t => op.get [s.getD 0 0, t.getD 0 0]) 1 (eMatrix (foldin op (-1) A 1) A) := by
  obtain ⟨f1, f2⟩ := foldin_op hA hop
  obtain ⟨e1, e2⟩ := eMatrix_get f1 hA
  refine ⟨e1, fun a ha a' ha' b hb b' hb' => ?_⟩
  rw [e2 a ha a' ha' b hb b' hb', one_mul]
  unfold transferO
  simp only [sumCfg_cons, sumCfg, List.getD_cons_zero]
  refine Finset.sum_congr rfl fun i _ => ?_
  rw [f2, Finset.sum_mul]
  refine Finset.sum_congr rfl fun j _ => ?_
  rw [path_one hA hb, path_one hA hb']
  ring

/-- one site without operator -/
theorem Rep.one {A : Tensor K} {D d E : Nat} (hA : A.dims = [D, d, E]) :
    Rep D E [A] [d] oneElt 1 (eMatrix A A) := by
  obtain ⟨e1, e2⟩ := eMatrix_get hA hA
  refine ⟨e1, fun a ha a' ha' b hb b' hb' => ?_⟩
  rw [e2 a ha a' ha' b hb b' hb', one_mul]
  unfold transferO oneElt
  simp only [sumCfg_cons, sumCfg, List.cons.injEq, and_true]
  refine Finset.sum_congr rfl fun i hi => ?_
  rw [Finset.sum_eq_single_of_mem i hi (fun j _ hj => by rw [if_neg (Ne.symm hj)]; simp), if_pos rfl, path_one hA hb, path_one hA hb']
  ring

/-- the trace of a transfer matrix -/
theorem Rep.trace {D : Nat} {As : List (Tensor K)} {ds : List Nat} {O : List Nat → List Nat → K} {c : K} {M : Tensor K}
    (h : Rep D D As ds O c M) : tr M = c * MPS.inner ds (fun s => ∑ a ∈ Finset.range D, path As s a a)
      (actOp ds O fun s => ∑ a ∈ Finset.range D, path As s a a) := by
  unfold tr
  rw [show M.dim 0 = D * D by simp [dim, h.1, nrm], sum_range_mul]
  rw [Finset.sum_congr rfl fun x hx => Finset.sum_congr rfl fun y hy => h.2 y (Finset.mem_range.1 hy) x (Finset.mem_range.1 hx) y
    (Finset.mem_range.1 hy) x (Finset.mem_range.1 hx)]
  simp only [← Finset.mul_sum]
  congr 1
  unfold transferO MPS.inner actOp
  simp only [← sumCfg_sum]
  refine sumCfg_congr fun s _ => ?_
  rw [← sumCfg_mul_left]
  refine sumCfg_congr fun t _ => ?_
  rw [star_sum, Finset.sum_mul]
  refine Finset.sum_congr rfl fun x _ => ?_
  rw [Finset.mul_sum, Finset.mul_sum]
  exact Finset.sum_congr rfl fun y _ => by ring

/-- the transfer matrix is zero -/
def Vanish (D E : Nat) (As : List (Tensor K)) (ds : List Nat) (O : List Nat → List Nat → K) : Prop :=
  ∀ a < D, ∀ a' < D, ∀ b < E, ∀ b' < E, transferO As ds O a' a b' b = 0

theorem frob_zero_mat {M : Tensor K} {x y : Nat} (hM : M.dims = [x, y]) (h : frob M = 0) {i j : Nat} (hi : i < x) (hj : j < y) :
    M.get [i, j] = 0 := by
  unfold frob at h
  rw [Real.sqrt_eq_zero (Finset.sum_nonneg fun _ _ => by positivity), Finset.sum_eq_zero_iff_of_nonneg fun _ _ => by positivity] at h
  have hb : InB M.dims [i, j] := by rw [hM]; exact .cons hi (.cons hj .nil)
  have := h (flat M.dims [i, j]) (Finset.mem_range.2 (by unfold size; exact flat_lt hb))
  unfold lin at this
  rw [unflat_flat hb] at this
  simpa using this

theorem Rep.frob_zero {D E : Nat} {As : List (Tensor K)} {ds : List Nat} {O : List Nat → List Nat → K} {c : K} {M : Tensor K}
    (h : Rep D E As ds O c M) (h0 : frob M = 0) (hc : c ≠ 0) : Vanish D E As ds O := by
  intro a ha a' ha' b hb b' hb'
  have := frob_zero_mat h.1 h0 (add_mul_lt ha ha') (add_mul_lt hb hb')
  rw [h.2 a ha a' ha' b hb b' hb'] at this
  exact (mul_eq_zero.1 this).resolve_left hc

/-- the same for a window -/
def RepW (psi : State K) (p : Int) (n : Nat) (O : List Nat → List Nat → K) (c : K) (M : Tensor K) : Prop :=
  Rep ((psi.matrix p).dim 0) ((psi.matrix (p + n)).dim 0) (window psi p n) (winDims psi p n) O c M

def VanishW (psi : State K) (p : Int) (n : Nat) : Prop :=
  Vanish ((psi.matrix p).dim 0) ((psi.matrix (p + n)).dim 0) (window psi p n) (winDims psi p n) oneElt

theorem RepW.mmult {psi : State K} (h : Ok psi) {p q : Int} {n m : Nat} {O O1 O2 : List Nat → List Nat → K} {c1 c2 : K} {M N : Tensor K}
    (h1 : RepW psi p n O1 c1 M) (hq : q % 2 = (p + n) % 2) (h2 : RepW psi q m O2 c2 N)
    (hO : ∀ s t, IsCfg (winDims psi p n) s → IsCfg (winDims psi p n) t → ∀ s' t', IsCfg (winDims psi (p + n) m) s' →
      IsCfg (winDims psi (p + n) m) t' → O (s ++ s') (t ++ t') = O1 s t * O2 s' t') :
    RepW psi p (n + m) O (c1 * c2) (mmult M N) := by
  unfold RepW at *
  rw [window_add, winDims_add, show p + ((n + m : Nat) : Int) = p + n + m by push_cast; ring]
  rw [matrix_parity psi (p := q) (q := p + n) hq, matrix_parity psi (p := q + m) (q := p + n + m) (by omega), window_shift psi hq, winDims_shift psi hq] at h2
  exact Rep.mmult (h.window_wf n p) (h.window_wf m (p + n)) h1 h2 hO

theorem VanishW.add {psi : State K} (h : Ok psi) {p : Int} {n : Nat} (hv : VanishW psi p n) (m : Nat) : VanishW psi p (n + m) := by
  unfold VanishW Vanish at *
  rw [window_add, winDims_add, show p + ((n + m : Nat) : Int) = p + n + m by push_cast; ring]
  intro a ha a' ha' b hb b' hb'
  rw [transferO_append (h.window_wf n p) (h.window_wf m (p + n)) (O1 := oneElt) (O2 := oneElt)
    (fun s t hs ht s' t' _ _ => oneElt_append (by rw [hs.length_eq, ht.length_eq])) a' a b' b ha' ha]
  refine Finset.sum_eq_zero fun x hx => Finset.sum_eq_zero fun y hy => ?_
  rw [hv a ha a' ha' y (Finset.mem_range.1 hy) x (Finset.mem_range.1 hx), zero_mul]

theorem RepW.shift {psi : State K} {p q : Int} (hq : p % 2 = q % 2) {n : Nat} {O : List Nat → List Nat → K} {c : K} {M : Tensor K}
    (h : RepW psi p n O c M) : RepW psi q n O c M := by
  unfold RepW at *
  rw [← matrix_parity psi (p := p) (q := q) hq, ← matrix_parity psi (p := p + n) (q := q + n) (by omega), ← window_shift psi hq, ← winDims_shift psi hq]
  exact h

theorem VanishW.shift {psi : State K} {p q : Int} (hq : p % 2 = q % 2) {n : Nat} (h : VanishW psi p n) : VanishW psi q n := by
  unfold VanishW at *
  rw [← matrix_parity psi (p := p) (q := q) hq, ← matrix_parity psi (p := p + n) (q := q + n) (by omega), ← window_shift psi hq, ← winDims_shift psi hq]
  exact h

/-- repeated squaring -/
theorem squares {psi : State K} (h : Ok psi) {p : Int} {R : Tensor K} (hR : RepW psi p 2 oneElt 1 R) (m : Nat) :
    ∃ c : K, RepW psi p (2 * 2 ^ m) oneElt c ((List.range m).foldl (fun R _ => unitNorm (mmult R R)) R) ∧
      (c = 0 → VanishW psi p (2 * 2 ^ m)) := by
  induction m with
  | zero => exact ⟨1, hR, fun h => absurd h one_ne_zero⟩
  | succ m ih =>
    obtain ⟨c, h1, h2⟩ := ih
    rw [List.range_succ, List.foldl_append]
    simp only [List.foldl_cons, List.foldl_nil]
    set M := (List.range m).foldl (fun R _ => unitNorm (mmult R R)) R
    have h3 : RepW psi p (2 * 2 ^ m + 2 * 2 ^ m) oneElt (c * c) (mmult M M) :=
      RepW.mmult h h1 (q := p) (by omega) h1 (fun s t hs ht s' t' _ _ => oneElt_append (by rw [hs.length_eq, ht.length_eq]))
    rw [show 2 * 2 ^ (m + 1) = 2 * 2 ^ m + 2 * 2 ^ m by ring]
    refine ⟨_, Rep.smul h3 _, fun h0 => ?_⟩
    by_cases hc : c = 0
    · exact VanishW.add h (h2 hc) _
    · refine Rep.frob_zero h3 ?_ (mul_ne_zero hc hc)
      rcases mul_eq_zero.1 h0 with h0 | h0
      · have : (1 / frob (mmult M M) : ℝ) = 0 := by exact_mod_cast h0
        rcases div_eq_zero_iff.1 this with h | h
        · exact absurd h one_ne_zero
        · exact h
      · exact absurd h0 (mul_ne_zero hc hc)

theorem infinitePower_rep {psi : State K} (h : Ok psi) {p : Int} {R : Tensor K} (hR : RepW psi p 2 oneElt 1 R) :
    ∃ c : K, RepW psi p 2048 oneElt c (infinitePower R) ∧ (c = 0 → VanishW psi p 2048) := squares h hR 10

theorem RepW.value {psi : State K} {p : Int} {n : Nat} (hn : n % 2 = 0) {O : List Nat → List Nat → K} {c : K} {M : Tensor K}
    (h : RepW psi p n O c M) : tr M = c * MPS.inner (winDims psi p n) (ringAmp psi p n) (actOp (winDims psi p n) O (ringAmp psi p n)) := by
  unfold RepW at h
  rw [matrix_parity psi (p := p + n) (q := p) (by omega)] at h
  exact Rep.trace h

theorem ring_one (psi : State K) (p : Int) (n : Nat) :
    MPS.inner (winDims psi p n) (ringAmp psi p n) (actOp (winDims psi p n) oneElt (ringAmp psi p n)) = ringNorm psi p n := by
  unfold ringNorm MPS.inner actOp oneElt
  refine sumCfg_congr fun s hs => ?_
  congr 1
  rw [← sumCfg_pick (winDims psi p n) (ringAmp psi p n) hs]
  exact sumCfg_congr fun t _ => by split <;> simp

theorem ringNorm_vanish {psi : State K} {p : Int} {n : Nat} (hn : n % 2 = 0) (h : VanishW psi p n) : ringNorm psi p n = 0 := by
  have hD : (psi.matrix (p + n)).dim 0 = (psi.matrix p).dim 0 := by rw [matrix_parity psi (p := p + n) (q := p) (by omega)]
  have h1 : RepW psi p n oneElt 1 (zeros [(psi.matrix p).dim 0 * (psi.matrix p).dim 0, (psi.matrix p).dim 0 * (psi.matrix p).dim 0]) := by
    refine ⟨by rw [hD]; rfl, fun a ha a' ha' b hb b' hb' => ?_⟩
    rw [h a ha a' ha' b hb b' hb']
    simp [zeros]
  have := h1.value hn
  rw [ring_one, one_mul] at this
  rw [← this]
  simp [tr, zeros]

/-- the quotient of the traces of two transfer matrices of a ring with the same factor -/
theorem ratio {psi : State K} {p : Int} {n : Nat} (hn : n % 2 = 0) {O : List Nat → List Nat → K} {c : K} {M N : Tensor K}
    (h1 : RepW psi p n O c M) (h2 : RepW psi p n oneElt c N) (hv : c = 0 → VanishW psi p n) (h0 : ringNorm psi p n ≠ 0) :
    tr M / tr N = ringValue psi p n O := by
  rw [h1.value hn, h2.value hn, ring_one]
  have : c ≠ 0 := fun h => h0 (ringNorm_vanish hn (hv h))
  unfold ringValue
  rw [mul_div_mul_left _ _ this]

end MPS.ITebd
