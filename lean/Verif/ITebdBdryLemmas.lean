import Verif.ITebdBdryModel
import Verif.ITebdSlowLemmas2
import Verif.Props.ITebdSlowProps

/-!
# Propagating a boundary vector makes a ring
-/

set_option linter.unusedSectionVars false
set_option linter.unusedSimpArgs false

namespace MPS.ITebd
open MPS Tensor
variable {K : Type} [RCLike K]

/-- `M` is `c` times the transfer tensor of the tensors `As` with the operator `O` -/
def TransL (D E : Nat) (As : List (Tensor K)) (ds : List Nat) (O : List Nat → List Nat → K) (c : K) (M : Tensor K) : Prop :=
  M.dims = [D, D, E, E] ∧ ∀ a < D, ∀ a' < D, ∀ b < E, ∀ b' < E, M.get [a, a', b, b'] = c * transferO As ds O a a' b b'

theorem TransL.smul {D E : Nat} {As : List (Tensor K)} {ds : List Nat} {O : List Nat → List Nat → K} {c : K} {M : Tensor K}
    (h : TransL D E As ds O c M) (x : K) : TransL D E As ds O (x * c) (smul x M) := by
  refine ⟨h.1, fun a ha a' ha' b hb b' hb' => ?_⟩
  show x * M.get _ = _
  rw [h.2 a ha a' ha' b hb b' hb', mul_assoc]

theorem TransL.congr {D E : Nat} {As : List (Tensor K)} {ds : List Nat} {O O' : List Nat → List Nat → K} {c : K} {M : Tensor K}
    (h : TransL D E As ds O c M) (hO : ∀ s, IsCfg ds s → ∀ t, IsCfg ds t → O s t = O' s t) : TransL D E As ds O' c M := by
  refine ⟨h.1, fun a ha a' ha' b hb b' hb' => ?_⟩
  rw [h.2 a ha a' ha' b hb b' hb']
  congr 1
  exact sumCfg_congr fun s hs => sumCfg_congr fun t ht => by rw [hO s hs t ht]

theorem TransL.frob_zero {D E : Nat} {As : List (Tensor K)} {ds : List Nat} {O : List Nat → List Nat → K} {c : K} {M : Tensor K}
    (h : TransL D E As ds O c M) (h0 : frob M = 0) (hc : c ≠ 0) : Vanish D E As ds O := by
  intro a ha a' ha' b hb b' hb'
  have hz : M.get [a', a, b', b] = 0 := by
    unfold frob at h0
    rw [Real.sqrt_eq_zero (Finset.sum_nonneg fun _ _ => by positivity), Finset.sum_eq_zero_iff_of_nonneg fun _ _ => by positivity] at h0
    have hb : InB M.dims [a', a, b', b] := by rw [h.1]; exact .cons ha' (.cons ha (.cons hb' (.cons hb .nil)))
    have := h0 (flat M.dims [a', a, b', b]) (Finset.mem_range.2 (by unfold size; exact flat_lt hb))
    unfold lin at this
    rw [unflat_flat hb] at this
    simpa using this
  rw [h.2 a' ha' a ha b' hb' b hb] at hz
  exact (mul_eq_zero.1 hz).resolve_left hc

theorem opOk_none {d : Nat} : OpOk d (none : Option (Tensor K)) := fun o ho => by cases ho

theorem opOk_some {d : Nat} {op : Tensor K} (h : op.dims = [d, d]) : OpOk d (some op) := fun o ho => by cases ho; exact h

/-- the local transfer matrix of a tensor with three indices, with an operator or without it -/
def local3 (A : Tensor K) (d : Nat) (op : Option (Tensor K)) (x y x' y' : Nat) : K :=
  ∑ i ∈ Finset.range d, star (A.get [x, i, x']) * (actT op A).get [y, i, y']

/-- propagation through one tensor which stands for the tensors `Bs` -/
theorem TransL.prop {D m E d : Nat} {As Bs : List (Tensor K)} {ds es : List Nat} (h : WF D As ds m) (h' : WF m Bs es E) (hD : 0 < D) (hm : 0 < m)
    {O O1 O2 : List Nat → List Nat → K} {c : K} {M A : Tensor K} {op : Option (Tensor K)} (h1 : TransL D m As ds O1 c M) (hA : A.dims = [m, d, E])
    (hop : OpOk d op) (h2 : ∀ a < m, ∀ a' < m, ∀ b < E, ∀ b' < E, local3 A d op a a' b b' = transferO Bs es O2 a a' b b')
    (hO : ∀ s t, IsCfg ds s → IsCfg ds t → ∀ s' t', IsCfg es s' → IsCfg es t' → O (s ++ s') (t ++ t') = O1 s t * O2 s' t') :
    TransL D E (As ++ Bs) (ds ++ es) O c (propMatrix M 1 A A op) := by
  have hne : M.isEmpty = false := by simp [isEmpty, size, h1.1]; omega
  have hrk : M.rank = 4 := by simp [Tensor.rank, h1.1]
  have : propMatrix M 1 A A op = propRight4 M A A op := by simp [propMatrix, propRight, hne, hrk]
  rw [this]
  refine ⟨propRight4_dims h1.1 hA hA hop, fun a ha a' ha' b hb b' hb' => ?_⟩
  rw [propRight4_get h1.1 hA hA hop ha ha' hb hb', transferO_append h h' hO a a' b b' ha ha', Finset.mul_sum]
  refine Finset.sum_congr rfl fun x hx => ?_
  rw [Finset.mul_sum]
  refine Finset.sum_congr rfl fun y hy => ?_
  have hx := Finset.mem_range.1 hx
  have hy := Finset.mem_range.1 hy
  have := h2 x hx y hy b hb b' hb'
  unfold local3 at this
  rw [this, h1.2 a ha a' ha' x hx y hy]
  ring

theorem TransL.init {D E d : Nat} {Bs : List (Tensor K)} {es : List Nat} {A : Tensor K} (hA : A.dims = [D, d, E])
    {O : List Nat → List Nat → K}
    (h2 : ∀ a < D, ∀ a' < D, ∀ b < E, ∀ b' < E, local3 A d none a a' b b' = transferO Bs es O a a' b b') :
    TransL D E Bs es O 1 (propMatrix Tensor.empty 1 A A none) := by
  have : propMatrix Tensor.empty 1 A A none = propInit A A none := by simp [propMatrix, Tensor.empty, isEmpty, size]
  rw [this]
  have hop : OpOk d (none : Option (Tensor K)) := fun o ho => by cases ho
  refine ⟨propInit_dims hA hA hop, fun a ha a' ha' b hb b' hb' => ?_⟩
  rw [propInit_get hA hA hop, one_mul, ← h2 a ha a' ha' b hb b' hb']
  rfl

/-- closing the ring -/
theorem TransL.close {D : Nat} {As : List (Tensor K)} {ds : List Nat} {O : List Nat → List Nat → K} {c : K} {M : Tensor K}
    (h : TransL D D As ds O c M) : (propClose1 M).lin 0 =
      c * ∑ a ∈ Finset.range D, ∑ a' ∈ Finset.range D, transferO As ds O a a' a a' := by
  have h0 : M.dim 0 = D := by simp [dim, h.1, nrm]
  have h1 : M.dim 1 = D := by simp [dim, h.1, nrm]
  have h2 : M.dim 2 = D := by simp [dim, h.1, nrm]
  have h3 : M.dim 3 = D := by simp [dim, h.1, nrm]
  rw [lin_zero_scalar (by simp [propClose1, trace])]
  simp only [propClose1, trace, h0, h1, h2, h3, reshape_dims, List.getD_cons_zero, List.nil_append]
  rw [sum_range_mul, Finset.sum_comm, Finset.mul_sum]
  refine Finset.sum_congr rfl fun i hi => ?_
  rw [Finset.mul_sum]
  refine Finset.sum_congr rfl fun j hj => ?_
  have hi := Finset.mem_range.1 hi
  have hj := Finset.mem_range.1 hj
  rw [← h.2 i hi j hj i hi j hj]
  apply reshape_get
  · rw [h.1]; exact .cons hi (.cons hj (.cons hi (.cons hj .nil)))
  · rw [h.1]; simp only [flat]; ring

/-- for a window -/
def TransW (psi : State K) (p : Int) (n : Nat) (O : List Nat → List Nat → K) (c : K) (M : Tensor K) : Prop :=
  TransL ((psi.matrix p).dim 0) ((psi.matrix (p + n)).dim 0) (window psi p n) (winDims psi p n) O c M

theorem TransW.shift {psi : State K} {p q : Int} (hq : p % 2 = q % 2) {n : Nat} {O : List Nat → List Nat → K} {c : K} {M : Tensor K}
    (h : TransW psi p n O c M) : TransW psi q n O c M := by
  unfold TransW at *
  rw [← matrix_parity psi (p := p) (q := q) hq, ← matrix_parity psi (p := p + n) (q := q + n) (by omega), ← window_shift psi hq, ← winDims_shift psi hq]
  exact h

/-- the tensor `A` stands for the sites `q, ..., q + m - 1` with the operator `O` -/
def Stands (psi : State K) (q : Int) (m : Nat) (O : List Nat → List Nat → K) (A : Tensor K) (op : Option (Tensor K)) : Prop :=
  ∃ d, A.dims = [(psi.matrix q).dim 0, d, (psi.matrix (q + m)).dim 0] ∧ OpOk d op ∧
    ∀ a < (psi.matrix q).dim 0, ∀ a' < (psi.matrix q).dim 0, ∀ b < (psi.matrix (q + m)).dim 0, ∀ b' < (psi.matrix (q + m)).dim 0,
      local3 A d op a a' b b' = transferO (window psi q m) (winDims psi q m) O a a' b b'

theorem TransW.prop {psi : State K} (h : Ok psi) {p q : Int} {n m : Nat} {O O1 O2 : List Nat → List Nat → K} {c : K} {M A : Tensor K}
    {op : Option (Tensor K)} (h1 : TransW psi p n O1 c M) (hq : q % 2 = (p + n) % 2) (h2 : Stands psi q m O2 A op)
    (hO : ∀ s t, IsCfg (winDims psi p n) s → IsCfg (winDims psi p n) t → ∀ s' t', IsCfg (winDims psi (p + n) m) s' →
      IsCfg (winDims psi (p + n) m) t' → O (s ++ s') (t ++ t') = O1 s t * O2 s' t') :
    TransW psi p (n + m) O c (propMatrix M 1 A A op) := by
  obtain ⟨d, d1, d2, d3⟩ := h2
  unfold TransW at *
  rw [window_add, winDims_add, show p + ((n + m : Nat) : Int) = p + n + m by push_cast; ring]
  rw [matrix_parity psi (p := q) (q := p + n) hq, matrix_parity psi (p := q + m) (q := p + n + m) (by omega)] at d1 d3
  rw [window_shift psi hq, winDims_shift psi hq] at d3
  exact TransL.prop (h.window_wf n p) (h.window_wf m (p + n)) (h.dims p).2.1 (h.dims (p + n)).2.1 h1 d1 d2 d3 hO

theorem TransW.init {psi : State K} {q : Int} {m : Nat} {O : List Nat → List Nat → K} {A : Tensor K}
    (h2 : Stands psi q m O A none) : TransW psi q m O 1 (propMatrix Tensor.empty 1 A A none) := by
  obtain ⟨d, d1, d2, d3⟩ := h2
  exact TransL.init d1 d3

theorem Stands.site {psi : State K} (h : Ok psi) (q : Int) : Stands psi q 1 oneElt (siteT psi q) none := by
  refine ⟨_, h.siteT_dims q, opOk_none, fun a ha a' ha' b hb b' hb' => ?_⟩
  rw [(window_one psi q).1, (window_one psi q).2]
  have := (Rep.one (h.siteT_dims q)).2 a' ha' a ha b' hb' b hb
  rw [one_mul] at this
  rw [← this, (eMatrix_get (h.siteT_dims q) (h.siteT_dims q)).2 a' ha' a ha b' hb' b hb]
  exact Finset.sum_congr rfl fun i _ => mul_comm _ _

theorem Stands.siteOp {psi : State K} (h : Ok psi) (q : Int) {op : Tensor K} (hop : op.dims = [(psi.matrix q).dim 1, (psi.matrix q).dim 1])
    {f : Int → Tensor K} (hf : f q = op) : Stands psi q 1 (siteOps q 1 f) (siteT psi q) (some op) := by
  refine ⟨_, h.siteT_dims q, opOk_some hop, fun a ha a' ha' b hb b' hb' => ?_⟩
  rw [(window_one psi q).1, (window_one psi q).2]
  have e := (Rep.op (h.siteT_dims q) hop).2 a' ha' a ha b' hb' b hb
  rw [one_mul] at e
  have hO : siteOps q 1 f = fun s t => op.get [s.getD 0 0, t.getD 0 0] := by funext s t; rw [siteOps_one, hf]
  rw [hO, ← e, (eMatrix_get (foldin_op (h.siteT_dims q) hop).1 (h.siteT_dims q)).2 a' ha' a ha b' hb' b hb]
  exact Finset.sum_congr rfl fun i _ => mul_comm _ _

theorem Stands.pair {psi : State K} (h : Ok psi) (p : Int) {op : Tensor K}
    (hop : op.dims = [(psi.matrix p).dim 1 * (psi.matrix (p + 1)).dim 1, (psi.matrix p).dim 1 * (psi.matrix (p + 1)).dim 1]) {A : Tensor K}
    (hA : A = scale (ensure3 (fold (scale (psi.matrix p) (-1) (psi.rightVector p)) (-1) (psi.matrix (p + 1)) 0)) (-1) (psi.rightVector (p + 1))) :
    Stands psi p 2 oneElt A none ∧ Stands psi p 2 (pairElt ((psi.matrix p).dim 1) op) A (some op) := by
  obtain ⟨r0, r2⟩ := RepW.pair h p hop hA
  obtain ⟨g1, -⟩ := pair_get h p
  rw [← hA] at g1
  constructor
  · refine ⟨_, g1, opOk_none, fun a ha a' ha' b hb b' hb' => ?_⟩
    have e := r0.2 a' ha' a ha b' hb' b hb
    rw [one_mul] at e
    rw [← e, show (p + ((2 : Nat) : Int)) = p + 2 by norm_num]
    have hb : b < (psi.matrix (p + 2)).dim 0 := by simpa using hb
    have hb' : b' < (psi.matrix (p + 2)).dim 0 := by simpa using hb'
    rw [(eMatrix_get g1 g1).2 a' ha' a ha b' hb' b hb]
    exact Finset.sum_congr rfl fun i _ => mul_comm _ _
  · refine ⟨_, g1, opOk_some hop, fun a ha a' ha' b hb b' hb' => ?_⟩
    have e := r2.2 a' ha' a ha b' hb' b hb
    rw [one_mul] at e
    rw [← e, show (p + ((2 : Nat) : Int)) = p + 2 by norm_num]
    have hb : b < (psi.matrix (p + 2)).dim 0 := by simpa using hb
    have hb' : b' < (psi.matrix (p + 2)).dim 0 := by simpa using hb'
    rw [(eMatrix_get (foldin_op g1 hop).1 g1).2 a' ha' a ha b' hb' b hb]
    exact Finset.sum_congr rfl fun i _ => mul_comm _ _

theorem oneElt_split {psi : State K} {p : Int} {n m : Nat} : ∀ s t, IsCfg (winDims psi p n) s → IsCfg (winDims psi p n) t → ∀ s' t',
    IsCfg (winDims psi (p + n) m) s' → IsCfg (winDims psi (p + n) m) t' → oneElt (K := K) (s ++ s') (t ++ t') = oneElt s t * oneElt s' t' :=
  fun _ _ hs ht _ _ _ _ => oneElt_append (by rw [hs.length_eq, ht.length_eq])

/-- what the power method makes of the normalised vector of one cell -/
theorem power_cells {psi : State K} (h : Ok psi) {power : (Tensor K → Tensor K) → Tensor K → Tensor K} (hpow : GoodPower power) (p : Int)
    {f : Tensor K → Tensor K} {v : Tensor K} (hv : TransW psi p 2 oneElt 1 v)
    (hf : ∀ n c M, n % 2 = 0 → TransW psi p n oneElt c M → TransW psi p (n + 2) oneElt c (f M)) :
    ∃ (k : Nat) (c : K), TransW psi p (2 * (k + 1)) oneElt c (power f (unitNorm v)) ∧ (c = 0 → VanishW psi p (2 * (k + 1))) := by
  obtain ⟨k, c, hc, e1, e2⟩ := hpow f (unitNorm v)
  have it : ∀ k, TransW psi p (2 * (k + 1)) oneElt (((1 / frob v : ℝ) : K) * 1) (f^[k] (unitNorm v)) := by
    intro k
    induction k with
    | zero => exact TransL.smul hv _
    | succ k ih =>
      rw [Function.iterate_succ_apply']
      exact hf (2 * (k + 1)) _ _ (by omega) ih
  refine ⟨k, c * (((1 / frob v : ℝ) : K) * 1), ⟨?_, fun a ha a' ha' b hb b' hb' => ?_⟩, fun h0 => ?_⟩
  · rw [e1]; exact (it k).1
  · rw [e2 _ (by rw [(it k).1]; exact .cons ha (.cons ha' (.cons hb (.cons hb' .nil)))), (it k).2 a ha a' ha' b hb b' hb']
    ring
  · have : frob v = 0 := by
      rcases mul_eq_zero.1 h0 with h0 | h0
      · exact absurd h0 hc
      · rw [mul_one] at h0
        have : (1 / frob v : ℝ) = 0 := by exact_mod_cast h0
        rcases div_eq_zero_iff.1 this with h | h
        · exact absurd h one_ne_zero
        · exact h
    have := TransL.frob_zero hv this one_ne_zero
    have hw : VanishW psi p 2 := this
    have := VanishW.add h hw (2 * k)
    rwa [show 2 + 2 * k = 2 * (k + 1) by ring] at this

/-- the quotient -/
theorem ratioW {psi : State K} {p : Int} {n : Nat} (hn : n % 2 = 0) {O : List Nat → List Nat → K} {c : K} {M N : Tensor K}
    (h1 : TransW psi p n O c M) (h2 : TransW psi p n oneElt c N) (hv : c = 0 → VanishW psi p n) (h0 : ringNorm psi p n ≠ 0) :
    (propClose1 M).lin 0 / (propClose1 N).lin 0 = ringValue psi p n O := by
  unfold TransW at h1 h2
  rw [matrix_parity psi (p := p + n) (q := p) (by omega)] at h1 h2
  rw [TransL.close h1, TransL.close h2, ← Props.ringForm_transfer, ← Props.ringForm_transfer, ring_one]
  have : c ≠ 0 := fun h => h0 (ringNorm_vanish hn (hv h))
  unfold ringValue
  rw [mul_div_mul_left _ _ this]

/-- the pair of neighbours -/
theorem bdryPair_eq {psi : State K} (h : Ok psi) {power : (Tensor K → Tensor K) → Tensor K → Tensor K} (hpow : GoodPower power) (p : Int)
    {op : Tensor K}
    (hop : op.dims = [(psi.matrix p).dim 1 * (psi.matrix (p + 1)).dim 1, (psi.matrix p).dim 1 * (psi.matrix (p + 1)).dim 1])
    (h0 : ∀ k : Nat, ringNorm psi p (2 * (k + 1) + 2) ≠ 0) : ∃ k : Nat,
    bdryPair power op (psi.matrix p) (psi.rightVector p) (psi.matrix (p + 1)) (psi.rightVector (p + 1)) =
      ringValue psi p (2 * (k + 1) + 2) (widen (2 * (k + 1)) 2 (pairElt ((psi.matrix p).dim 1) op)) := by
  unfold bdryPair bdryCell leftBdry1
  simp only
  set A := scale (ensure3 (fold (scale (psi.matrix p) (-1) (psi.rightVector p)) (-1) (psi.matrix (p + 1)) 0)) (-1) (psi.rightVector (p + 1)) with hA
  clear_value A
  obtain ⟨s0, s1⟩ := Stands.pair h p hop hA
  obtain ⟨k, c, t1, t2⟩ := power_cells h hpow p (f := p1 A) (TransW.init s0)
    (fun n c M hn hM => TransW.prop h hM (q := p) (by omega) s0 oneElt_split)
  refine ⟨k, ratioW (c := c) (by omega) (TransW.prop h t1 (q := p) (by push_cast; omega) s1 ?_)
    (TransW.prop h t1 (q := p) (by push_cast; omega) s0 oneElt_split) (fun hc => VanishW.add h (t2 hc) 2) (h0 k)⟩
  intro s t hs ht s' t' hs' ht'
  have l1 : s.length = 2 * (k + 1) := by rw [hs.length_eq, winDims_length]
  have l2 : t.length = 2 * (k + 1) := by rw [ht.length_eq, winDims_length]
  have l3 : s'.length = 2 := by rw [hs'.length_eq, winDims_length]
  have l4 : t'.length = 2 := by rw [ht'.length_eq, winDims_length]
  unfold widen oneElt
  have e1 : (s ++ s').take (2 * (k + 1)) = s := by rw [← l1]; simp
  have e2 : (t ++ t').take (2 * (k + 1)) = t := by rw [← l2]; simp
  have e3 : (s ++ s').drop (2 * (k + 1)) = s' := by rw [← l1]; simp
  have e4 : (t ++ t').drop (2 * (k + 1)) = t' := by rw [← l2]; simp
  have e5 : (s ++ s').drop (2 * (k + 1) + 2) = [] := List.drop_eq_nil_of_le (by simp [l1, l3])
  have e6 : (t ++ t').drop (2 * (k + 1) + 2) = [] := List.drop_eq_nil_of_le (by simp [l2, l4])
  rw [e1, e2, e3, e4, e5, e6, List.take_of_length_le (by omega : s'.length ≤ 2), List.take_of_length_le (by omega : t'.length ≤ 2)]
  by_cases hst : s = t <;> simp [hst]

/-- the loop of `bdry_string_order` when all operators are there -/
theorem bdryLoop {psi : State K} (h : Ok psi) {Oi Om Oj : Tensor K} {i j : Int} {f : Int → Tensor K} {first : Int} (hfirst : first % 2 = 0)
    {N : Nat} (hf : ∀ n : Nat, n < N → (slowOp Oi i Om Oj j (first + n)).dims = [(psi.matrix (first + n)).dim 1, (psi.matrix (first + n)).dim 1] ∧
      slowOp Oi i Om Oj j (first + n) = f (first + n))
    {R : Tensor K} {c : K} {l : Nat} (hl : l % 2 = 0) (hR1 : TransW psi (first - l) l oneElt c R) (hRf : ∀ k, k < first → f k = ones psi k)
    (hv : c = 0 → VanishW psi (first - l) l) (n : Nat) (hnN : n ≤ N) :
    ∃ c' R', (List.range n).foldlM (fun R (n : Nat) => bdryStep (siteT psi 0) (siteT psi 1) Oi i Om Oj j R (first + n)) (R, R) = some R' ∧
      TransW psi (first - l) (l + n) (siteOps (first - l) (l + n) f) c' R'.2 ∧ TransW psi (first - l) (l + n) oneElt c' R'.1 ∧
      (c' = 0 → VanishW psi (first - l) (l + n)) := by
  induction n with
  | zero =>
    refine ⟨c, (R, R), rfl, ?_, hR1, hv⟩
    refine TransL.congr hR1 fun s hs t ht => ?_
    rw [← siteOps_ones h hs ht]
    refine congrFun (congrFun (siteOps_congr fun k hk => ?_) s) t
    rw [hRf _ (by omega)]
  | succ n ih =>
    obtain ⟨c', R', r0, h1, h0, hv⟩ := ih (by omega)
    rw [List.range_succ, List.foldlM_append, r0]
    obtain ⟨o1, o2⟩ := hf n (by omega)
    set k := first + (n : Int) with hk
    have hA : (if k % 2 = 1 then siteT psi 1 else siteT psi 0) = siteT psi k := by
      split
      · rename_i hp
        unfold siteT State.matrix State.rightVector
        simp [hp]
      · rename_i hp
        unfold siteT State.matrix State.rightVector
        simp [hp]
    have hne : (slowOp Oi i Om Oj j k).isEmpty = false := by
      have := (h.dims k).2.2.1
      simp [isEmpty, size, o1]; omega
    have e0 : TransW psi (first - l) (l + n + 1) oneElt c' (propMatrix R'.1 1 (siteT psi k) (siteT psi k) none) :=
      TransW.prop h h0 (q := k) (by push_cast; omega) (Stands.site h k) oneElt_split
    have e1 : TransW psi (first - l) (l + n + 1) (siteOps (first - l) (l + n + 1) f) c'
        (propMatrix R'.2 1 (siteT psi k) (siteT psi k) (some (slowOp Oi i Om Oj j k))) := by
      refine TransW.prop h h1 (q := k) (by push_cast; omega) (Stands.siteOp h k o1 (f := f) o2.symm) (fun s t hs ht s' t' _ _ => ?_)
      rw [siteOps_append (by rw [hs.length_eq, winDims_length]) (by rw [ht.length_eq, winDims_length]), siteOps_one, siteOps_one]
      congr 3; push_cast; omega
    have e1' := TransL.smul e1 ((1 / frob (propMatrix R'.1 1 (siteT psi k) (siteT psi k) none) : ℝ) : K)
    have e0' := TransL.smul e0 ((1 / frob (propMatrix R'.1 1 (siteT psi k) (siteT psi k) none) : ℝ) : K)
    refine ⟨((1 / frob (propMatrix R'.1 1 (siteT psi k) (siteT psi k) none) : ℝ) : K) * c',
      (smul ((1 / frob (propMatrix R'.1 1 (siteT psi k) (siteT psi k) none) : ℝ) : K) (propMatrix R'.1 1 (siteT psi k) (siteT psi k) none),
        smul ((1 / frob (propMatrix R'.1 1 (siteT psi k) (siteT psi k) none) : ℝ) : K)
          (propMatrix R'.2 1 (siteT psi k) (siteT psi k) (some (slowOp Oi i Om Oj j k)))), ?_, e1', e0', fun hz => ?_⟩
    · simp only [Option.bind_eq_bind, Option.bind_some, List.foldlM_cons, List.foldlM_nil, bdryStep, ← hk, hA, hne]
      rfl
    · by_cases hc : c' = 0
      · exact VanishW.add h (hv hc) 1
      · refine TransL.frob_zero e0 ?_ hc
        rcases mul_eq_zero.1 hz with hz | hz
        · have : (1 / frob (propMatrix R'.1 1 (siteT psi k) (siteT psi k) none) : ℝ) = 0 := by exact_mod_cast hz
          rcases div_eq_zero_iff.1 this with h | h
          · exact absurd h one_ne_zero
          · exact h
        · exact absurd hz hc

theorem bdryBody_eq {psi : State K} (h : Ok psi) {power : (Tensor K → Tensor K) → Tensor K → Tensor K} (hpow : GoodPower power)
    {Oi Om Oj : Tensor K} {i j : Int} (hij : i ≤ j) (hi : i % 2 = 0) (hj : j % 2 = 1) {f : Int → Tensor K}
    (hf : ∀ k, i ≤ k → k ≤ j → (slowOp Oi i Om Oj j k).dims = [(psi.matrix k).dim 1, (psi.matrix k).dim 1] ∧ slowOp Oi i Om Oj j k = f k)
    (hRf : ∀ k, k < i → f k = ones psi k)
    {n : Nat} (hn : (n : Int) = j + 1 - i) (h0 : ∀ k : Nat, ringNorm psi (i - (2 * (k + 1) : Nat)) (2 * (k + 1) + n) ≠ 0) : ∃ k : Nat,
    bdryBody power Oi i Om Oj j (psi.matrix 0) (psi.rightVector 0) (psi.matrix 1) (psi.rightVector 1) =
      some (ringValue psi (i - (2 * (k + 1) : Nat)) (2 * (k + 1) + n) (siteOps (i - (2 * (k + 1) : Nat)) (2 * (k + 1) + n) f)) := by
  unfold bdryBody leftBdry2
  simp only [show ¬ i % 2 = 1 by omega, hj, if_true, if_false]
  rw [show scale (psi.matrix 0) (-1) (psi.rightVector 0) = siteT psi 0 from rfl,
    show scale (psi.matrix 1) (-1) (psi.rightVector 1) = siteT psi 1 from rfl]
  have two : ∀ n c M, n % 2 = 0 → TransW psi 0 n oneElt c M → TransW psi 0 (n + 2) oneElt c (p2 (siteT psi 0) (siteT psi 1) M) := by
    intro n c M hn hM
    have a1 : TransW psi 0 (n + 1) oneElt c (propMatrix M 1 (siteT psi 0) (siteT psi 0) none) :=
      TransW.prop h hM (q := 0) (by omega) (Stands.site h 0) oneElt_split
    exact TransW.prop h (n := n + 1) (m := 1) a1 (q := 1) (by push_cast; omega) (Stands.site h 1) oneElt_split
  have hv0 : TransW psi 0 2 oneElt 1 (propMatrix (propMatrix Tensor.empty 1 (siteT psi 0) (siteT psi 0) none) 1 (siteT psi 1) (siteT psi 1) none) :=
    TransW.prop h (n := 1) (m := 1) (TransW.init (Stands.site h 0)) (q := 1) (by omega) (Stands.site h 1) oneElt_split
  obtain ⟨k, c, t1, t2⟩ := power_cells h hpow 0 hv0 two
  obtain ⟨c', R', r0, r1, r2, r3⟩ := bdryLoop h hi (f := f) (N := (j + 1 - i).toNat) (fun m hm => hf _ (by omega) (by omega)) (by omega)
    (TransW.shift (q := i - (2 * (k + 1) : Nat)) (by push_cast; omega) t1) hRf
    (fun hc => VanishW.shift (by push_cast; omega) (t2 hc)) (j + 1 - i).toNat (le_refl _)
  refine ⟨k, ?_⟩
  obtain rfl : n = (j + 1 - i).toNat := by omega
  rw [r0]
  simp only [Option.bind_eq_bind, Option.bind_some, Option.pure_def]
  rw [ratioW (by omega) r1 r2 r3 (h0 k)]

end MPS.ITebd
