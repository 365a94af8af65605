import Verif.Props.ITebdProps4

/-!
# C64: the infinite GHZ, cluster and AKLT states
-/

set_option linter.unusedSectionVars false
set_option linter.unusedSimpArgs false

namespace MPS.Props
open MPS Tensor ITebd

section Generic
variable {K : Type} [RCLike K]

/-- the window closed on its right end -/
noncomputable def closeR (psi : State K) (p : Int) (n : Nat) (f : Int → Tensor K) (a a' : Nat) : K :=
  ∑ b ∈ Finset.range ((psi.matrix (p + n)).dim 0), transferO (window psi p n) (winDims psi p n) (siteOps p n f) a a' b b

theorem closeR_zero (psi : State K) (p : Int) (f : Int → Tensor K) {a a' : Nat} (ha : a < (psi.matrix p).dim 0) :
    closeR psi p 0 f a a' = if a = a' then 1 else 0 := by
  unfold closeR
  simp only [Nat.cast_zero, add_zero, window, winDims, List.range_zero, List.map_nil, transferO, sumCfg, path_nil, siteOps, tensorOp,
    Finset.prod_range_zero, mul_one]
  rw [Finset.sum_eq_single_of_mem a (Finset.mem_range.2 ha) (fun b _ hne => by simp [Ne.symm hne])]
  by_cases h : a = a'
  · simp [h]
  · simp [h, Ne.symm h]

theorem closeR_succ {psi : State K} (h : Ok psi) (p : Int) (n : Nat) (f : Int → Tensor K) (a a' : Nat) :
    closeR psi p (n + 1) f a a' = ∑ c ∈ Finset.range ((psi.matrix (p + 1)).dim 0), ∑ c' ∈ Finset.range ((psi.matrix (p + 1)).dim 0),
      (∑ s ∈ Finset.range ((psi.matrix p).dim 1), ∑ t ∈ Finset.range ((psi.matrix p).dim 1),
        star ((siteT psi p).get [a, s, c]) * (f p).get [s, t] * (siteT psi p).get [a', t, c']) * closeR psi (p + 1) n f c c' := by
  unfold closeR
  rw [show p + ((n + 1 : Nat) : Int) = p + 1 + n by push_cast; ring, window_succ, winDims_succ]
  have e : ∀ b, transferO (siteT psi p :: window psi (p + 1) n) ((psi.matrix p).dim 1 :: winDims psi (p + 1) n) (siteOps p (n + 1) f) a a' b b =
      ∑ c ∈ Finset.range ((psi.matrix (p + 1)).dim 0), ∑ c' ∈ Finset.range ((psi.matrix (p + 1)).dim 0),
      (∑ s ∈ Finset.range ((psi.matrix p).dim 1), ∑ t ∈ Finset.range ((psi.matrix p).dim 1),
        star ((siteT psi p).get [a, s, c]) * (f p).get [s, t] * (siteT psi p).get [a', t, c']) *
        transferO (window psi (p + 1) n) (winDims psi (p + 1) n) (siteOps (p + 1) n f) c c' b b := by
    intro b
    have := transferOf_cons (As := window psi (p + 1) n) (ds := winDims psi (p + 1) n) (h.siteT_dims p) (fun k : Nat => f (p + k)) a a' b b
    unfold transferOf at this
    simp only [List.length_cons, winDims_length] at this
    unfold transferO siteOps
    rw [this]
    refine Finset.sum_congr rfl fun c _ => Finset.sum_congr rfl fun c' _ => ?_
    simp only [Nat.cast_zero, add_zero]
    congr 1
    refine sumCfg_congr fun s _ => sumCfg_congr fun t _ => ?_
    congr 3
    funext k
    congr 1
    push_cast
    ring
  simp only [e, Finset.mul_sum]
  rw [Finset.sum_comm]
  refine Finset.sum_congr rfl fun c _ => ?_
  rw [Finset.sum_comm]

theorem winForm_closeR {psi : State K} (h : Ok psi) (p : Int) (n : Nat) (f : Int → Tensor K) :
    winForm psi p n (siteOps p n f) = ∑ a ∈ Finset.range ((psi.matrix p).dim 0), (psi.leftVector p).get [a] ^ 2 * closeR psi p n f a a := by
  rw [winForm_transfer h]
  unfold closeR
  exact Finset.sum_congr rfl fun a _ => by rw [Finset.mul_sum]

end Generic

/-- a state with the same tensor on all sites and `λ = 1` -/
noncomputable def uniform (A : Tensor ℝ) : State ℝ := State.ofParts A ⟨[2], fun _ => 1⟩ A ⟨[2], fun _ => 1⟩ false

theorem uniform_ok {A : Tensor ℝ} {d : Nat} (hA : A.dims = [2, d, 2]) (hd : 0 < d) : Ok (uniform A) := by
  have h0 : A.dim 0 = 2 := by simp [dim, hA, nrm]
  have h2 : A.dim 2 = 2 := by simp [dim, hA, nrm]
  refine ⟨by simp [uniform, State.ofParts, hA], by simp [uniform, State.ofParts, hA], ?_, ?_, ?_, ?_, ?_, ?_, ?_, rfl, rfl⟩
  · intro x hx
    simp [uniform, State.ofParts, hA] at hx
    omega
  · intro x hx
    simp [uniform, State.ofParts, hA] at hx
    omega
  · simp [uniform, State.ofParts, h0, h2]
  · simp [uniform, State.ofParts, h0, h2]
  · simp [uniform, State.ofParts, h0, h2]
  · simp [uniform, State.ofParts, h0, h2]
  · intro a
    simp [uniform, State.ofParts]

theorem uniform_matrix (A : Tensor ℝ) (k : Int) : (uniform A).matrix k = A := by
  unfold State.matrix; split <;> rfl

theorem uniform_siteT (A : Tensor ℝ) (k : Int) (i : List Nat) : (siteT (uniform A) k).get i = A.get i := by
  unfold siteT
  rw [uniform_matrix]
  have : ∀ x, ((uniform A).rightVector k).get x = 1 := by
    intro x; unfold State.rightVector; split <;> rfl
  simp [scale, this]

theorem uniform_left (A : Tensor ℝ) (k : Int) (i : List Nat) : ((uniform A).leftVector k).get i = 1 := by
  unfold State.leftVector; split <;> rfl

noncomputable def ghzT : Tensor ℝ := setAt (setAt (zeros [2, 2, 2]) [1, 1, 1] 1) [0, 0, 0] 1

/-- **C64**, GHZ: the window of any sites `p, ..., p + n - 1` with the rest of the chain in the states `a` and `b` is the basis state in
which all spins are equal to `a = b`. -/
theorem C64_ghz : ∃ psi, ghzInf = some psi ∧ Ok psi ∧ ∀ (p : Int) (n : Nat) (a b : Nat), a < 2 → b < 2 →
    winDims psi p n = List.replicate n 2 ∧ ∀ s, IsCfg (winDims psi p n) s →
      winAmp psi p n a b s = if s = List.replicate n a ∧ a = b then 1 else 0 := by
  refine ⟨uniform ghzT, ?_, uniform_ok (d := 2) rfl (by norm_num), ?_⟩
  · unfold ghzInf State.new
    exact if_pos ⟨rfl, rfl, rfl, rfl, rfl⟩
  · intro p n a b ha hb
    unfold winAmp
    rw [uniform_left, ]
    simp only [one_mul]
    induction n generalizing p a with
    | zero =>
      refine ⟨rfl, fun s hs => ?_⟩
      cases hs
      simp [window, path_nil]
    | succ n ih =>
      have w : winDims (uniform ghzT) p (n + 1) = List.replicate (n + 1) 2 := by
        rw [winDims_succ, uniform_matrix, (ih (p + 1) a ha).1]; rfl
      refine ⟨w, fun s hs => ?_⟩
      rw [w, List.replicate_succ] at hs
      cases hs with
      | @cons x _ s _ h1 h2 =>
        rw [window_succ, path_cons]
        have d2 : (siteT (uniform ghzT) p).dim 2 = 2 := by
          have := (uniform_ok (A := ghzT) (d := 2) rfl (by norm_num)).siteT_dims p
          simp [dim, this, nrm, uniform_matrix]
          rfl
        rw [d2]
        simp only [Finset.sum_range_succ, Finset.sum_range_zero, zero_add, uniform_siteT]
        have hs' : IsCfg (winDims (uniform ghzT) (p + 1) n) s := by rw [(ih (p + 1) a ha).1]; exact h2
        rw [(ih (p + 1) 0 (by norm_num)).2 s hs', (ih (p + 1) 1 (by norm_num)).2 s hs']
        simp only [ghzT, setAt, zeros, List.replicate_succ]
        have h1 : x < 2 := h1
        interval_cases a <;> interval_cases x <;> simp

noncomputable def clusterT : Tensor ℝ :=
  setAt (setAt (setAt (setAt (zeros [2, 2, 2]) [0, 1, 0] (1 / Real.sqrt 2)) [0, 0, 1] (1 / Real.sqrt 2)) [0, 0, 0] (1 / Real.sqrt 2))
    [1, 1, 1] (-(1 / Real.sqrt 2))

noncomputable def pauliZ : Tensor ℝ := ⟨[2, 2], fun i => if i = [0, 0] then 1 else if i = [1, 1] then -1 else 0⟩
noncomputable def pauliX : Tensor ℝ := ⟨[2, 2], fun i => if i = [0, 1] ∨ i = [1, 0] then 1 else 0⟩

/-- the stabilizer `Z_0 X_1 Z_2` of the cluster state -/
noncomputable def stabilizer (k : Int) : Tensor ℝ := if k = 1 then pauliX else pauliZ

/-- **C64 is violated** by the cluster state: in the window of three sites the stabilizer `Z X Z`, which is 1 in the cluster state, has the
expected value 1/8. -/
theorem C64_cluster_violated : ∃ psi, clusterInf = some psi ∧ Ok psi ∧ winExpect psi 0 3 stabilizer = 1 / 8 := by
  have hok : Ok (uniform clusterT) := uniform_ok (d := 2) rfl (by norm_num)
  refine ⟨uniform clusterT, ?_, hok, ?_⟩
  · unfold clusterInf State.new
    exact if_pos ⟨rfl, rfl, rfl, rfl, rfl⟩
  · have hv : (1 / Real.sqrt 2) * (1 / Real.sqrt 2) = 1 / 2 := by
      rw [div_mul_div_comm, Real.mul_self_sqrt (by norm_num)]; norm_num
    generalize hgv : 1 / Real.sqrt 2 = v at hv
    unfold winExpect
    rw [winForm_closeR hok, winForm_closeR hok]
    have m0 : ∀ k, ((uniform clusterT).matrix k).dim 0 = 2 := fun k => by rw [uniform_matrix]; rfl
    have m1 : ∀ k, ((uniform clusterT).matrix k).dim 1 = 2 := fun k => by rw [uniform_matrix]; rfl
    have hz : ∀ p f a a', a < 2 → closeR (uniform clusterT) p 0 f a a' = if a = a' then 1 else 0 :=
      fun p f a a' ha => closeR_zero _ p f (by rw [m0]; exact ha)
    have g : ∀ i, clusterT.get i = if i = [1, 1, 1] then -v else if i = [0, 0, 0] then v else if i = [0, 0, 1] then v else
        if i = [0, 1, 0] then v else 0 := by
      intro i; simp [clusterT, setAt, zeros, ← hgv]
    have h1 : ∀ f a a', a < 2 → a' < 2 → closeR (uniform clusterT) (0 + 1 + 1) 1 f a a' = ∑ c ∈ Finset.range 2, ∑ s ∈ Finset.range 2, ∑ t ∈ Finset.range 2,
        clusterT.get [a, s, c] * (f 2).get [s, t] * clusterT.get [a', t, c] := by
      intro f a a' ha ha'
      rw [closeR_succ hok, m0, m1]
      refine Finset.sum_congr rfl fun c hc => ?_
      rw [Finset.sum_eq_single_of_mem c hc (fun c' hc' hne => by rw [hz _ _ _ _ (Finset.mem_range.1 hc), if_neg (Ne.symm hne), mul_zero]),
        hz _ _ _ _ (Finset.mem_range.1 hc), if_pos rfl, mul_one]
      simp only [uniform_siteT]
      rfl
    have s1 : ∀ a a', a < 2 → a' < 2 → closeR (uniform clusterT) (0 + 1 + 1) 1 stabilizer a a' = if a = 0 ∧ a' = 0 then 1 / 2 else if a = 1 ∧ a' = 1 then - (1 / 2) else 0 := by
      intro a a' ha ha'
      rw [h1 _ a a' ha ha']
      interval_cases a <;> interval_cases a' <;> simp [Finset.sum_range_succ, g, stabilizer, pauliZ] <;> linarith
    have o1 : ∀ a a', a < 2 → a' < 2 → closeR (uniform clusterT) (0 + 1 + 1) 1 (ones (uniform clusterT)) a a' = if a = 0 ∧ a' = 0 then 3 / 2 else if a = 1 ∧ a' = 1 then 1 / 2 else 0 := by
      intro a a' ha ha'
      rw [h1 _ a a' ha ha']
      interval_cases a <;> interval_cases a' <;> simp [Finset.sum_range_succ, g, ones, m1, eye] <;> linarith
    have s2 : ∀ a a', a < 2 → a' < 2 → closeR (uniform clusterT) (0 + 1) 2 stabilizer a a' =
        if a = 0 ∧ a' = 0 then 1 / 2 else if a = 1 ∧ a' = 1 then 0 else 1 / 4 := by
      intro a a' ha ha'
      rw [closeR_succ hok, m0, m1]
      simp only [Finset.sum_range_succ, Finset.sum_range_zero, zero_add, uniform_siteT]
      simp only [zero_add] at s1
      rw [s1 0 0 (by norm_num) (by norm_num), s1 0 1 (by norm_num) (by norm_num), s1 1 0 (by norm_num) (by norm_num), s1 1 1 (by norm_num) (by norm_num)]
      interval_cases a <;> interval_cases a' <;> simp [g, stabilizer, pauliX] <;> linarith
    have o2 : ∀ a a', a < 2 → a' < 2 → closeR (uniform clusterT) (0 + 1) 2 (ones (uniform clusterT)) a a' =
        if a = 0 ∧ a' = 0 then 7 / 4 else if a = 1 ∧ a' = 1 then 1 / 4 else 0 := by
      intro a a' ha ha'
      rw [closeR_succ hok, m0, m1]
      simp only [Finset.sum_range_succ, Finset.sum_range_zero, zero_add, uniform_siteT]
      simp only [zero_add] at o1
      rw [o1 0 0 (by norm_num) (by norm_num), o1 0 1 (by norm_num) (by norm_num), o1 1 0 (by norm_num) (by norm_num), o1 1 1 (by norm_num) (by norm_num)]
      interval_cases a <;> interval_cases a' <;> simp [g, ones, m1, eye] <;> linarith
    have s3 : ∑ a ∈ Finset.range 2, closeR (uniform clusterT) 0 3 stabilizer a a = 1 / 4 := by
      simp only [Finset.sum_range_succ, Finset.sum_range_zero, zero_add]
      rw [closeR_succ hok, closeR_succ hok, m0, m1]
      simp only [Finset.sum_range_succ, Finset.sum_range_zero, zero_add, uniform_siteT]
      simp only [zero_add] at s2
      rw [s2 0 0 (by norm_num) (by norm_num), s2 0 1 (by norm_num) (by norm_num), s2 1 0 (by norm_num) (by norm_num), s2 1 1 (by norm_num) (by norm_num)]
      simp [g, stabilizer, pauliZ]
      linarith
    have o3 : ∑ a ∈ Finset.range 2, closeR (uniform clusterT) 0 3 (ones (uniform clusterT)) a a = 2 := by
      simp only [Finset.sum_range_succ, Finset.sum_range_zero, zero_add]
      rw [closeR_succ hok, closeR_succ hok, m0, m1]
      simp only [Finset.sum_range_succ, Finset.sum_range_zero, zero_add, uniform_siteT]
      simp only [zero_add] at o2
      rw [o2 0 0 (by norm_num) (by norm_num), o2 0 1 (by norm_num) (by norm_num), o2 1 0 (by norm_num) (by norm_num), o2 1 1 (by norm_num) (by norm_num)]
      simp [g, ones, m1, eye]
      linarith
    simp only [uniform_left, one_pow, one_mul, m0]
    rw [s3, o3]
    norm_num

/-! ### The AKLT state -/

noncomputable def akltT : Tensor ℝ :=
  setAt (setAt (setAt (setAt (zeros [2, 3, 2]) [0, 0, 1] (Real.sqrt (2 / 3))) [0, 1, 0] (-Real.sqrt (1 / 3)))
    [1, 1, 1] (Real.sqrt (1 / 3))) [1, 2, 0] (-Real.sqrt (2 / 3))

theorem aklt_ok : Ok (uniform akltT) := uniform_ok (d := 3) rfl (by norm_num)

theorem aklt_def : akltInf = some (uniform akltT) := by
  unfold akltInf State.new
  exact if_pos ⟨rfl, rfl, rfl, rfl, rfl⟩

theorem aklt_get {x y : ℝ} (hx : x = Real.sqrt (2 / 3)) (hy : y = Real.sqrt (1 / 3)) (i : List Nat) :
    akltT.get i = if i = [1, 2, 0] then -x else if i = [1, 1, 1] then y else if i = [0, 1, 0] then -y else if i = [0, 0, 1] then x else 0 := by
  simp [akltT, setAt, zeros, hx, hy]

theorem aklt_xy {x y : ℝ} (hx : x = Real.sqrt (2 / 3)) (hy : y = Real.sqrt (1 / 3)) : x * x = 2 / 3 ∧ y * y = 1 / 3 :=
  ⟨by rw [hx, Real.mul_self_sqrt (by norm_num)], by rw [hy, Real.mul_self_sqrt (by norm_num)]⟩

/-- the part of the wave function of two spins 1 (`0, 1, 2` stand for `m = 1, 0, -1`) with total spin 2 vanishes: the wave function is
orthogonal to the five states of spin 2 -/
def NoSpinTwo (φ : Nat → Nat → ℝ) : Prop :=
  φ 0 0 = 0 ∧ φ 0 1 + φ 1 0 = 0 ∧ φ 0 2 + 2 * φ 1 1 + φ 2 0 = 0 ∧ φ 1 2 + φ 2 1 = 0 ∧ φ 2 2 = 0

/-- **C64**, AKLT: in every window, no two neighbouring spins are ever in a state of total spin 2 - which makes it a ground state of the
AKLT Hamiltonian, the sum of the projectors on spin 2 of the pairs of neighbours -/
theorem C64_aklt : ∃ psi, akltInf = some psi ∧ Ok psi ∧ ∀ (p : Int) (l r : Nat) (a b : Nat), a < 2 → b < 2 →
    winDims psi p (l + 2 + r) = List.replicate (l + 2 + r) 3 ∧
    ∀ s t, IsCfg (List.replicate l 3) s → IsCfg (List.replicate r 3) t →
      NoSpinTwo fun i j => winAmp psi p (l + 2 + r) a b (s ++ [i, j] ++ t) := by
  refine ⟨uniform akltT, aklt_def, aklt_ok, fun p l r a b ha hb => ?_⟩
  have wd : ∀ (n : Nat) (q : Int), winDims (uniform akltT) q n = List.replicate n 3 := by
    intro n q
    unfold winDims
    refine List.ext_getElem (by simp) fun k h1 h2 => ?_
    simp [uniform_matrix]
    rfl
  refine ⟨wd _ _, fun s t hs ht => ?_⟩
  obtain ⟨x, hx⟩ : ∃ x, x = Real.sqrt (2 / 3) := ⟨_, rfl⟩
  obtain ⟨y, hy⟩ : ∃ y, y = Real.sqrt (1 / 3) := ⟨_, rfl⟩
  obtain ⟨hxx, hyy⟩ := aklt_xy hx hy
  have d2 : ∀ q, (siteT (uniform akltT) q).dim 2 = 2 := by
    intro q
    have := aklt_ok.siteT_dims q
    simp [dim, this, nrm, uniform_matrix]
    rfl
  have d0 : ∀ q, ((uniform akltT).matrix q).dim 0 = 2 := fun q => by rw [uniform_matrix]; rfl
  have e : ∀ i j, i < 3 → j < 3 → winAmp (uniform akltT) p (l + 2 + r) a b (s ++ [i, j] ++ t) =
      ∑ c ∈ Finset.range 2, path (window (uniform akltT) p l) s a c * ∑ c' ∈ Finset.range 2,
        (∑ m ∈ Finset.range 2, akltT.get [c, i, m] * akltT.get [m, j, c']) * path (window (uniform akltT) (p + l + 1 + 1) r) t c' b := by
    intro i j hi hj
    unfold winAmp
    rw [uniform_left, one_mul, show l + 2 + r = l + (r + 2) by ring, window_add, window_succ, window_succ, List.append_assoc]
    rw [path_append (aklt_ok.window_wf l p) (by rw [hs.length_eq]; simp [window]) (by rw [d0]; exact ha), d0]
    refine Finset.sum_congr rfl fun c _ => ?_
    congr 1
    simp only [List.cons_append, List.nil_append, path_cons, d2, uniform_siteT, Finset.mul_sum, Finset.sum_mul]
    rw [Finset.sum_comm]
    refine Finset.sum_congr rfl fun c' _ => Finset.sum_congr rfl fun m _ => by ring
  unfold NoSpinTwo
  beta_reduce
  rw [e 0 0 (by norm_num) (by norm_num), e 0 1 (by norm_num) (by norm_num), e 1 0 (by norm_num) (by norm_num), e 0 2 (by norm_num) (by norm_num),
    e 1 1 (by norm_num) (by norm_num), e 2 0 (by norm_num) (by norm_num), e 1 2 (by norm_num) (by norm_num), e 2 1 (by norm_num) (by norm_num),
    e 2 2 (by norm_num) (by norm_num)]
  simp only [Finset.sum_range_succ, Finset.sum_range_zero, zero_add]
  simp only [aklt_get hx hy]
  refine ⟨by simp, ?_, ?_, ?_, by simp⟩
  · simp; ring
  · simp
    have h2 : x * x = 2 * (y * y) := by rw [hxx, hyy]; norm_num
    linear_combination (-(path (window (uniform akltT) p l) s a 0 * path (window (uniform akltT) (p + l + 1 + 1) r) t 0 b) -
      path (window (uniform akltT) p l) s a 1 * path (window (uniform akltT) (p + l + 1 + 1) r) t 1 b) * h2
  · simp; ring

/-- the AKLT state is right-canonical at both bonds -/
theorem aklt_right : RightCanonical (uniform akltT) := by
  intro k a ha a' ha'
  obtain ⟨x, hx⟩ : ∃ x, x = Real.sqrt (2 / 3) := ⟨_, rfl⟩
  obtain ⟨y, hy⟩ : ∃ y, y = Real.sqrt (1 / 3) := ⟨_, rfl⟩
  obtain ⟨hxx, hyy⟩ := aklt_xy hx hy
  have d0 : ∀ q, ((uniform akltT).matrix q).dim 0 = 2 := fun q => by rw [uniform_matrix]; rfl
  have d1 : ∀ q, ((uniform akltT).matrix q).dim 1 = 3 := fun q => by rw [uniform_matrix]; rfl
  have d2 : ∀ q, (siteT (uniform akltT) q).dim 2 = 2 := by
    intro q
    have := aklt_ok.siteT_dims q
    simp [dim, this, nrm, uniform_matrix]
    rfl
  rw [d0] at ha ha' ⊢
  rw [window_succ, winDims_succ, d1]
  simp only [window, winDims, List.range_zero, List.map_nil, sumCfg_cons, sumCfg, path_cons, path_nil, d2, uniform_siteT]
  simp only [Finset.sum_range_succ, Finset.sum_range_zero, zero_add, aklt_get hx hy]
  interval_cases a <;> interval_cases a' <;> simp <;> linarith

/-- the AKLT state is left-canonical at both bonds -/
theorem aklt_left : LeftCanonical (uniform akltT) := by
  intro k a ha a' ha'
  obtain ⟨x, hx⟩ : ∃ x, x = Real.sqrt (2 / 3) := ⟨_, rfl⟩
  obtain ⟨y, hy⟩ : ∃ y, y = Real.sqrt (1 / 3) := ⟨_, rfl⟩
  obtain ⟨hxx, hyy⟩ := aklt_xy hx hy
  have d0 : ∀ q, ((uniform akltT).matrix q).dim 0 = 2 := fun q => by rw [uniform_matrix]; rfl
  have d1 : ∀ q, ((uniform akltT).matrix q).dim 1 = 3 := fun q => by rw [uniform_matrix]; rfl
  have d2 : ∀ q, (siteT (uniform akltT) q).dim 2 = 2 := by
    intro q
    have := aklt_ok.siteT_dims q
    simp [dim, this, nrm, uniform_matrix]
    rfl
  rw [d0] at ha ha'
  rw [d0, winDims_succ, d1]
  simp only [winAmp, uniform_left]
  rw [window_succ]
  simp only [window, winDims, List.range_zero, List.map_nil, sumCfg_cons, sumCfg, path_cons, path_nil, d2, uniform_siteT]
  simp only [Finset.sum_range_succ, Finset.sum_range_zero, zero_add, aklt_get hx hy]
  interval_cases a <;> interval_cases a' <;> simp <;> linarith

noncomputable def spinZ : Tensor ℝ := ⟨[3, 3], fun i => if i = [0, 0] then 1 else if i = [2, 2] then -1 else 0⟩
/-- `exp(i π S_z)` -/
noncomputable def expSpinZ : Tensor ℝ := ⟨[3, 3], fun i => if i = [0, 0] then -1 else if i = [1, 1] then 1 else if i = [2, 2] then -1 else 0⟩

theorem aklt_close (f : Int → Tensor ℝ) {i j : Int} (hij : i < j) (hi : f i = spinZ) (hj : f j = spinZ)
    (hm : ∀ k, i < k → k < j → f k = expSpinZ) (ho : ∀ k, k < i ∨ j < k → f k = eye 3) (n : Nat) : ∀ p : Int, ∀ a < 2, ∀ a' < 2,
    j < p + n → closeR (uniform akltT) p n f a a' = if a = a' then
      (if j < p then 1 else if i < p then (if a = 0 then 2 / 3 else - (2 / 3)) else - (4 / 9)) else 0 := by
  obtain ⟨x, hx⟩ : ∃ x, x = Real.sqrt (2 / 3) := ⟨_, rfl⟩
  obtain ⟨y, hy⟩ : ∃ y, y = Real.sqrt (1 / 3) := ⟨_, rfl⟩
  obtain ⟨hxx, hyy⟩ := aklt_xy hx hy
  have d0 : ∀ q, ((uniform akltT).matrix q).dim 0 = 2 := fun q => by rw [uniform_matrix]; rfl
  have d1 : ∀ q, ((uniform akltT).matrix q).dim 1 = 3 := fun q => by rw [uniform_matrix]; rfl
  induction n with
  | zero =>
    intro p a ha a' ha' hjp
    have hjp : j < p := by simpa using hjp
    rw [closeR_zero _ _ _ (by rw [d0]; exact ha)]
    simp only [hjp, if_true]
  | succ n ih =>
    intro p a ha a' ha' hjp
    rw [closeR_succ aklt_ok, d0, d1]
    have hjp' : j < p + 1 + n := by push_cast at hjp; omega
    simp only [Finset.sum_range_succ, Finset.sum_range_zero, zero_add, uniform_siteT]
    rw [ih (p + 1) 0 (by norm_num) 0 (by norm_num) hjp', ih (p + 1) 0 (by norm_num) 1 (by norm_num) hjp', ih (p + 1) 1 (by norm_num) 0 (by norm_num) hjp',
      ih (p + 1) 1 (by norm_num) 1 (by norm_num) hjp']
    simp only [aklt_get hx hy]
    rcases lt_trichotomy j p with c | c | c
    · rw [ho p (Or.inr c)]
      simp only [show j < p + 1 by omega, c, if_true]
      interval_cases a <;> interval_cases a' <;> simp [eye] <;> linarith
    · subst c
      rw [hj]
      simp only [show j < j + 1 by omega, if_true, lt_irrefl, hij, if_false]
      interval_cases a <;> interval_cases a' <;> simp [spinZ] <;> linarith
    · rcases lt_trichotomy i p with c' | c' | c'
      · rw [hm p c' c]
        simp only [show ¬ j < p + 1 by omega, show ¬ j < p by omega, if_false, c', if_true, show i < p + 1 by omega]
        interval_cases a <;> interval_cases a' <;> simp [expSpinZ] <;> linarith
      · subst c'
        rw [hi]
        simp only [show ¬ j < i + 1 by omega, show ¬ j < i by omega, if_false, lt_irrefl, show i < i + 1 by omega, if_true]
        interval_cases a <;> interval_cases a' <;> simp [spinZ] <;> linarith
      · rw [ho p (Or.inl c')]
        simp only [show ¬ j < p + 1 by omega, show ¬ j < p by omega, if_false, show ¬ i < p + 1 by omega, show ¬ i < p by omega]
        interval_cases a <;> interval_cases a' <;> simp [eye] <;> linarith

/-- **C64**, AKLT: the string order parameter of `S_z` is `-4/9` at all distances, in every window which contains the two sites -/
theorem C64_aklt_string_order {i j : Int} (hij : i < j) (p : Int) (n : Nat) (hp : p ≤ i) (hn : j < p + n) :
    winExpect (uniform akltT) p n (placed (uniform akltT) spinZ i expSpinZ spinZ j) = - (4 / 9) := by
  have d0 : ∀ q, ((uniform akltT).matrix q).dim 0 = 2 := fun q => by rw [uniform_matrix]; rfl
  have d1 : ∀ q, ((uniform akltT).matrix q).dim 1 = 3 := fun q => by rw [uniform_matrix]; rfl
  have hz : orOne 3 spinZ = spinZ := rfl
  have he : orOne 3 expSpinZ = expSpinZ := rfl
  have h1 := aklt_close (placed (uniform akltT) spinZ i expSpinZ spinZ j) hij (by simp [placed, d1, hz]) (by simp [placed, d1, hz])
    (fun k h1 h2 => by simp [placed, d1, he, h1, h2, h1.ne', h2.ne])
    (fun k hk => by
      unfold placed
      rw [if_neg (by omega), if_neg (by omega), if_neg (by omega)]
      simp [ones, d1]) n p
  have h2 : winForm (uniform akltT) p n (siteOps p n (ones (uniform akltT))) = 2 := by
    rw [winForm_ones aklt_ok]
    have := winForm_widen aklt_ok p 0 0 n (aklt_left.block aklt_ok 0 p) (aklt_right.block aklt_ok n _) oneElt
    rw [winForm_congr _ _ _ (widen_one (uniform akltT) p 0 0 n)] at this
    rw [show 0 + 0 + n = n by omega] at this
    rw [this, winForm_transfer aklt_ok]
    simp [d0, uniform_left, transferO, window, winDims, sumCfg, path_nil, oneElt]
    norm_num
    exact_mod_cast (by decide : ((Finset.range 2).filter (fun x => x ≤ 1)).card = 2)
  unfold winExpect
  rw [h2, winForm_closeR aklt_ok, d0]
  simp only [Finset.sum_range_succ, Finset.sum_range_zero, zero_add, uniform_left, one_pow, one_mul]
  rw [h1 0 (by norm_num) 0 (by norm_num) hn, h1 1 (by norm_num) 1 (by norm_num) hn]
  simp only [if_true, show ¬ j < p by omega, show ¬ i < p by omega, if_false]
  norm_num

/-- the AKLT state flagged as canonical, which it is (`aklt_right`, `aklt_left`) -/
noncomputable def akltC : State ℝ := { uniform akltT with canonical := true }

theorem akltC_ok : Ok akltC := ⟨aklt_ok.1, aklt_ok.2, aklt_ok.3, aklt_ok.4, aklt_ok.5, aklt_ok.6, aklt_ok.7, aklt_ok.8, aklt_ok.9, rfl, rfl⟩

theorem akltC_acts (k : Int) {o : Tensor ℝ} (h : o.dims = [3, 3]) : Acts akltC k o := by
  right
  rw [h]
  have : (akltC.matrix k).dim 1 = 3 := by
    show ((uniform akltT).matrix k).dim 1 = 3
    rw [uniform_matrix]; rfl
  rw [this]

/-- a case which meets the hypotheses of **C62**, **C84** and **C85**: the string order of the AKLT state, computed by `string_order`, is
`-4/9` between any two sites -/
theorem C62_example (canon : State ℝ → State ℝ) {i j : Int} (hij : i ≠ j) : stringOrder canon akltC spinZ i expSpinZ spinZ j = - (4 / 9) := by
  have key : ∀ {i j : Int}, i < j → stringOrder canon akltC spinZ i expSpinZ spinZ j = - (4 / 9) := by
    intro i j h
    obtain ⟨h1, h2, h3⟩ := C62_string_order canon akltC akltC_ok h (akltC_acts i (o := spinZ) rfl) (akltC_acts j (o := spinZ) rfl)
      (fun k _ _ => akltC_acts k (o := expSpinZ) rfl)
    rw [h3]
    exact C64_aklt_string_order h _ _ h1 h2
  rcases lt_or_gt_of_ne hij with h | h
  · exact key h
  · rw [C62_swap canon akltC spinZ expSpinZ spinZ hij]; exact key h

/-- and the list of string orders returned by the other function -/
theorem C85_example (canon : State ℝ → State ℝ) (N n : Nat) (h : n < N) (h0 : 0 < n) :
    (stringOrderMany canon akltC spinZ expSpinZ spinZ N).getD n 0 = - (4 / 9) := by
  have hd : ∀ k : Int, (akltC.matrix k).dim 1 = 3 := fun k => by
    show ((uniform akltT).matrix k).dim 1 = 3
    rw [uniform_matrix]; rfl
  have := C85_many_partial canon akltC akltC_ok aklt_right aklt_left (Oi := spinZ) (Om := expSpinZ) (Oj := spinZ) N
    (by show spinZ.dims = [(akltC.matrix 0).dim 1, (akltC.matrix 0).dim 1]; rw [hd]; rfl)
    (fun n _ => by show spinZ.dims = [(akltC.matrix n).dim 1, (akltC.matrix n).dim 1]; rw [hd]; rfl) (fun n _ _ => akltC_acts n (o := expSpinZ) rfl)
  rw [this]
  simp only [List.getD_eq_getElem?_getD, List.getElem?_map, List.getElem?_range h, Option.map_some, Option.getD_some]
  exact C62_example canon (by omega)

end MPS.Props
