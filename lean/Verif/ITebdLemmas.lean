import Verif.ITebdSpec
import Verif.TensorLemmas
import Verif.MPOBuild

/-!
# Propagation through a window
-/

set_option linter.unusedSectionVars false
set_option linter.unusedSimpArgs false

namespace MPS.ITebd
open MPS Tensor
variable {K : Type} [RCLike K]

theorem propagateRight_spec {v A op : Tensor K} {D d E : Nat} (hv : v.dims = [D, D]) (hA : A.dims = [D, d, E])
    (hD : 0 < D) (hd : 0 < d) (hop : op.isEmpty = true ∨ op.dims = [d, d]) :
    (propagateRight v A op).dims = [E, E] ∧ ∀ b < E, ∀ b' < E, (propagateRight v A op).get [b, b'] =
      ∑ a ∈ Finset.range D, ∑ a' ∈ Finset.range D, v.get [a, a'] * ∑ s ∈ Finset.range d, ∑ t ∈ Finset.range d,
        star (A.get [a, s, b]) * (orOne d op).get [s, t] * A.get [a', t, b'] := by
  set w := fold v (-1) A 0 with hw
  have hwd : w.dims = [D, d, E] := by rw [hw]; simp [fold, hv, hA, nrm]
  have hwg : ∀ a i b, w.get [a, i, b] = ∑ a' ∈ Finset.range D, v.get [a, a'] * A.get [a', i, b] := by
    intro a i b; rw [hw]; simp [fold, hv, hA, nrm]
  set u := if op.isEmpty then w else foldin op (-1) w 1 with hu
  have hud : u.dims = [D, d, E] := by
    rw [hu]; split
    · exact hwd
    · next h => rw [Bool.not_eq_true] at h; simp only [h, Bool.false_eq_true, false_or] at hop; simp [foldin, hop, hwd, nrm]
  have hug : ∀ a i b, i < d → u.get [a, i, b] = ∑ t ∈ Finset.range d, (orOne d op).get [i, t] * w.get [a, t, b] := by
    intro a i b hi; rw [hu, orOne]; split
    · simp [eye, hi]
    · next h => rw [Bool.not_eq_true] at h; simp only [h, Bool.false_eq_true, false_or] at hop; simp [foldin, hop, hwd, nrm]
  have hu0 : u.dim 0 = D := by simp [dim, hud, nrm]
  have hu1 : u.dim 1 = d := by simp [dim, hud, nrm]
  have hu2 : u.dim 2 = E := by simp [dim, hud, nrm]
  have hp : propagateRight v A op = foldc (reshape A [D * d, E]) 0 (reshape u [D * d, E]) 0 := by
    show foldc (reshape A [u.dim 0 * u.dim 1, u.dim 2]) 0 (reshape u [u.dim 0 * u.dim 1, u.dim 2]) 0 = _
    rw [hu0, hu1, hu2]
  rw [hp]
  have hr : ∀ (X : Tensor K), X.dims = [D, d, E] → ∀ a < D, ∀ i < d, ∀ b < E, (reshape X [D * d, E]).get [a + D * i, b] = X.get [a, i, b] := by
    intro X hX a ha i hi b hb
    apply reshape_get
    · rw [hX]; exact List.Forall₂.cons ha (List.Forall₂.cons hi (List.Forall₂.cons hb List.Forall₂.nil))
    · rw [hX]; simp [flat]; ring
  refine ⟨by simp [foldc, fold, conj, reshape, nrm], fun b hb b' hb' => ?_⟩
  have e1 : (foldc (reshape A [D * d, E]) 0 (reshape u [D * d, E]) 0).get [b, b'] =
      ∑ n ∈ Finset.range (D * d), star ((reshape A [D * d, E]).get [n, b]) * (reshape u [D * d, E]).get [n, b'] := by
    simp [foldc, fold, conj, nrm, reshape_dims]
  rw [e1, sum_range_mul]
  have e2 : ∀ a ∈ Finset.range D, ∀ i ∈ Finset.range d, star ((reshape A [D * d, E]).get [a + D * i, b]) * (reshape u [D * d, E]).get [a + D * i, b'] =
      star (A.get [a, i, b]) * ∑ t ∈ Finset.range d, (orOne d op).get [i, t] * ∑ a' ∈ Finset.range D, v.get [a, a'] * A.get [a', t, b'] := by
    intro a ha i hi
    have ha := Finset.mem_range.1 ha
    have hi := Finset.mem_range.1 hi
    rw [hr A hA a ha i hi b hb, hr u hud a ha i hi b' hb', hug a i b' hi]
    simp only [hwg]
  rw [Finset.sum_congr rfl fun i hi => Finset.sum_congr rfl fun a ha => e2 a ha i hi, Finset.sum_comm]
  refine Finset.sum_congr rfl fun a _ => ?_
  simp only [Finset.mul_sum]
  rw [Finset.sum_congr rfl fun s _ => Finset.sum_comm, Finset.sum_comm]
  exact Finset.sum_congr rfl fun a' _ => Finset.sum_congr rfl fun s _ => Finset.sum_congr rfl fun t _ => by ring

/-- successive propagation through a list of tensors with operators -/
def chainR (v : Tensor K) (l : List (Tensor K × Tensor K)) : Tensor K := l.foldl (fun v x => propagateRight v x.1 x.2) v

theorem tensorOp_succ (n : Nat) (f : Nat → Tensor K) (i j : Nat) (s t : List Nat) :
    tensorOp (n + 1) f (i :: s) (j :: t) = (f 0).get [i, j] * tensorOp n (fun k => f (k + 1)) s t := by
  unfold tensorOp
  rw [Finset.prod_range_succ', mul_comm]
  simp

/-- the matrix element of a list of tensors and operators -/
def transferOf (As : List (Tensor K)) (ds : List Nat) (f : Nat → Tensor K) (a a' b b' : Nat) : K :=
  sumCfg ds fun s => sumCfg ds fun t => star (path As s a b) * tensorOp ds.length f s t * path As t a' b'

theorem transferOf_cons {A : Tensor K} {As : List (Tensor K)} {d D c : Nat} {ds : List Nat} (hA : A.dims = [D, d, c]) (f : Nat → Tensor K)
    (a a' b b' : Nat) : transferOf (A :: As) (d :: ds) f a a' b b' =
      ∑ c1 ∈ Finset.range c, ∑ c2 ∈ Finset.range c, (∑ s ∈ Finset.range d, ∑ t ∈ Finset.range d,
        star (A.get [a, s, c1]) * (f 0).get [s, t] * A.get [a', t, c2]) * transferOf As ds (fun k => f (k + 1)) c1 c2 b b' := by
  have h2 : A.dim 2 = c := dim2_of hA
  unfold transferOf
  have e : ∀ s t S T, star (path (A :: As) (s :: S) a b) * tensorOp (ds.length + 1) f (s :: S) (t :: T) * path (A :: As) (t :: T) a' b' =
      ∑ c1 ∈ Finset.range c, ∑ c2 ∈ Finset.range c, (star (A.get [a, s, c1]) * (f 0).get [s, t] * A.get [a', t, c2]) *
        (star (path As S c1 b) * tensorOp ds.length (fun k => f (k + 1)) S T * path As T c2 b') := by
    intro s t S T
    rw [tensorOp_succ, path_cons, path_cons, h2, star_sum, Finset.sum_mul, Finset.sum_mul]
    refine Finset.sum_congr rfl fun c1 _ => ?_
    rw [Finset.mul_sum]
    exact Finset.sum_congr rfl fun c2 _ => by rw [star_mul']; ring
  simp only [sumCfg_cons, List.length_cons, e]
  simp only [sumCfg_sum, sumCfg_mul_left]
  rw [Finset.sum_congr rfl fun s _ => Finset.sum_comm, Finset.sum_comm]
  refine Finset.sum_congr rfl fun c1 _ => ?_
  rw [Finset.sum_congr rfl fun s _ => Finset.sum_comm, Finset.sum_comm]
  refine Finset.sum_congr rfl fun c2 _ => ?_
  simp only [Finset.sum_mul]

theorem sum_swap4 (c D : Nat) (V : Nat → Nat → K) (W : Nat → Nat → Nat → Nat → K) (T : Nat → Nat → K) :
    ∑ c1 ∈ Finset.range c, ∑ c2 ∈ Finset.range c, (∑ a ∈ Finset.range D, ∑ a' ∈ Finset.range D, V a a' * W a a' c1 c2) * T c1 c2 =
    ∑ a ∈ Finset.range D, ∑ a' ∈ Finset.range D, V a a' * ∑ c1 ∈ Finset.range c, ∑ c2 ∈ Finset.range c, W a a' c1 c2 * T c1 c2 := by
  simp only [Finset.mul_sum, Finset.sum_mul]
  rw [Finset.sum_congr rfl fun c1 _ => Finset.sum_comm, Finset.sum_comm]
  refine Finset.sum_congr rfl fun a _ => ?_
  rw [Finset.sum_congr rfl fun c1 _ => Finset.sum_comm, Finset.sum_congr rfl fun c1 _ => Finset.sum_congr rfl fun a' _ => rfl, Finset.sum_comm]
  exact Finset.sum_congr rfl fun a' _ => Finset.sum_congr rfl fun c1 _ => Finset.sum_congr rfl fun c2 _ => by ring

theorem chainR_spec : ∀ (l : List (Tensor K × Tensor K)) (ds : List Nat) {v : Tensor K} {D E : Nat}, v.dims = [D, D] →
    WF D (l.map Prod.fst) ds E → (∀ k < l.length, (l.getD k (Tensor.empty, Tensor.empty)).2.isEmpty = true ∨
      (l.getD k (Tensor.empty, Tensor.empty)).2.dims = [ds.getD k 0, ds.getD k 0]) →
    (chainR v l).dims = [E, E] ∧ ∀ b < E, ∀ b' < E, (chainR v l).get [b, b'] =
      ∑ a ∈ Finset.range D, ∑ a' ∈ Finset.range D, v.get [a, a'] *
        transferOf (l.map Prod.fst) ds (fun k => orOne (ds.getD k 0) (l.getD k (Tensor.empty, Tensor.empty)).2) a a' b b' := by
  intro l
  induction l with
  | nil =>
    intro ds v D E hv hw _
    cases hw
    refine ⟨hv, fun b hb b' hb' => ?_⟩
    have : ∀ a a', transferOf (K := K) ([] : List (Tensor K)) [] (fun k => orOne (([] : List Nat).getD k 0)
        (([] : List (Tensor K × Tensor K)).getD k (Tensor.empty, Tensor.empty)).2) a a' b b' =
        (if a = b then 1 else 0) * (if a' = b' then 1 else 0) := by
      intro a a'
      simp [transferOf, sumCfg, tensorOp, path_nil, apply_ite star]
    simp only [List.map_nil, this]
    show v.get [b, b'] = _
    rw [Finset.sum_eq_single_of_mem b (Finset.mem_range.2 hb) (fun a _ h => by simp [h]),
      Finset.sum_eq_single_of_mem b' (Finset.mem_range.2 hb') (fun a _ h => by simp [h])]
    simp
  | cons x l ih =>
    intro ds v D E hv hw hop
    cases hw with
    | @cons _ d c _ _ _ ds hA h1 h2 h3 h4 =>
      have h0 := hop 0 (by simp)
      simp only [List.getD_cons_zero] at h0
      obtain ⟨p1, p2⟩ := propagateRight_spec (v := v) (op := x.2) hv hA h1 h2 h0
      obtain ⟨q1, q2⟩ := ih ds (v := propagateRight v x.1 x.2) p1 h4 (fun k hk => by
        have := hop (k + 1) (by simpa using hk)
        simpa using this)
      refine ⟨q1, fun b hb b' hb' => ?_⟩
      show (chainR (propagateRight v x.1 x.2) l).get [b, b'] = _
      rw [q2 b hb b' hb']
      simp only [List.map_cons]
      have e : ∀ a a', transferOf (x.1 :: l.map Prod.fst) (d :: ds)
          (fun k => orOne ((d :: ds).getD k 0) ((x :: l).getD k (Tensor.empty, Tensor.empty)).2) a a' b b' = _ :=
        fun a a' => transferOf_cons hA _ a a' b b'
      simp only [e, List.getD_cons_zero, List.getD_cons_succ]
      rw [Finset.sum_congr rfl fun c1 h1 => Finset.sum_congr rfl fun c2 h2 => by
        rw [p2 c1 (Finset.mem_range.1 h1) c2 (Finset.mem_range.1 h2)]]
      exact sum_swap4 _ _ _ _ _

theorem Ok.combined {psi : State K} (h : Ok psi) (k : Int) : psi.combined k = siteT psi k := by
  unfold State.combined siteT State.matrix State.rightVector
  split
  · exact h.BlB
  · exact h.AlA

theorem Ok.dims {psi : State K} (h : Ok psi) (k : Int) :
    (psi.matrix k).dims = [(psi.matrix k).dim 0, (psi.matrix k).dim 1, (psi.matrix (k + 1)).dim 0] ∧
      0 < (psi.matrix k).dim 0 ∧ 0 < (psi.matrix k).dim 1 ∧ (psi.matrix k).dim 2 = (psi.matrix (k + 1)).dim 0 := by
  have three : ∀ X : Tensor K, X.dims.length = 3 → (∀ d ∈ X.dims, 0 < d) → X.dims = [X.dim 0, X.dim 1, X.dim 2] ∧ 0 < X.dim 0 ∧ 0 < X.dim 1 := by
    intro X hX hp
    obtain ⟨x, y, z, e⟩ := List.length_eq_three.1 hX
    rw [e] at hp
    simp [dim, e, nrm, hp x (by simp), hp y (by simp)]
  unfold State.matrix
  rcases Int.emod_two_eq_zero_or_one k with hk | hk
  · have : (k + 1) % 2 = 1 := by omega
    simp only [hk, this, if_true, if_neg (show ¬ (0 : Int) = 1 by decide)]
    obtain ⟨t1, t2, t3⟩ := three _ h.rankA h.posA
    rw [h.AB]; exact ⟨t1, t2, t3, rfl⟩
  · have : (k + 1) % 2 = 0 := by omega
    simp only [hk, this, if_true, if_neg (show ¬ (0 : Int) = 1 by decide)]
    obtain ⟨t1, t2, t3⟩ := three _ h.rankB h.posB
    rw [h.BA]; exact ⟨t1, t2, t3, rfl⟩

theorem Ok.siteT_dims {psi : State K} (h : Ok psi) (k : Int) :
    (siteT psi k).dims = [(psi.matrix k).dim 0, (psi.matrix k).dim 1, (psi.matrix (k + 1)).dim 0] := (h.dims k).1

theorem Ok.siteT_get {psi : State K} (h : Ok psi) (k : Int) (a i b : Nat) :
    (siteT psi k).get [a, i, b] = (psi.matrix k).get [a, i, b] * (psi.rightVector k).get [b] := by
  have := congrArg List.length (h.dims k).1
  simp [siteT, scale, nrm, this]

theorem window_succ (psi : State K) (p : Int) (n : Nat) : window psi p (n + 1) = siteT psi p :: window psi (p + 1) n := by
  unfold window
  rw [List.range_succ_eq_map, List.map_cons, List.map_map]
  simp only [Nat.cast_zero, add_zero]
  congr 1
  refine List.map_congr_left fun k _ => ?_
  simp only [Function.comp, Nat.succ_eq_add_one, Nat.cast_add, Nat.cast_one]
  congr 1; ring

theorem winDims_succ (psi : State K) (p : Int) (n : Nat) : winDims psi p (n + 1) = (psi.matrix p).dim 1 :: winDims psi (p + 1) n := by
  unfold winDims
  rw [List.range_succ_eq_map, List.map_cons, List.map_map]
  simp only [Nat.cast_zero, add_zero]
  congr 1
  refine List.map_congr_left fun k _ => ?_
  simp only [Function.comp, Nat.succ_eq_add_one, Nat.cast_add, Nat.cast_one]
  rw [show p + ((k : Int) + 1) = p + 1 + k from by ring]

theorem winDims_length (psi : State K) (p : Int) (n : Nat) : (winDims psi p n).length = n := by simp [winDims]

theorem winDims_get (psi : State K) (p : Int) (n : Nat) {k : Nat} (hk : k < n) : (winDims psi p n).getD k 0 = (psi.matrix (p + k)).dim 1 := by
  simp [winDims, hk]

theorem Ok.window_wf {psi : State K} (h : Ok psi) (n : Nat) : ∀ p : Int,
    WF ((psi.matrix p).dim 0) (window psi p n) (winDims psi p n) ((psi.matrix (p + n)).dim 0) := by
  induction n with
  | zero => intro p; simp only [Nat.cast_zero, add_zero]; exact WF.nil _
  | succ n ih =>
    intro p
    rw [window_succ, winDims_succ]
    obtain ⟨d1, d2, d3, d4⟩ := h.dims p
    have := ih (p + 1)
    rw [show p + 1 + (n : Int) = p + ((n + 1 : Nat) : Int) from by push_cast; ring] at this
    exact WF.cons (h.siteT_dims p) d2 d3 (h.dims (p + 1)).2.1 this

/-- the left boundary -/
theorem leftBoundary_spec {psi : State K} (h : Ok psi) (p : Int) : (psi.leftBoundary p).dims = [(psi.matrix p).dim 0, (psi.matrix p).dim 0] ∧
    (∀ a a', (psi.leftBoundary p).get [a, a'] = if a = a' then (psi.leftVector p).get [a] * (psi.leftVector p).get [a] else 0) ∧
    ∀ a, star ((psi.leftVector p).get [a]) = (psi.leftVector p).get [a] := by
  unfold State.leftBoundary diagOf vmul State.leftVector State.matrix
  rcases Int.emod_two_eq_zero_or_one p with hk | hk
  · simp only [hk, if_neg (show ¬ (0 : Int) = 1 by decide)]
    refine ⟨?_, fun a a' => by simp, fun a => (h.real a).2⟩
    have : psi.lB.dim 0 = psi.A.dim 0 := by
      rw [h.BA]; show psi.lB.dims.getD (nrm psi.lB.dims.length 0) 0 = _; rw [h.lB]; rfl
    rw [← this]; rfl
  · simp only [hk, if_true]
    refine ⟨?_, fun a a' => by simp, fun a => (h.real a).1⟩
    have : psi.lA.dim 0 = psi.B.dim 0 := by
      rw [h.AB]; show psi.lA.dims.getD (nrm psi.lA.dims.length 0) 0 = _; rw [h.lA]; rfl
    rw [← this]; rfl

/-- the trace at the end of a window -/
theorem tr_chainR {psi : State K} (h : Ok psi) (p : Int) (n : Nat) (g : Int → Tensor K) (hg : ∀ k, p ≤ k → k < p + n → Acts psi k (g k)) :
    tr (chainR (psi.leftBoundary p) ((List.range n).map fun k : Nat => (psi.combined (p + k), g (p + k)))) =
      winForm psi p n (siteOps p n fun k => orOne ((psi.matrix k).dim 1) (g k)) := by
  obtain ⟨l1, l2, l3⟩ := leftBoundary_spec h p
  set l := (List.range n).map fun k : Nat => (psi.combined (p + k), g (p + k)) with hl
  have hlw : l.map Prod.fst = window psi p n := by
    rw [hl, List.map_map]; exact List.map_congr_left fun k _ => h.combined _
  have hln : l.length = n := by rw [hl]; simp
  have hlg : ∀ k < n, (l.getD k (Tensor.empty, Tensor.empty)).2 = g (p + k) := by
    intro k hk; rw [hl]; simp [hk]
  obtain ⟨c1, c2⟩ := chainR_spec l (winDims psi p n) l1 (by rw [hlw]; exact h.window_wf n p) (by
    rw [hln]; intro k hk
    rw [hlg k hk, winDims_get _ _ _ hk]
    exact hg _ (by omega) (by omega))
  unfold tr winForm
  rw [show (chainR (psi.leftBoundary p) l).dim 0 = (psi.matrix (p + n)).dim 0 from by simp [dim, c1, nrm], Finset.sum_comm]
  refine Finset.sum_congr rfl fun b hb => ?_
  have hb := Finset.mem_range.1 hb
  rw [c2 b hb b hb]
  refine Finset.sum_congr rfl fun a ha => ?_
  rw [Finset.sum_eq_single_of_mem a ha (fun a' _ h => by rw [l2, if_neg (Ne.symm h), zero_mul]), l2, if_pos rfl]
  unfold transferOf MPS.inner actOp winAmp siteOps
  rw [hlw, winDims_length, ← sumCfg_mul_left]
  refine sumCfg_congr fun s _ => ?_
  rw [← sumCfg_mul_left, ← sumCfg_mul_left]
  refine sumCfg_congr fun t _ => ?_
  rw [star_mul', l3]
  have e : tensorOp n (fun k => orOne ((winDims psi p n).getD k 0) (l.getD k (Tensor.empty, Tensor.empty)).2) s t =
      tensorOp n (fun k : Nat => orOne ((psi.matrix (p + k)).dim 1) (g (p + k))) s t := by
    unfold tensorOp
    refine Finset.prod_congr rfl fun k hk => ?_
    have hk := Finset.mem_range.1 hk
    simp only [winDims_get _ _ _ hk, hlg k hk]
  rw [e]; ring

theorem orderLoop_eq (psi : State K) (Oi Om Oj : Tensor K) (i j : Int) : ∀ (m fuel : Nat) (site : Int) (v : Tensor K × Tensor K),
    m < fuel → (∀ k : Nat, k < m → site + k ≤ j ∨ (site + k) % 2 = 0) → ¬ (site + m ≤ j ∨ (site + m) % 2 = 0) →
    orderLoop psi Oi Om Oj i j fuel site v =
      (chainR v.1 ((List.range m).map fun k : Nat => (psi.combined (site + k), opAt Oi Om Oj i j (site + k))),
        chainR v.2 ((List.range m).map fun k : Nat => (psi.combined (site + k), Tensor.empty))) := by
  intro m
  induction m with
  | zero =>
    intro fuel site v hf _ hn
    obtain ⟨fuel, rfl⟩ : ∃ f, fuel = f + 1 := ⟨fuel - 1, by omega⟩
    unfold orderLoop
    rw [if_neg (by simpa using hn)]
    rfl
  | succ m ih =>
    intro fuel site v hf hc hn
    obtain ⟨fuel, rfl⟩ : ∃ f, fuel = f + 1 := ⟨fuel - 1, by omega⟩
    unfold orderLoop
    rw [if_pos (by simpa using hc 0 (by omega)), ih fuel (site + 1) _ (by omega) (fun k hk => by
      have := hc (k + 1) (by omega); push_cast at this; rwa [show site + 1 + (k : Int) = site + (k + 1) from by ring])
      (by push_cast at hn; rwa [show site + 1 + (m : Int) = site + (m + 1) from by ring])]
    rw [List.range_succ_eq_map, List.map_cons, List.map_cons, List.map_map, List.map_map]
    have e : ∀ k : Nat, site + 1 + (k : Int) = site + ((k + 1 : Nat) : Int) := fun k => by push_cast; ring
    simp only [e]
    simp only [chainR, List.foldl_cons, Nat.cast_zero, add_zero, Function.comp_def, Nat.succ_eq_add_one]

/-- windows which begin at sites of the same parity are equal -/
theorem matrix_shift (psi : State K) {p q : Int} (h : p % 2 = q % 2) (k : Int) : psi.matrix (p + k) = psi.matrix (q + k) := by
  unfold State.matrix
  rw [show (p + k) % 2 = (q + k) % 2 by omega]

theorem rightVector_shift (psi : State K) {p q : Int} (h : p % 2 = q % 2) (k : Int) : psi.rightVector (p + k) = psi.rightVector (q + k) := by
  unfold State.rightVector
  rw [show (p + k) % 2 = (q + k) % 2 by omega]

theorem leftVector_shift (psi : State K) {p q : Int} (h : p % 2 = q % 2) : psi.leftVector p = psi.leftVector q := by
  unfold State.leftVector
  rw [h]

theorem winForm_shift (psi : State K) {p q : Int} (h : p % 2 = q % 2) (n : Nat) (O : List Nat → List Nat → K) :
    winForm psi p n O = winForm psi q n O := by
  have h0 : psi.matrix p = psi.matrix q := by simpa using matrix_shift psi h 0
  have hw : window psi p n = window psi q n := by
    unfold window siteT
    exact List.map_congr_left fun k _ => by rw [matrix_shift psi h, rightVector_shift psi h]
  have hd : winDims psi p n = winDims psi q n := by
    unfold winDims
    exact List.map_congr_left fun k _ => by rw [matrix_shift psi h]
  unfold winForm winAmp
  rw [h0, hw, hd, matrix_shift psi h, leftVector_shift psi h]


/-- the matrix element of a list of tensors with any operator in the middle -/
def transferO (As : List (Tensor K)) (ds : List Nat) (O : List Nat → List Nat → K) (a a' b b' : Nat) : K :=
  sumCfg ds fun s => sumCfg ds fun t => star (path As s a b) * O s t * path As t a' b'

/-- `v'` is `v` propagated through the tensors `As` with the operator `O` in the middle -/
def Through (D E : Nat) (As : List (Tensor K)) (ds : List Nat) (O : List Nat → List Nat → K) (v v' : Tensor K) : Prop :=
  v'.dims = [E, E] ∧ ∀ b < E, ∀ b' < E, v'.get [b, b'] =
    ∑ a ∈ Finset.range D, ∑ a' ∈ Finset.range D, v.get [a, a'] * transferO As ds O a a' b b'

theorem transferO_append {D m E : Nat} {As Bs : List (Tensor K)} {ds es : List Nat} (h : WF D As ds m) (h' : WF m Bs es E)
    {O O1 O2 : List Nat → List Nat → K}
    (hO : ∀ s t, IsCfg ds s → IsCfg ds t → ∀ s' t', IsCfg es s' → IsCfg es t' → O (s ++ s') (t ++ t') = O1 s t * O2 s' t') (a a' b b' : Nat)
    (ha : a < D) (ha' : a' < D) :
    transferO (As ++ Bs) (ds ++ es) O a a' b b' = ∑ c ∈ Finset.range m, ∑ c' ∈ Finset.range m,
      transferO As ds O1 a a' c c' * transferO Bs es O2 c c' b b' := by
  unfold transferO
  have e : ∀ s, IsCfg ds s → ∀ t, IsCfg ds t → ∀ s', IsCfg es s' → ∀ t', IsCfg es t' →
      star (path (As ++ Bs) (s ++ s') a b) * O (s ++ s') (t ++ t') * path (As ++ Bs) (t ++ t') a' b' =
      ∑ c ∈ Finset.range m, ∑ c' ∈ Finset.range m, (star (path As s a c) * O1 s t * path As t a' c') *
        (star (path Bs s' c b) * O2 s' t' * path Bs t' c' b') := by
    intro s hs t ht s' hs' t' ht'
    rw [hO s t hs ht s' t' hs' ht', path_append h (by rw [hs.length_eq, h.length]) ha, path_append h (by rw [ht.length_eq, h.length]) ha']
    rw [star_sum, Finset.sum_mul, Finset.sum_mul]
    refine Finset.sum_congr rfl fun c _ => ?_
    rw [Finset.mul_sum]
    exact Finset.sum_congr rfl fun c' _ => by rw [star_mul']; ring
  rw [sumCfg_append, sumCfg_congr fun s hs => sumCfg_congr fun s' hs' => by
    rw [sumCfg_append, sumCfg_congr fun t ht => sumCfg_congr fun t' ht' => e s hs t ht s' hs' t' ht']]
  simp only [sumCfg_sum, sumCfg_mul_left]
  refine Finset.sum_congr rfl fun c _ => Finset.sum_congr rfl fun c' _ => ?_
  rw [← sumCfg_mul_right]
  refine sumCfg_congr fun s _ => ?_
  rw [sumCfg_comm, ← sumCfg_mul_right]
  refine sumCfg_congr fun t _ => ?_
  rw [sumCfg_mul_left]

theorem Through.trans {D m E : Nat} {As Bs : List (Tensor K)} {ds es : List Nat} (h : WF D As ds m) (h' : WF m Bs es E)
    {O O1 O2 : List Nat → List Nat → K} {v v1 v2 : Tensor K} (h1 : Through D m As ds O1 v v1) (h2 : Through m E Bs es O2 v1 v2)
    (hO : ∀ s t, IsCfg ds s → IsCfg ds t → ∀ s' t', IsCfg es s' → IsCfg es t' → O (s ++ s') (t ++ t') = O1 s t * O2 s' t') :
    Through D E (As ++ Bs) (ds ++ es) O v v2 := by
  refine ⟨h2.1, fun b hb b' hb' => ?_⟩
  rw [h2.2 b hb b' hb', Finset.sum_congr rfl fun c1 k1 => Finset.sum_congr rfl fun c2 k2 => by
    rw [h1.2 c1 (Finset.mem_range.1 k1) c2 (Finset.mem_range.1 k2)]]
  rw [sum_swap4 m D (fun a a' => v.get [a, a']) (fun a a' c c' => transferO As ds O1 a a' c c') (fun c c' => transferO Bs es O2 c c' b b')]
  refine Finset.sum_congr rfl fun a ha => Finset.sum_congr rfl fun a' ha' => ?_
  rw [transferO_append h h' hO a a' b b' (Finset.mem_range.1 ha) (Finset.mem_range.1 ha')]

theorem Through.one {v A op : Tensor K} {D d E : Nat} (hv : v.dims = [D, D]) (hA : A.dims = [D, d, E])
    (hD : 0 < D) (hd : 0 < d) (hop : op.isEmpty = true ∨ op.dims = [d, d]) :
    Through D E [A] [d] (fun s t => (orOne d op).get [s.getD 0 0, t.getD 0 0]) v (propagateRight v A op) := by
  obtain ⟨p1, p2⟩ := propagateRight_spec hv hA hD hd hop
  refine ⟨p1, fun b hb b' hb' => ?_⟩
  rw [p2 b hb b' hb']
  refine Finset.sum_congr rfl fun a _ => Finset.sum_congr rfl fun a' _ => ?_
  congr 1
  unfold transferO
  have e : ∀ (x s y : Nat), y < E → path [A] [s] x y = A.get [x, s, y] := by
    intro x s y hy
    rw [path_cons, dim2_of hA]
    simp only [path_nil]
    rw [Finset.sum_eq_single_of_mem y (Finset.mem_range.2 hy) (fun z _ h => by simp [h])]
    simp
  simp only [sumCfg_cons, sumCfg, List.getD_cons_zero]
  exact Finset.sum_congr rfl fun s _ => Finset.sum_congr rfl fun t _ => by rw [e a s b hb, e a' t b' hb']

theorem fused_get {X Y : Tensor K} {D d e m E : Nat} (hX : X.dims = [D, d, m]) (hY : Y.dims = [m, e, E]) {a i j b : Nat}
    (ha : a < D) (hi : i < d) (hj : j < e) (hb : b < E) :
    (reshape (fold X (-1) Y 0) [D, d * e, E]).get [a, i + d * j, b] = path [X, Y] [i, j] a b := by
  have hd : (fold X (-1) Y 0).dims = [D, d, e, E] := by simp [fold, hX, hY, nrm]
  rw [show (reshape (fold X (-1) Y 0) [D, d * e, E]).get [a, i + d * j, b] = (fold X (-1) Y 0).get [a, i, j, b] from by
    apply reshape_get
    · rw [hd]; exact List.Forall₂.cons ha (List.Forall₂.cons hi (List.Forall₂.cons hj (List.Forall₂.cons hb List.Forall₂.nil)))
    · rw [hd]; simp only [flat]; ring]
  rw [path_cons, dim2_of hX]
  have : ∀ c, path [Y] [j] c b = Y.get [c, j, b] := by
    intro c
    rw [path_cons, dim2_of hY]
    simp only [path_nil]
    rw [Finset.sum_eq_single_of_mem b (Finset.mem_range.2 hb) (fun z _ h => by simp [h])]
    simp
  simp only [this]
  simp [fold, hX, hY, nrm]

theorem Through.two {v X Y op : Tensor K} {D d e m E : Nat} (hv : v.dims = [D, D]) (hX : X.dims = [D, d, m]) (hY : Y.dims = [m, e, E])
    (hD : 0 < D) (hd : 0 < d) (he : 0 < e) (hop : op.isEmpty = true ∨ op.dims = [d * e, d * e]) :
    Through D E [X, Y] [d, e] (fun s t => (orOne (d * e) op).get [s.getD 0 0 + d * s.getD 1 0, t.getD 0 0 + d * t.getD 1 0]) v
      (propagateRight v (reshape (fold X (-1) Y 0) [D, d * e, E]) op) := by
  obtain ⟨p1, p2⟩ := propagateRight_spec (A := reshape (fold X (-1) Y 0) [D, d * e, E]) hv rfl hD (Nat.mul_pos hd he) hop
  refine ⟨p1, fun b hb b' hb' => ?_⟩
  rw [p2 b hb b' hb']
  refine Finset.sum_congr rfl fun a ha => Finset.sum_congr rfl fun a' ha' => ?_
  congr 1
  unfold transferO
  simp only [sumCfg_cons, sumCfg, List.getD_cons_zero, List.getD_cons_succ]
  rw [sum_range_mul, Finset.sum_comm]
  refine Finset.sum_congr rfl fun s hs => Finset.sum_congr rfl fun s' hs' => ?_
  rw [sum_range_mul, Finset.sum_comm]
  refine Finset.sum_congr rfl fun t ht => Finset.sum_congr rfl fun t' ht' => ?_
  rw [fused_get hX hY (Finset.mem_range.1 ha) (Finset.mem_range.1 hs) (Finset.mem_range.1 hs') hb,
    fused_get hX hY (Finset.mem_range.1 ha') (Finset.mem_range.1 ht) (Finset.mem_range.1 ht') hb']

theorem Through.tr {psi : State K} (h : Ok psi) (p : Int) (n : Nat) {O : List Nat → List Nat → K} {v : Tensor K}
    (hv : Through ((psi.matrix p).dim 0) ((psi.matrix (p + n)).dim 0) (window psi p n) (winDims psi p n) O (psi.leftBoundary p) v) :
    ITebd.tr v = winForm psi p n O := by
  obtain ⟨l1, l2, l3⟩ := leftBoundary_spec h p
  unfold ITebd.tr winForm
  rw [show v.dim 0 = (psi.matrix (p + n)).dim 0 from by simp [dim, hv.1, nrm], Finset.sum_comm]
  refine Finset.sum_congr rfl fun b hb => ?_
  have hb := Finset.mem_range.1 hb
  rw [hv.2 b hb b hb]
  refine Finset.sum_congr rfl fun a ha => ?_
  rw [Finset.sum_eq_single_of_mem a ha (fun a' _ h => by rw [l2, if_neg (Ne.symm h), zero_mul]), l2, if_pos rfl]
  unfold transferO MPS.inner actOp winAmp
  rw [← sumCfg_mul_left]
  refine sumCfg_congr fun s _ => ?_
  rw [← sumCfg_mul_left, ← sumCfg_mul_left]
  refine sumCfg_congr fun t _ => ?_
  rw [star_mul', l3]; ring

end MPS.ITebd
