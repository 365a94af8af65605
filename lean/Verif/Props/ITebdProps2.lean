import Verif.ITebdLemmas2
import Verif.Props.ITebdProps
import Verif.TrotterSpec

/-!
# C83: the other ways to compute expected values of infinite states
-/

set_option linter.unusedSectionVars false

namespace MPS.Props
open MPS Tensor ITebd
variable {K : Type} [RCLike K]

/-- `Opi` on site 0, `Opj` on site `n` and `Opmiddle` on the sites in between; the product `Opi Opj` on site 0 if `n = 0` -/
def upTo (psi : State K) (Oi Om Oj : Tensor K) (n : Nat) (k : Int) : Tensor K :=
  if n = 0 then (if k = 0 then mmult Oi Oj else ones psi k)
  else if k = 0 then Oi else if k = n then Oj else if 0 < k ∧ k < n then orOne ((psi.matrix k).dim 1) Om else ones psi k

/-- number of sites from 0 to `n`, plus one if this is odd -/
def evenSites (n : Nat) : Nat := n + 2 - n % 2

/-- the operators of `upTo` as tensors handed to `propagate_right` -/
def rawOps (Oi Om Oj : Tensor K) (n : Nat) (k : Int) : Tensor K :=
  if k < n then (if k = 0 then Oi else Om) else if k = n then (if n = 0 then mmult Oi Oj else Oj) else Tensor.empty

def opChain (psi : State K) (g : Int → Tensor K) (n : Nat) : Tensor K :=
  chainR (psi.leftBoundary 0) ((List.range n).map fun k : Nat => (psi.combined (0 + k), g (0 + k)))

theorem opChain_succ (psi : State K) (g : Int → Tensor K) (n : Nat) :
    opChain psi g (n + 1) = propagateRight (opChain psi g n) (psi.combined n) (g n) := by
  unfold opChain chainR
  rw [List.range_succ, List.map_append, List.foldl_append]
  simp

theorem opChain_congr (psi : State K) {g g' : Int → Tensor K} {n : Nat} (h : ∀ k : Nat, k < n → g k = g' k) :
    opChain psi g n = opChain psi g' n := by
  unfold opChain
  congr 1
  refine List.map_congr_left fun k hk => ?_
  have := h k (List.mem_range.1 hk)
  simp [this]

theorem opChain_size {psi : State K} (h : Ok psi) (n : Nat) : (opChain psi (fun _ => Tensor.empty) n).size ≠ 0 := by
  have hw := h.window_wf n 0
  have hl : ((List.range n).map fun k : Nat => (psi.combined (0 + k), (Tensor.empty : Tensor K))).map Prod.fst = window psi 0 n := by
    unfold window
    rw [List.map_map]
    exact List.map_congr_left fun k _ => h.combined _
  have := (chainR_spec ((List.range n).map fun k : Nat => (psi.combined (0 + k), (Tensor.empty : Tensor K))) (winDims psi 0 n)
    (v := psi.leftBoundary 0) (leftBoundary_spec h 0).1 (by rw [hl]; exact hw) (fun k hk => by
      left
      have : k < n := by simpa using hk
      simp [this, List.getD]
      rfl)).1
  unfold opChain Tensor.size
  rw [this]
  have hp := (h.dims ((0 : Int) + n)).2.1
  simp only [List.prod_cons, List.prod_nil, mul_one]
  exact (Nat.mul_pos hp hp).ne'

theorem many_invariant {psi : State K} (h : Ok psi) (Oi Om Oj : Tensor K) (N : Nat) :
    (List.range N).foldl (manyStep psi Oi Om Oj) ⟨psi.leftBoundary 0, psi.leftBoundary 0, Tensor.empty, []⟩ =
      ⟨opChain psi (fun k => if k = 0 then Oi else Om) N,
        opChain psi (fun _ => Tensor.empty) N,
        (if N % 2 = 1 then opChain psi (fun _ => Tensor.empty) (N + 1) else Tensor.empty),
        (List.range N).map fun n : Nat => tr (opChain psi (rawOps Oi Om Oj n) (evenSites n)) /
          tr (opChain psi (fun _ => Tensor.empty) (evenSites n))⟩ := by
  induction N with
  | zero => simp [opChain, chainR]
  | succ N ih =>
    rw [List.range_succ, List.foldl_append, ih]
    simp only [List.foldl_cons, List.foldl_nil]
    have hv : propagateRight (opChain psi (fun k => if k = 0 then Oi else Om) N) (psi.combined N)
        (if N ≠ 0 then Oj else mmult Oi Oj) = opChain psi (rawOps Oi Om Oj N) (N + 1) := by
      rw [opChain_succ]
      congr 1
      · refine opChain_congr psi fun k hk => ?_
        have hk' : (k : Int) < N := by exact_mod_cast hk
        unfold rawOps
        simp only [hk', if_true]
      · unfold rawOps
        by_cases h0 : N = 0
        · simp [h0]
        · simp [h0]
    have hv2 : (if (if N % 2 = 1 then opChain psi (fun _ => Tensor.empty) (N + 1) else Tensor.empty).size ≠ 0 then
        (if N % 2 = 1 then opChain psi (fun _ => Tensor.empty) (N + 1) else Tensor.empty)
        else propagateRight (opChain psi (fun _ => Tensor.empty) N) (psi.combined N) Tensor.empty) =
        opChain psi (fun _ => Tensor.empty) (N + 1) := by
      by_cases hp : N % 2 = 1
      · rw [if_pos hp, if_pos (opChain_size h _)]
      · rw [if_neg hp, if_neg (by simp [Tensor.empty, Tensor.size]), opChain_succ]
    have hv1 : (if N ≠ 0 then propagateRight (opChain psi (fun k => if k = 0 then Oi else Om) N) (psi.combined N) Om
        else propagateRight (opChain psi (fun k => if k = 0 then Oi else Om) N) (psi.combined N) Oi) =
        opChain psi (fun k => if k = 0 then Oi else Om) (N + 1) := by
      rw [opChain_succ]
      by_cases h0 : N = 0
      · simp [h0]
      · simp [h0]
    unfold manyStep
    simp only
    rw [hv, hv2, hv1]
    by_cases hp : N % 2 = 0
    · rw [if_pos hp]
      have e : evenSites N = N + 1 + 1 := by unfold evenSites; omega
      rw [show (N + 1) % 2 = 1 by omega, if_pos rfl]
      rw [List.map_append, List.map_singleton, e, opChain_succ psi _ (N + 1), opChain_succ psi _ (N + 1)]
      have er : rawOps Oi Om Oj N ((N + 1 : Nat) : Int) = Tensor.empty := by
        unfold rawOps
        rw [if_neg (by push_cast; omega), if_neg (by push_cast; omega)]
      rw [er]
      push_cast
      rfl
    · rw [if_neg hp]
      have e : evenSites N = N + 1 := by unfold evenSites; omega
      rw [show (N + 1) % 2 = 0 by omega, if_neg (by omega)]
      rw [List.map_append, List.map_singleton, e]

/-- **C83**, the list of string orders: element `n` is the expected value, in the smallest window of complete cells which contains
the sites `0, ..., n`, of `Opi` on site 0, `Opmiddle` on the sites `1, ..., n - 1` and `Opj` on site `n` (for `n = 0` of the
product `Opi Opj` on site 0). -/
theorem C83_string_order_many (canon : State K → State K) (psi : State K) (h : Ok (usedState canon psi)) {Oi Om Oj : Tensor K} (N : Nat)
    (hi : Oi.dims = [((usedState canon psi).matrix 0).dim 1, ((usedState canon psi).matrix 0).dim 1])
    (hj : ∀ n : Nat, n < N → Oj.dims = [((usedState canon psi).matrix n).dim 1, ((usedState canon psi).matrix n).dim 1])
    (hm : ∀ n : Nat, 0 < n → n + 1 < N → Acts (usedState canon psi) n Om) :
    stringOrderMany canon psi Oi Om Oj N =
      (List.range N).map fun n : Nat => winExpect (usedState canon psi) 0 (evenSites n) (upTo (usedState canon psi) Oi Om Oj n) := by
  unfold stringOrderMany
  simp only
  rw [show (if psi.canonical then psi else canon psi) = usedState canon psi from rfl]
  generalize usedState canon psi = phi at *
  rw [many_invariant h]
  simp only
  refine List.map_congr_left fun n hn => ?_
  have hn := List.mem_range.1 hn
  have he : ∀ {d : Nat} {o : Tensor K}, o.dims = [d, d] → 0 < d → orOne d o = o := by
    intro d o ho hd
    unfold orOne
    rw [if_neg]
    simp [isEmpty, size, ho]
    omega
  have dpos : ∀ k, 0 < (phi.matrix k).dim 1 := fun k => (h.dims k).2.2.1
  have hacts : ∀ k : Int, 0 ≤ k → k < 0 + (evenSites n : Nat) → Acts phi k (rawOps Oi Om Oj n k) := by
    intro k h0 _
    unfold rawOps
    split
    · rename_i hk
      split
      · rename_i hk0; subst hk0; exact Or.inr hi
      · lift k to ℕ using h0
        exact hm k (by omega) (by omega)
    · split
      · rename_i hk
        split
        · rename_i hn0
          subst hn0
          right
          rw [hk]
          simp [mmult, fold, hi, hj 0 hn, nrm, dim]
        · rw [hk]; exact Or.inr (hj n hn)
      · exact Or.inl rfl
  unfold winExpect
  congr 1
  · unfold opChain
    rw [tr_chainR h 0 (evenSites n) (rawOps Oi Om Oj n) hacts]
    congr 1
    refine siteOps_congr fun k hk => ?_
    rw [zero_add]
    have e1 : n = 0 → orOne ((phi.matrix 0).dim 1) (mmult Oi Oj) = mmult Oi Oj := fun h0 => by
      subst h0
      refine he ?_ (dpos 0)
      simp [mmult, fold, hi, hj 0 hn, nrm, dim]
    unfold rawOps upTo
    by_cases h0 : n = 0
    · by_cases hk0 : k = 0
      · simp [h0, hk0, e1 h0]
      · have : ¬ ((k : Int) < 0) := by omega
        simp [h0, hk0, this]; rfl
    · have hn0 : (0 : Int) < n := by omega
      by_cases hk0 : k = 0
      · have hn1 : 0 < n := by omega
        simp [h0, hk0, he hi (dpos 0), hn1]
      · by_cases hkn : k = n
        · subst hkn
          simp [h0, he (hj k hn) (dpos k)]
        · by_cases hlt : k < n
          · simp [h0, hk0, hkn, hlt]
          · simp [h0, hk0, hkn, hlt]; rfl
  · unfold opChain
    rw [tr_chainR h 0 (evenSites n) (fun _ => Tensor.empty) (fun _ _ _ => Or.inl rfl)]
    rfl

theorem orOne_dims {d : Nat} {o : Tensor K} (ho : o.dims = [d, d]) (hd : 0 < d) : orOne d o = o := by
  unfold orOne
  rw [if_neg]
  simp [isEmpty, size, ho]
  omega

theorem pair_one {d e i j i' j' : Nat} (hi : i < d) (hi' : i' < d) :
    (orOne (d * e) (Tensor.empty : Tensor K)).get [i + d * j, i' + d * j'] = if i = i' ∧ j = j' then 1 else 0 := by
  unfold orOne
  rw [if_pos (show (Tensor.empty : Tensor K).isEmpty = true from rfl)]
  simp only [eye, List.getD_cons_zero, List.getD_cons_succ]
  congr 1
  simp only [eq_iff_iff]
  constructor
  · intro h
    have h1 : i = i' := by
      have := congrArg (· % d) h
      simpa [Nat.add_mul_mod_self_left, Nat.mod_eq_of_lt hi, Nat.mod_eq_of_lt hi'] using this
    subst h1
    refine ⟨rfl, ?_⟩
    have : d * j = d * j' := by omega
    exact Nat.eq_of_mul_eq_mul_left (by omega) this
  · rintro ⟨rfl, rfl⟩; rfl

theorem cfg_two {d e : Nat} {s : List Nat} (h : IsCfg [d, e] s) : ∃ i j, s = [i, j] ∧ i < d ∧ j < e := by
  cases h with
  | cons hi h => cases h with
    | cons hj h => cases h; exact ⟨_, _, rfl, hi, hj⟩

/-- **C83**, two-site operators: `expected12(psi, Op12, site)` is the expected value of `Op12` on the sites `site % 2` and
`site % 2 + 1` in the window of the sites `0, 1` or `0, 1, 2, 3` -/
theorem C83_expected12 (canon : State K → State K) (psi : State K) (h : Ok (usedState canon psi)) {Op : Tensor K} (site : Int) (k : Nat)
    (hk : site % 2 = k)
    (hop : Op.dims = [((usedState canon psi).matrix k).dim 1 * ((usedState canon psi).matrix (k + 1)).dim 1,
      ((usedState canon psi).matrix k).dim 1 * ((usedState canon psi).matrix (k + 1)).dim 1]) :
    expected12 canon psi Op site =
      winValue (usedState canon psi) 0 (2 + 2 * k) (widen k 2 (pairElt (((usedState canon psi).matrix k).dim 1) Op)) := by
  unfold expected12
  rw [show (if psi.canonical then psi else canon psi) = usedState canon psi from rfl]
  generalize usedState canon psi = phi at *
  obtain ⟨l1, l2, l3⟩ := leftBoundary_spec h 0
  have c0 : phi.AlA = siteT phi 0 := h.combined 0
  have c1 : phi.BlB = siteT phi 1 := h.combined 1
  obtain ⟨d01, d02, d03, d04⟩ := h.dims 0
  obtain ⟨d11, d12, d13, d14⟩ := h.dims 1
  have s0 := h.siteT_dims 0
  have s1 := h.siteT_dims 1
  rw [zero_add] at s0
  have m2 : phi.matrix (1 + 1) = phi.matrix 0 := rfl
  rw [m2] at s1
  have hd0 := orOne_dims (K := K) (o := Op) hop (Nat.mul_pos (h.dims k).2.2.1 (h.dims (k + 1)).2.2.1)
  unfold expected12Body winValue
  simp only [c0, c1]
  have q0 : (siteT phi 0).dim 0 = (phi.matrix 0).dim 0 := by simp [dim, s0, nrm]
  have q1 : (siteT phi 0).dim 1 = (phi.matrix 0).dim 1 := by simp [dim, s0, nrm]
  have q2 : (siteT phi 1).dim 0 = (phi.matrix 1).dim 0 := by simp [dim, s1, nrm]
  have q3 : (siteT phi 1).dim 1 = (phi.matrix 1).dim 1 := by simp [dim, s1, nrm]
  rw [q0, q1, q2, q3]
  rcases Int.emod_two_eq_zero_or_one site with e | e
  · have hk0 : k = 0 := by omega
    subst hk0
    rw [if_neg (by omega)]
    have tt := fun (op : Tensor K) hop => Through.two (op := op) l1 s0 s1 d02 d03 d13 hop
    have key := fun (op : Tensor K) hop => Through.tr h 0 2 (tt op hop)
    rw [key Op (Or.inr hop), key Tensor.empty (Or.inl rfl)]
    have w : winDims phi 0 2 = [(phi.matrix 0).dim 1, (phi.matrix 1).dim 1] := rfl
    refine congrArg₂ (· / ·) ?_ ?_
    · refine winForm_congr phi 0 2 fun s hs t ht => ?_
      rw [w] at hs ht
      obtain ⟨i, j, rfl, hi, hj⟩ := cfg_two hs
      obtain ⟨i', j', rfl, hi', hj'⟩ := cfg_two ht
      rw [show orOne ((phi.matrix 0).dim 1 * (phi.matrix 1).dim 1) Op = Op from hd0]
      simp [widen, pairElt]
    · refine winForm_congr phi 0 2 fun s hs t ht => ?_
      rw [w] at hs ht
      obtain ⟨i, j, rfl, hi, hj⟩ := cfg_two hs
      obtain ⟨i', j', rfl, hi', hj'⟩ := cfg_two ht
      have := pair_one (K := K) (e := (phi.matrix 1).dim 1) (j := j) (j' := j') hi hi'
      simp only [List.getD_cons_zero, List.getD_cons_succ]
      rw [this]
      simp [oneElt]
  · have hk0 : k = 1 := by omega
    subst hk0
    rw [if_pos e]
    have t1 := Through.one (op := Tensor.empty) l1 s0 d02 d03 (Or.inl rfl)
    have t2 := fun (op : Tensor K) hop => Through.two (op := op) t1.1 s1 s0 d12 d13 d03 hop
    have t3 := fun (op : Tensor K) hop => Through.one (op := Tensor.empty) (t2 op hop).1 s1 d12 d13 (Or.inl rfl)
    have w0 : WF ((phi.matrix 0).dim 0) [siteT phi 0] [(phi.matrix 0).dim 1] ((phi.matrix 1).dim 0) := h.window_wf 1 0
    have w1 : WF ((phi.matrix 1).dim 0) [siteT phi 1, siteT phi 0] [(phi.matrix 1).dim 1, (phi.matrix 0).dim 1] ((phi.matrix 1).dim 0) :=
      h.window_wf 2 1
    have w2 : WF ((phi.matrix 1).dim 0) [siteT phi 1] [(phi.matrix 1).dim 1] ((phi.matrix 0).dim 0) := h.window_wf 1 1
    have w12 : WF ((phi.matrix 1).dim 0) [siteT phi 1, siteT phi 0, siteT phi 1]
      [(phi.matrix 1).dim 1, (phi.matrix 0).dim 1, (phi.matrix 1).dim 1] ((phi.matrix 0).dim 0) := h.window_wf 3 1
    have t23 := fun (op : Tensor K) hop => Through.trans
      (O := fun s t => (orOne ((phi.matrix 1).dim 1 * (phi.matrix 0).dim 1) op).get
        [s.getD 0 0 + (phi.matrix 1).dim 1 * s.getD 1 0, t.getD 0 0 + (phi.matrix 1).dim 1 * t.getD 1 0] *
          (orOne ((phi.matrix 1).dim 1) (Tensor.empty : Tensor K)).get [s.getD 2 0, t.getD 2 0]) w1 w2 (t2 op hop) (t3 op hop)
      (by
        intro s t hs ht s' t' hs' ht'
        obtain ⟨i, j, rfl, hi, hj⟩ := cfg_two hs
        obtain ⟨i', j', rfl, hi', hj'⟩ := cfg_two ht
        cases hs' with | cons a1 a2 => cases a2; cases ht' with | cons b1 b2 => cases b2; rfl)
    have t123 := fun (op : Tensor K) hop => Through.trans
      (O := fun s t => (orOne ((phi.matrix 0).dim 1) (Tensor.empty : Tensor K)).get [s.getD 0 0, t.getD 0 0] *
        ((orOne ((phi.matrix 1).dim 1 * (phi.matrix 0).dim 1) op).get
        [s.getD 1 0 + (phi.matrix 1).dim 1 * s.getD 2 0, t.getD 1 0 + (phi.matrix 1).dim 1 * t.getD 2 0] *
          (orOne ((phi.matrix 1).dim 1) (Tensor.empty : Tensor K)).get [s.getD 3 0, t.getD 3 0])) w0 w12 t1 (t23 op hop)
      (by
        intro s t hs ht s' t' hs' ht'
        cases hs with | cons a1 a2 => cases a2; cases ht with | cons b1 b2 => cases b2; rfl)
    have key := fun (op : Tensor K) hop => Through.tr h 0 4 (t123 op hop)
    rw [key Op (Or.inr hop), key Tensor.empty (Or.inl rfl)]
    have w : winDims phi 0 4 = [(phi.matrix 0).dim 1, (phi.matrix 1).dim 1, (phi.matrix 0).dim 1, (phi.matrix 1).dim 1] := rfl
    have e1 : ∀ d i i' : Nat, (orOne d (Tensor.empty : Tensor K)).get [i, i'] = if i = i' then 1 else 0 := by
      intro d i i'
      unfold orOne
      rw [if_pos (show (Tensor.empty : Tensor K).isEmpty = true from rfl)]
      simp [eye]
    have c4 : ∀ {s : List Nat}, IsCfg (winDims phi 0 4) s → ∃ i j i' j', s = [i, j, i', j'] ∧ j < (phi.matrix 1).dim 1 := by
      intro s hs
      rw [w] at hs
      cases hs with | cons a1 a2 => cases a2 with | cons b1 b2 => cases b2 with | cons c1 c2 => cases c2 with | cons d1 d2 =>
        cases d2; exact ⟨_, _, _, _, rfl, b1⟩
    refine congrArg₂ (· / ·) ?_ ?_
    · refine winForm_congr phi 0 4 fun s hs t ht => ?_
      obtain ⟨i, j, k, l, rfl, hj⟩ := c4 hs
      obtain ⟨i', j', k', l', rfl, hj'⟩ := c4 ht
      rw [show orOne ((phi.matrix 1).dim 1 * (phi.matrix 0).dim 1) Op = Op from hd0]
      simp only [e1, List.getD_cons_zero, List.getD_cons_succ]
      by_cases x1 : i = i'
      · by_cases x2 : l = l'
        · simp [widen, pairElt, x1, x2]
        · simp [widen, pairElt, x1, x2]
      · simp [widen, pairElt, x1]
    · refine winForm_congr phi 0 4 fun s hs t ht => ?_
      obtain ⟨i, j, k, l, rfl, hj⟩ := c4 hs
      obtain ⟨i', j', k', l', rfl, hj'⟩ := c4 ht
      have := pair_one (K := K) (e := (phi.matrix 0).dim 1) (j := k) (j' := k') hj hj'
      rw [e1] at this
      simp only [e1, List.getD_cons_zero, List.getD_cons_succ]
      rw [this]
      unfold oneElt
      by_cases x1 : i = i'
      · by_cases x2 : l = l'
        · by_cases x3 : j = j' ∧ k = k'
          · simp [x1, x2, x3]
          · have : ¬ (j = j' ∧ k = k' ∧ True) := by simpa using x3
            simp [x1, x2, x3]
        · simp [x1, x2]
      · simp [x1]

end MPS.Props
