import Verif.ITebdSlowLemmas

/-!
# The loop of `slow_string_order` and the two-site version
-/

set_option linter.unusedSectionVars false
set_option linter.unusedSimpArgs false

namespace MPS.ITebd
open MPS Tensor
variable {K : Type} [RCLike K]

theorem window_one (psi : State K) (p : Int) : window psi p 1 = [siteT psi p] ∧ winDims psi p 1 = [(psi.matrix p).dim 1] := by
  constructor <;> simp [window, winDims, List.range_succ]

/-- the local matrix of a site without operator -/
theorem RepW.site {psi : State K} (h : Ok psi) (p : Int) : RepW psi p 1 oneElt 1 (eMatrix (siteT psi p) (siteT psi p)) := by
  unfold RepW
  rw [(window_one psi p).1, (window_one psi p).2]
  exact Rep.one (h.siteT_dims p)

theorem RepW.siteOp {psi : State K} (h : Ok psi) (p : Int) {op : Tensor K} (hop : op.dims = [(psi.matrix p).dim 1, (psi.matrix p).dim 1]) :
    RepW psi p 1 (fun s t => op.get [s.getD 0 0, t.getD 0 0]) 1 (eMatrix (foldin op (-1) (siteT psi p) 1) (siteT psi p)) := by
  unfold RepW
  rw [(window_one psi p).1, (window_one psi p).2]
  exact Rep.op (h.siteT_dims p) hop

theorem siteOps_one (p : Int) (f : Int → Tensor K) (s t : List Nat) : siteOps p 1 f s t = (f p).get [s.getD 0 0, t.getD 0 0] := by
  simp [siteOps, tensorOp]

/-- the local matrix of a site, with an operator or without it -/
theorem RepW.orOne {psi : State K} (h : Ok psi) (p : Int) {op : Tensor K} (hop : Acts psi p op) {f : Int → Tensor K}
    (hf : f p = orOne ((psi.matrix p).dim 1) op) :
    RepW psi p 1 (siteOps p 1 f) 1 (if op.isEmpty then eMatrix (siteT psi p) (siteT psi p)
      else eMatrix (foldin op (-1) (siteT psi p) 1) (siteT psi p)) := by
  by_cases he : op.isEmpty = true
  · simp only [he, if_true]
    refine Rep.congr (RepW.site h p) fun s hs t ht => ?_
    rw [← siteOps_ones h hs ht, siteOps_one, siteOps_one, hf]
    simp [ITebd.orOne, he, ones]
  · simp only [he]
    refine Rep.congr (RepW.siteOp h p (hop.resolve_left he)) fun s hs t ht => ?_
    rw [siteOps_one, hf]
    simp [ITebd.orOne, he]

theorem RepW.snoc {psi : State K} (h : Ok psi) {p q : Int} {n : Nat} {f g : Int → Tensor K} {c : K} {M N : Tensor K}
    (h1 : RepW psi p n (siteOps p n f) c M) (hq : q % 2 = (p + n) % 2) (h2 : RepW psi q 1 (siteOps q 1 g) 1 N) (hf : f (p + n) = g q) :
    RepW psi p (n + 1) (siteOps p (n + 1) f) c (Tensor.mmult M N) := by
  have := RepW.mmult h h1 hq h2 (O := siteOps p (n + 1) f) (fun s t hs ht s' t' _ _ => by
    rw [siteOps_append (by rw [hs.length_eq, winDims_length]) (by rw [ht.length_eq, winDims_length]), siteOps_one, siteOps_one, hf])
  rwa [mul_one] at this

theorem ones_shift (psi : State K) {p q : Int} (h : p % 2 = q % 2) : ones psi p = ones psi q := by unfold ones; rw [matrix_parity psi h]

/-- the operator of `slow_string_order` on a site -/
theorem slowOp_acts {psi : State K} {Oi Om Oj : Tensor K} {i j : Int} (hij : i < j) (hi : Acts psi i Oi) (hj : Acts psi j Oj)
    (hm : ∀ k, i < k → k < j → Acts psi k Om) (k : Int) :
    Acts psi k (slowOp Oi i Om Oj j k) ∧ ITebd.orOne ((psi.matrix k).dim 1) (slowOp Oi i Om Oj j k) = placed psi Oi i Om Oj j k := by
  unfold slowOp placed
  by_cases h1 : k < i ∨ k > j
  · rw [if_pos h1, if_neg (by omega), if_neg (by omega), if_neg (by omega)]
    exact ⟨Or.inl rfl, by simp [ITebd.orOne, Tensor.empty, isEmpty, size, ones]⟩
  · rw [if_neg h1]
    by_cases h2 : k = i
    · subst h2
      simp only [if_true, if_neg (show k ≠ j by omega)]
      exact ⟨hi, trivial⟩
    · rw [if_neg h2, if_neg h2]
      by_cases h3 : k = j
      · subst h3
        simp only [if_true]
        exact ⟨hj, trivial⟩
      · rw [if_neg h3, if_neg h3, if_pos (by omega)]
        exact ⟨hm k (by omega) (by omega), rfl⟩

theorem slowOp_same {psi : State K} {Oi Om Oj : Tensor K} {i : Int} (hi : Oi.dims = [(psi.matrix i).dim 1, (psi.matrix i).dim 1])
    (hj : Oj.dims = [(psi.matrix i).dim 1, (psi.matrix i).dim 1]) (k : Int) :
    Acts psi k (slowOp Oi i Om Oj i k) ∧
      ITebd.orOne ((psi.matrix k).dim 1) (slowOp Oi i Om Oj i k) = if k = i then ITebd.orOne ((psi.matrix k).dim 1) (mmult Oi Oj) else ones psi k := by
  unfold slowOp
  by_cases h2 : k = i
  · subst h2
    simp only [gt_iff_lt, lt_self_iff_false, or_self, if_false, if_true]
    exact ⟨Or.inr (mmult_mat hi hj).1, trivial⟩
  · rw [if_pos (by omega), if_neg h2]
    exact ⟨Or.inl rfl, by simp [ITebd.orOne, Tensor.empty, isEmpty, size, ones]⟩

/-- the loop: both matrices stay transfer matrices with the same factor -/
theorem slowLoop {psi : State K} (h : Ok psi) {Oi Om Oj : Tensor K} {i j : Int} {f : Int → Tensor K} {first : Int} (hfirst : first % 2 = 0)
    (hf : ∀ k, Acts psi k (slowOp Oi i Om Oj j k) ∧ ITebd.orOne ((psi.matrix k).dim 1) (slowOp Oi i Om Oj j k) = f k)
    {R : Tensor K} {c : K} (hR1 : RepW psi (first - 2048) 2048 oneElt c R) (hRf : ∀ k, k < first → f k = ones psi k)
    (hv : c = 0 → VanishW psi (first - 2048) 2048) (n : Nat) :
    ∃ c', RepW psi (first - 2048) (2048 + n) (siteOps (first - 2048) (2048 + n) f) c'
        ((List.range n).foldl (fun R (n : Nat) => slowStep (siteT psi 0) (siteT psi 1) (eMatrix (siteT psi 0) (siteT psi 0))
          (eMatrix (siteT psi 1) (siteT psi 1)) Oi i Om Oj j R (first + n)) (R, R)).2 ∧
      RepW psi (first - 2048) (2048 + n) oneElt c'
        ((List.range n).foldl (fun R (n : Nat) => slowStep (siteT psi 0) (siteT psi 1) (eMatrix (siteT psi 0) (siteT psi 0))
          (eMatrix (siteT psi 1) (siteT psi 1)) Oi i Om Oj j R (first + n)) (R, R)).1 ∧
      (c' = 0 → VanishW psi (first - 2048) (2048 + n)) := by
  induction n with
  | zero =>
    refine ⟨c, ?_, hR1, hv⟩
    refine Rep.congr hR1 fun s hs t ht => ?_
    rw [← siteOps_ones h hs ht]
    refine congrFun (congrFun (siteOps_congr fun k hk => ?_) s) t
    rw [hRf _ (by omega)]
  | succ n ih =>
    obtain ⟨c', h1, h0, hv⟩ := ih
    rw [List.range_succ, List.foldl_append]
    simp only [List.foldl_cons, List.foldl_nil]
    set R' := (List.range n).foldl (fun R (n : Nat) => slowStep (siteT psi 0) (siteT psi 1) (eMatrix (siteT psi 0) (siteT psi 0))
          (eMatrix (siteT psi 1) (siteT psi 1)) Oi i Om Oj j R (first + n)) (R, R)
    set k := first + (n : Int) with hk
    have hA : (if k % 2 = 1 then siteT psi 1 else siteT psi 0) = siteT psi k := by
      split
      · rename_i hp
        unfold siteT State.matrix State.rightVector
        simp [hp]
      · rename_i hp
        unfold siteT State.matrix State.rightVector
        simp [hp]
    have hE : (if k % 2 = 1 then eMatrix (siteT psi 1) (siteT psi 1) else eMatrix (siteT psi 0) (siteT psi 0)) = eMatrix (siteT psi k) (siteT psi k) := by
      rw [← hA]; split <;> rfl
    unfold slowStep
    simp only [hA, hE]
    have e0 : RepW psi (first - 2048) (2048 + n + 1) oneElt c' (mmult R'.1 (eMatrix (siteT psi k) (siteT psi k))) := by
      have := RepW.mmult h h0 (q := k) (by push_cast; omega) (RepW.site h k) (O := oneElt)
        (fun s t hs ht s' t' _ _ => oneElt_append (by rw [hs.length_eq, ht.length_eq]))
      rwa [mul_one] at this
    have e1 : RepW psi (first - 2048) (2048 + n + 1) (siteOps (first - 2048) (2048 + n + 1) f) c'
        (if (slowOp Oi i Om Oj j k).isEmpty then mmult R'.2 (eMatrix (siteT psi k) (siteT psi k))
          else mmult R'.2 (eMatrix (foldin (slowOp Oi i Om Oj j k) (-1) (siteT psi k) 1) (siteT psi k))) := by
      have := RepW.snoc h h1 (q := k) (by push_cast; omega) (RepW.orOne h k (hf k).1 (f := f) (hf k).2.symm)
        (by congr 1; push_cast; omega)
      convert this using 1
      split <;> rfl
    refine ⟨_, Rep.smul e1 _, Rep.smul e0 _, fun hz => ?_⟩
    by_cases hc : c' = 0
    · exact VanishW.add h (hv hc) 1
    · refine Rep.frob_zero e0 ?_ hc
      rcases mul_eq_zero.1 hz with hz | hz
      · have : (1 / frob (mmult R'.1 (eMatrix (siteT psi k) (siteT psi k))) : ℝ) = 0 := by exact_mod_cast hz
        rcases div_eq_zero_iff.1 this with h | h
        · exact absurd h one_ne_zero
        · exact h
      · exact absurd hz hc

/-- the number of sites of the ring used by `slow_string_order` -/
theorem slowBody_eq {psi : State K} (h : Ok psi) {Oi Om Oj : Tensor K} {i j first last : Int} (hij : i ≤ j) {f : Int → Tensor K}
    (hfirst : first = if i % 2 = 1 then i - 1 else i) (hlast : last = if j % 2 = 1 then j else j + 1)
    (hf : ∀ k, Acts psi k (slowOp Oi i Om Oj j k) ∧ ITebd.orOne ((psi.matrix k).dim 1) (slowOp Oi i Om Oj j k) = f k)
    (hRf : ∀ k, k < i → f k = ones psi k) {n : Nat} (hn : (n : Int) = 2048 + (last + 1 - first))
    (h0 : ringNorm psi (first - 2048) n ≠ 0) :
    slowBody Oi i Om Oj j (psi.matrix 0) (psi.rightVector 0) (psi.matrix 1) (psi.rightVector 1) =
      ringValue psi (first - 2048) n (siteOps (first - 2048) n f) := by
  have hfe : first % 2 = 0 := by rw [hfirst]; split <;> omega
  have hle : last % 2 = 1 := by rw [hlast]; split <;> omega
  have hfi : first ≤ i := by rw [hfirst]; split <;> omega
  have hlj : j ≤ last := by rw [hlast]; split <;> omega
  unfold slowBody
  simp only [← hfirst, ← hlast]
  rw [show scale (psi.matrix 0) (-1) (psi.rightVector 0) = siteT psi 0 from rfl,
    show scale (psi.matrix 1) (-1) (psi.rightVector 1) = siteT psi 1 from rfl]
  have hcell : RepW psi (first - 2048) 2 oneElt 1 (mmult (eMatrix (siteT psi 0) (siteT psi 0)) (eMatrix (siteT psi 1) (siteT psi 1))) := by
    have := RepW.mmult h (RepW.shift (q := first - 2048) (by omega) (RepW.site h 0)) (q := 1) (by omega) (RepW.site h 1) (O := oneElt)
        (fun s t hs ht s' t' _ _ => oneElt_append (by rw [hs.length_eq, ht.length_eq]))
    rwa [mul_one] at this
  obtain ⟨c, hp, hv⟩ := infinitePower_rep h hcell
  obtain ⟨c', r1, r0, hv'⟩ := slowLoop h hfe hf hp (fun k hk => hRf k (by omega)) hv (last + 1 - first).toNat
  obtain rfl : n = 2048 + (last + 1 - first).toNat := by omega
  exact ratio (by omega) r1 r0 hv' h0

/-- the fused pair with the vector on its right -/
theorem pair_get {psi : State K} (h : Ok psi) (p : Int) :
    (scale (ensure3 (fold (scale (psi.matrix p) (-1) (psi.rightVector p)) (-1) (psi.matrix (p + 1)) 0)) (-1) (psi.rightVector (p + 1))).dims =
      [(psi.matrix p).dim 0, (psi.matrix p).dim 1 * (psi.matrix (p + 1)).dim 1, (psi.matrix (p + 2)).dim 0] ∧
    ∀ a < (psi.matrix p).dim 0, ∀ x < (psi.matrix p).dim 1, ∀ y < (psi.matrix (p + 1)).dim 1, ∀ b < (psi.matrix (p + 2)).dim 0,
      (scale (ensure3 (fold (scale (psi.matrix p) (-1) (psi.rightVector p)) (-1) (psi.matrix (p + 1)) 0)) (-1) (psi.rightVector (p + 1))).get
        [a, x + (psi.matrix p).dim 1 * y, b] = path (window psi p 2) [x, y] a b := by
  obtain ⟨d1, p1, p2, _⟩ := h.dims p
  obtain ⟨d2, q1, q2, _⟩ := h.dims (p + 1)
  rw [show p + 1 + 1 = p + 2 by ring] at d2
  have hs : (scale (psi.matrix p) (-1) (psi.rightVector p)) = siteT psi p := rfl
  have hX := h.siteT_dims p
  rw [hs]
  set D := (psi.matrix p).dim 0
  set d := (psi.matrix p).dim 1
  set m := (psi.matrix (p + 1)).dim 0
  set e := (psi.matrix (p + 1)).dim 1
  set E := (psi.matrix (p + 2)).dim 0 with hE
  have hEpos : 0 < E := by rw [hE]; exact (h.dims (p + 2)).2.1
  have hF : (fold (siteT psi p) (-1) (psi.matrix (p + 1)) 0).dims = [D, d, e, E] := by simp [fold, hX, d2, nrm]
  have h3 : ensure3 (fold (siteT psi p) (-1) (psi.matrix (p + 1)) 0) = reshape (fold (siteT psi p) (-1) (psi.matrix (p + 1)) 0) [D, d * e, E] := by
    unfold ensure3
    simp only [dim, size, rank, hF, nrm]
    have : D * (d * (e * E)) / (D * E) = d * e := by
      rw [show D * (d * (e * E)) = d * e * (D * E) by ring]
      exact Nat.mul_div_cancel _ (Nat.mul_pos p1 hEpos)
    simp [this]
  rw [h3]
  refine ⟨rfl, fun a ha x hx y hy b hb => ?_⟩
  show (reshape (fold (siteT psi p) (-1) (psi.matrix (p + 1)) 0) [D, d * e, E]).get [a, x + d * y, b] * (psi.rightVector (p + 1)).get [b] = _
  rw [fused_get hX d2 ha hx hy hb]
  have hw : window psi p 2 = [siteT psi p, siteT psi (p + 1)] := by simp [window, List.range_succ]
  have pc : ∀ Y : Tensor K, path [siteT psi p, Y] [x, y] a b = ∑ c ∈ Finset.range m, (siteT psi p).get [a, x, c] * path [Y] [y] c b := by
    intro Y; rw [path_cons, dim2_of hX]
  rw [hw, pc, pc, Finset.sum_mul]
  refine Finset.sum_congr rfl fun c _ => ?_
  rw [path_one d2 hb, path_one (h.siteT_dims (p + 1)) (by rw [show p + 1 + 1 = p + 2 by ring]; exact hb), h.siteT_get (p + 1)]
  ring

theorem winDims_two (psi : State K) (p : Int) : winDims psi p 2 = [(psi.matrix p).dim 1, (psi.matrix (p + 1)).dim 1] := by
  simp [winDims, List.range_succ]

theorem RepW.pair {psi : State K} (h : Ok psi) (p : Int) {op : Tensor K}
    (hop : op.dims = [(psi.matrix p).dim 1 * (psi.matrix (p + 1)).dim 1, (psi.matrix p).dim 1 * (psi.matrix (p + 1)).dim 1]) {A : Tensor K}
    (hA : A = scale (ensure3 (fold (scale (psi.matrix p) (-1) (psi.rightVector p)) (-1) (psi.matrix (p + 1)) 0)) (-1) (psi.rightVector (p + 1))) :
    RepW psi p 2 oneElt 1 (eMatrix A A) ∧ RepW psi p 2 (pairElt ((psi.matrix p).dim 1) op) 1 (eMatrix (foldin op (-1) A 1) A) := by
  obtain ⟨g1, g2⟩ := pair_get h p
  rw [← hA] at g1 g2
  clear hA
  obtain ⟨f1, f2⟩ := foldin_op g1 hop
  obtain ⟨e1, e2⟩ := eMatrix_get g1 g1
  obtain ⟨o1, o2⟩ := eMatrix_get f1 g1
  unfold RepW
  rw [show p + ((2 : Nat) : Int) = p + 2 by norm_num, winDims_two]
  have hpos := (h.dims p).2.2.1
  constructor
  · refine ⟨e1, fun a ha a' ha' b hb b' hb' => ?_⟩
    rw [e2 a ha a' ha' b hb b' hb', one_mul, sum_range_mul, Finset.sum_comm]
    unfold transferO oneElt
    simp only [sumCfg_cons, sumCfg]
    refine Finset.sum_congr rfl fun x hx => Finset.sum_congr rfl fun y hy => ?_
    rw [Finset.sum_eq_single_of_mem x hx (fun j _ hj => Finset.sum_eq_zero fun z _ => by rw [if_neg (by simp [Ne.symm hj])]; simp),
      Finset.sum_eq_single_of_mem y hy (fun j _ hj => by rw [if_neg (by simp [Ne.symm hj])]; simp), if_pos rfl,
      g2 a ha x (Finset.mem_range.1 hx) y (Finset.mem_range.1 hy) b hb, g2 a' ha' x (Finset.mem_range.1 hx) y (Finset.mem_range.1 hy) b' hb']
    ring
  · refine ⟨o1, fun a ha a' ha' b hb b' hb' => ?_⟩
    rw [o2 a ha a' ha' b hb b' hb', one_mul, sum_range_mul, Finset.sum_comm]
    unfold transferO pairElt
    simp only [sumCfg_cons, sumCfg, List.getD_cons_zero, List.getD_cons_succ]
    refine Finset.sum_congr rfl fun x hx => Finset.sum_congr rfl fun y hy => ?_
    rw [f2, sum_range_mul, Finset.sum_comm, Finset.sum_mul]
    refine Finset.sum_congr rfl fun z hz => ?_
    rw [Finset.sum_mul]
    refine Finset.sum_congr rfl fun w hw => ?_
    rw [g2 a ha z (Finset.mem_range.1 hz) w (Finset.mem_range.1 hw) b hb, g2 a' ha' x (Finset.mem_range.1 hx) y (Finset.mem_range.1 hy) b' hb']
    ring

theorem slowPair_eq {psi : State K} (h : Ok psi) (p : Int) {op : Tensor K}
    (hop : op.dims = [(psi.matrix p).dim 1 * (psi.matrix (p + 1)).dim 1, (psi.matrix p).dim 1 * (psi.matrix (p + 1)).dim 1])
    (h0 : ringNorm psi p 2050 ≠ 0) :
    slowPair op (psi.matrix p) (psi.rightVector p) (psi.matrix (p + 1)) (psi.rightVector (p + 1)) =
      ringValue psi p 2050 (widen 0 2 (pairElt ((psi.matrix p).dim 1) op)) := by
  unfold slowPair slowCell
  simp only
  set A := scale (ensure3 (fold (scale (psi.matrix p) (-1) (psi.rightVector p)) (-1) (psi.matrix (p + 1)) 0)) (-1) (psi.rightVector (p + 1)) with hA
  clear_value A
  obtain ⟨r0, r2⟩ := RepW.pair h p hop hA
  obtain ⟨c, hp, hv⟩ := infinitePower_rep h r0
  have e0 := RepW.mmult h r0 (q := p) (by push_cast; omega) hp (O := oneElt)
        (fun s t hs ht s' t' _ _ => oneElt_append (by rw [hs.length_eq, ht.length_eq]))
  have e1 := RepW.mmult h r2 (q := p) (by push_cast; omega) hp (O := widen 0 2 (pairElt ((psi.matrix p).dim 1) op))
        (fun s t hs ht s' t' _ _ => by
          have l1 : s.length = 2 := by rw [hs.length_eq, winDims_length]
          have l2 : t.length = 2 := by rw [ht.length_eq, winDims_length]
          unfold widen oneElt
          have e1 : (s ++ s').drop 2 = s' := by rw [← l1]; simp
          have e2 : (t ++ t').drop 2 = t' := by rw [← l2]; simp
          have e3 : (s ++ s').take 2 = s := by rw [← l1]; simp
          have e4 : (t ++ t').take 2 = t := by rw [← l2]; simp
          simp only [List.take_zero, List.drop_zero, zero_add, e1, e2, e3, e4, true_and]
          split <;> simp)
  rw [one_mul] at e0 e1
  refine ratio (by norm_num) e1 e0 (fun hc => ?_) h0
  have := VanishW.add h (hv hc) 2
  unfold VanishW Vanish at *
  intro a ha a' ha' b hb b' hb'
  have w1 : window psi p 2050 = window psi p 2 ++ window psi (p + 2) 2048 := window_add psi p 2 2048
  have w2 : winDims psi p 2050 = winDims psi p 2 ++ winDims psi (p + 2) 2048 := winDims_add psi p 2 2048
  rw [w1, w2, transferO_append (h.window_wf 2 p) (h.window_wf 2048 (p + 2)) (O1 := oneElt) (O2 := oneElt)
    (fun s t hs ht s' t' _ _ => oneElt_append (by rw [hs.length_eq, ht.length_eq])) a' a b' b ha' ha]
  refine Finset.sum_eq_zero fun x hx => Finset.sum_eq_zero fun y hy => ?_
  have hh := hv hc
  have par : (p + ((2 : Nat) : Int)) % 2 = p % 2 := by push_cast; omega
  rw [window_shift psi (p := p + 2) (q := p) (by omega), winDims_shift psi (p := p + 2) (q := p) (by omega)]
  rw [matrix_parity psi par] at hx hy
  have par2 : psi.matrix (p + ((2 + 2048 : Nat) : Int)) = psi.matrix (p + ((2048 : Nat) : Int)) := matrix_parity psi (by push_cast; omega)
  rw [par2] at hb hb'
  rw [hh y (Finset.mem_range.1 hy) x (Finset.mem_range.1 hx) b hb b' hb', mul_zero]

end MPS.ITebd
