import Verif.Props.HamProps6
import Verif.MPSLemmas2
import Verif.MPOBuild2
import Verif.TrotterSpec
import Mathlib.Algebra.BigOperators.Group.Finset.Piecewise

/-!
# Property C39: sparse matrices of one-dimensional Hamiltonians
-/

set_option linter.unusedSectionVars false
set_option linter.unusedSimpArgs false

namespace MPS.Props
open MPS Tensor
variable {K : Type} [RCLike K]

section Block
variable {R : Type} [CommRing R]

theorem flat_append {a s : List Nat} (h : s.length = a.length) (b t : List Nat) :
    flat (a ++ b) (s ++ t) = flat a s + a.prod * flat b t := by
  induction a generalizing s with
  | nil => cases s with
    | nil => simp [flat]
    | cons _ _ => simp at h
  | cons e a ih => cases s with
    | nil => simp at h
    | cons j s =>
      simp only [List.cons_append, flat, ih (by simpa using h), List.prod_cons]
      ring

theorem flat_inj {ds s t : List Nat} (hs : IsCfg ds s) (ht : IsCfg ds t) (h : flat ds s = flat ds t) : s = t := by
  rw [← unflat_flat hs, ← unflat_flat ht, h]

/-- an operator on a block of consecutive sites, embedded with Kronecker products -/
theorem block_get {a b c : List Nat} {h : Tensor R} (hd : h.dims = [b.prod, b.prod]) {sa sb sc ta tb tc : List Nat}
    (hsa : IsCfg a sa) (hta : IsCfg a ta) (hsb : IsCfg b sb) (htb : IsCfg b tb) (hsc : IsCfg c sc) (htc : IsCfg c tc) :
    (kron (eye c.prod) (kron h (eye a.prod))).get [flat (a ++ (b ++ c)) (sa ++ (sb ++ sc)), flat (a ++ (b ++ c)) (ta ++ (tb ++ tc))]
      = if sa = ta ∧ sc = tc then h.get [flat b sb, flat b tb] else 0 := by
  have e0 : ∀ {x u v w : List Nat}, IsCfg a u → IsCfg b v → flat (a ++ (b ++ c)) (u ++ (v ++ w)) =
      flat a u + a.prod * (flat b v + b.prod * flat c w) := by
    intro x u v w hu hv
    rw [flat_append hu.length, flat_append hv.length]
  have e1 := e0 (x := []) (w := sc) hsa hsb
  have e2 := e0 (x := []) (w := tc) hta htb
  have la := flat_lt hsa
  have la' := flat_lt hta
  have lb := flat_lt hsb
  have lb' := flat_lt htb
  have pa : 0 < a.prod := by omega
  have pb : 0 < b.prod := by omega
  have key : ∀ x y z, x < a.prod → y < b.prod → (x + a.prod * (y + b.prod * z)) / (a.prod * b.prod) = z ∧
      (x + a.prod * (y + b.prod * z)) % (a.prod * b.prod) / a.prod = y ∧
      (x + a.prod * (y + b.prod * z)) % (a.prod * b.prod) % a.prod = x := by
    intro x y z hx hy
    have h1 : x + a.prod * y < a.prod * b.prod := add_mul_lt hx hy
    have h2 : x + a.prod * (y + b.prod * z) = (x + a.prod * y) + (a.prod * b.prod) * z := by ring
    rw [h2, Nat.add_mul_div_left _ _ (Nat.mul_pos pa pb), Nat.div_eq_of_lt h1, Nat.add_mul_mod_self_left, Nat.mod_eq_of_lt h1,
      Nat.add_mul_div_left _ _ pa, Nat.div_eq_of_lt hx, Nat.add_mul_mod_self_left, Nat.mod_eq_of_lt hx]
    simp
  obtain ⟨p1, p2, p3⟩ := key (flat a sa) (flat b sb) (flat c sc) la lb
  obtain ⟨q1, q2, q3⟩ := key (flat a ta) (flat b tb) (flat c tc) la' lb'
  rw [e1, e2]
  have d0 : (kron h (eye a.prod : Tensor R)).dim 0 = a.prod * b.prod := by simp [kron, dim, hd, nrm, eye]
  have d1 : (kron h (eye a.prod : Tensor R)).dim 1 = a.prod * b.prod := by simp [kron, dim, hd, nrm, eye]
  have d2 : (eye a.prod : Tensor R).dim 0 = a.prod := by simp [eye, dim, nrm]
  have d3 : (eye a.prod : Tensor R).dim 1 = a.prod := by simp [eye, dim, nrm]
  have kg : ∀ (A B : Tensor R) (x y : Nat), (kron A B).get [x, y] =
      A.get [x / B.dim 0, y / B.dim 1] * B.get [x % B.dim 0, y % B.dim 1] := fun A B x y => rfl
  rw [kg, d0, d1, kg, d2, d3, p1, p2, p3, q1, q2, q3, eye_get, eye_get]
  have ia : flat a sa = flat a ta ↔ sa = ta := ⟨flat_inj hsa hta, fun h => by rw [h]⟩
  have ic : flat c sc = flat c tc ↔ sc = tc := ⟨flat_inj hsc htc, fun h => by rw [h]⟩
  simp only [dlt, ia, ic]
  by_cases h1 : sa = ta <;> by_cases h2 : sc = tc <;> simp [h1, h2]

theorem kron_dims {c a : Nat} {h : Tensor R} {b : Nat} (hd : h.dims = [b, b]) :
    (kron (eye c) (kron h (eye a))).dims = [a * b * c, a * b * c] := by
  simp [kron, dim, hd, nrm, eye]

/-- the product in `embed1`, `embed2` -/
theorem prod_delta (N : Nat) (P : Nat → Prop) [DecidablePred P] (s t : List Nat) :
    (∏ j ∈ Finset.range N, if P j ∧ s.getD j 0 ≠ t.getD j 0 then (0 : R) else 1) =
      open Classical in if ∀ j, j < N → P j → s.getD j 0 = t.getD j 0 then 1 else 0 := by
  classical
  split
  · rename_i h
    refine Finset.prod_eq_one fun j hj => ?_
    rw [if_neg]
    rintro ⟨a, b⟩
    exact b (h j (Finset.mem_range.1 hj) a)
  · rename_i h
    push Not at h
    obtain ⟨j, hj, hp, hne⟩ := h
    exact Finset.prod_eq_zero (Finset.mem_range.2 hj) (if_pos ⟨hp, hne⟩)

theorem getD_ext {s t : List Nat} (hl : s.length = t.length) (h : ∀ j, j < s.length → s.getD j 0 = t.getD j 0) : s = t := by
  refine List.ext_getElem hl fun j h1 h2 => ?_
  have := h j h1
  simpa [h1, h2] using this

theorem isCfg_split3 {ds : List Nat} {k m : Nat} (hk : k + m ≤ ds.length) {s : List Nat} (hs : IsCfg ds s) :
    IsCfg (ds.take k) (s.take k) ∧ IsCfg ((ds.drop k).take m) ((s.drop k).take m) ∧ IsCfg (ds.drop (k + m)) (s.drop (k + m)) := by
  have hh : ∀ n, IsCfg (ds.take n) (s.take n) ∧ IsCfg (ds.drop n) (s.drop n) :=
    fun n => ⟨List.forall₂_take n hs, List.forall₂_drop n hs⟩
  exact ⟨(hh k).1, List.forall₂_take m (hh k).2, (hh (k + m)).2⟩

theorem split3 {α : Type} (l : List α) (k m : Nat) : l = l.take k ++ ((l.drop k).take m ++ l.drop (k + m)) := by
  conv_lhs => rw [← List.take_append_drop k l, ← List.take_append_drop m (l.drop k), List.drop_drop]

/-- the block of `m` sites from `k` on, and the rest of the configuration -/
theorem block_embed {ds : List Nat} {k m : Nat} (hk : k + m ≤ ds.length) {h : Tensor R}
    (hd : h.dims = [((ds.drop k).take m).prod, ((ds.drop k).take m).prod]) {s t : List Nat} (hs : IsCfg ds s) (ht : IsCfg ds t) :
    (kron (eye (ds.drop (k + m)).prod) (kron h (eye (ds.take k).prod))).get [flat ds s, flat ds t] =
      h.get [flat ((ds.drop k).take m) ((s.drop k).take m), flat ((ds.drop k).take m) ((t.drop k).take m)] *
      ∏ j ∈ Finset.range ds.length, if ¬ (k ≤ j ∧ j < k + m) ∧ s.getD j 0 ≠ t.getD j 0 then 0 else 1 := by
  obtain ⟨a1, a2, a3⟩ := isCfg_split3 hk hs
  obtain ⟨b1, b2, b3⟩ := isCfg_split3 hk ht
  have := block_get hd a1 b1 a2 b2 a3 b3
  rw [← split3 ds k m, ← split3 s k m, ← split3 t k m] at this
  rw [this, prod_delta]
  have hls := hs.length
  have hlt := ht.length
  have hiff : (s.take k = t.take k ∧ s.drop (k + m) = t.drop (k + m)) ↔
      ∀ j, j < ds.length → ¬ (k ≤ j ∧ j < k + m) → s.getD j 0 = t.getD j 0 := by
    constructor
    · rintro ⟨h1, h2⟩ j hj hn
      rcases Nat.lt_or_ge j k with h | h
      · have := congrArg (fun l => l.getD j 0) h1
        simpa [List.getElem?_take, h] using this
      · have hjm : k + m ≤ j := by omega
        have := congrArg (fun l => l.getD (j - (k + m)) 0) h2
        simpa [List.getElem?_drop, Nat.add_sub_cancel' hjm] using this
    · intro h
      constructor
      · refine getD_ext (by simp [hls, hlt]) fun j hj => ?_
        have hj' : j < k := by simp at hj; omega
        have := h j (by omega) (by omega)
        simpa [List.getElem?_take, hj'] using this
      · refine getD_ext (by simp [hls, hlt]) fun j hj => ?_
        have hj' : k + m + j < ds.length := by simp at hj; omega
        have := h (k + m + j) hj' (by omega)
        simpa [List.getElem?_drop] using this
  by_cases hc : s.take k = t.take k ∧ s.drop (k + m) = t.drop (k + m)
  · rw [if_pos hc, if_pos (hiff.1 hc), mul_one]
  · rw [if_neg hc, if_neg (fun h => hc (hiff.2 h)), mul_zero]

theorem drop_take_one {l : List Nat} {k : Nat} (h : k < l.length) : (l.drop k).take 1 = [l.getD k 0] := by
  rw [List.drop_eq_getElem_cons h, List.take_succ_cons, List.take_zero, List.getD_eq_getElem _ _ h]

theorem drop_take_two {l : List Nat} {k : Nat} (h : k + 1 < l.length) : (l.drop k).take 2 = [l.getD k 0, l.getD (k + 1) 0] := by
  rw [List.drop_eq_getElem_cons (by omega), List.drop_eq_getElem_cons h, List.take_succ_cons, List.take_succ_cons, List.take_zero,
    List.getD_eq_getElem _ _ h, List.getD_eq_getElem _ _ (by omega)]

theorem one_embed {ds : List Nat} {k : Nat} (hk : k < ds.length) {h : Tensor R}
    (hd : h.dims = [ds.getD k 0, ds.getD k 0]) {s t : List Nat} (hs : IsCfg ds s) (ht : IsCfg ds t) :
    (kron (eye (ds.drop (k + 1)).prod) (kron h (eye (ds.take k).prod))).get [flat ds s, flat ds t] = embed1 ds.length k h s t := by
  have := block_embed (m := 1) (show k + 1 ≤ ds.length by omega) (h := h) (by rw [drop_take_one hk]; simpa using hd) hs ht
  rw [this, drop_take_one hk, drop_take_one (by rw [hs.length]; exact hk), drop_take_one (by rw [ht.length]; exact hk)]
  unfold embed1
  simp only [flat, mul_zero, add_zero]
  congr 1
  refine Finset.prod_congr rfl fun j _ => ?_
  have : (¬ (k ≤ j ∧ j < k + 1)) ↔ j ≠ k := by omega
  simp only [this]

theorem two_embed {ds : List Nat} {k : Nat} (hk : k + 1 < ds.length) {h : Tensor R}
    (hd : h.dims = [ds.getD k 0 * ds.getD (k + 1) 0, ds.getD k 0 * ds.getD (k + 1) 0]) {s t : List Nat} (hs : IsCfg ds s)
    (ht : IsCfg ds t) :
    (kron (eye (ds.drop (k + 2)).prod) (kron h (eye (ds.take k).prod))).get [flat ds s, flat ds t] =
      embed2 ds.length (ds.getD k 0) k h s t := by
  have := block_embed (m := 2) (show k + 2 ≤ ds.length by omega) (h := h) (by rw [drop_take_two hk]; simpa using hd) hs ht
  rw [this, drop_take_two hk, drop_take_two (by rw [hs.length]; exact hk), drop_take_two (by rw [ht.length]; exact hk)]
  unfold embed2
  simp only [flat, mul_zero, add_zero]
  congr 1
  refine Finset.prod_congr rfl fun j _ => ?_
  have : (¬ (k ≤ j ∧ j < k + 2)) ↔ (j ≠ k ∧ j ≠ k + 1) := by omega
  simp only [this, and_assoc]

/-- add an optional term -/
def optAdd (out : Tensor R) (o : Option (Tensor R)) : Tensor R := o.elim out (add out)

/-- an entry of an optional term -/
def optGet (o : Option (Tensor R)) (idx : List Nat) : R := o.elim 0 fun x => x.get idx

theorem foldl_add_get (f : Nat → Option (Tensor R)) (n : Nat) (out : Tensor R) (idx : List Nat) :
    let r := (List.range n).foldl (fun out k => optAdd out (f k)) out
    r.dims = out.dims ∧ r.get idx = out.get idx + ∑ k ∈ Finset.range n, optGet (f k) idx := by
  induction n with
  | zero => simp
  | succ n ih =>
    simp only [List.range_succ, List.foldl_append, List.foldl_cons, List.foldl_nil] at ih ⊢
    rw [Finset.sum_range_succ]
    cases f n with
    | none => simpa [optAdd, optGet] using ih
    | some x => 
      refine ⟨ih.1, ?_⟩
      rw [← add_assoc, ← ih.2]
      rfl

end Block

theorem dLeft_eq (d : List Nat) {k : Nat} (hk : k ≤ d.length) : dLeft d k = (d.take k).prod := by
  induction k with
  | zero => simp [dLeft]
  | succ k ih =>
    rw [dLeft, ih (by omega), List.take_succ_eq_append_getElem (by omega)]
    simp [show k < d.length by omega]

theorem dRight_eq (d : List Nat) {k : Nat} (hk : k < d.length) : dRight d k = (d.drop (k + 1)).prod := by
  have key : ∀ i, i < d.length → dRightRev d i = (d.drop (d.length - i)).prod := by
    intro i
    induction i with
    | zero => intro _; simp [dRightRev]
    | succ i ih =>
      intro hi
      rw [dRightRev, ih (by omega), List.drop_eq_getElem_cons (show d.length - (i + 1) < d.length by omega)]
      have : d.length - (i + 1) + 1 = d.length - i := by omega
      rw [this, show d.length - 1 - i = d.length - (i + 1) by omega]
      simp [show d.length - (i + 1) < d.length by omega, mul_comm]
  rw [dRight, key _ (by omega), show d.length - (d.length - 1 - k) = k + 1 by omega]

/-- the terms given to `sparse_1d_hamiltonian(H12[], H1[])` are those of an open chain with local dimensions `ds`: each one is
missing or a square matrix of the right size, and the local dimension of every site is known from its local term, or is the
square root of the size of the interaction with the next site -/
structure SparseTerms (ds : List Nat) (H12 H1 : List (Tensor K)) : Prop where
  len12 : H12.length = ds.length
  len1 : H1.length = ds.length
  loc : ∀ k, k < ds.length → (site H1 k).isEmpty ∨ (site H1 k).dims = [ds.getD k 0, ds.getD k 0]
  inter : ∀ k, k + 1 < ds.length → (site H12 k).isEmpty ∨
    (site H12 k).dims = [ds.getD k 0 * ds.getD (k + 1) 0, ds.getD k 0 * ds.getD (k + 1) 0]
  known : ∀ k, k < ds.length → ¬ (site H1 k).isEmpty ∨ ¬ (site H12 k).isEmpty ∧ Nat.sqrt ((site H12 k).dim 0) = ds.getD k 0

/-- ⟨s|H|t⟩ for the sum over sites of the local terms and over the bonds `(k, k+1)` of the interactions, missing terms being
zero -/
noncomputable def sparseElt (ds : List Nat) (H12 H1 : List (Tensor K)) (s t : List Nat) : K :=
  ∑ k ∈ Finset.range ds.length, (if (site H1 k).isEmpty then 0 else embed1 ds.length k (site H1 k) s t) +
  ∑ k ∈ Finset.range (ds.length - 1), if (site H12 k).isEmpty then 0 else embed2 ds.length (ds.getD k 0) k (site H12 k) s t

theorem mapM_range_some {α : Type} (f : Nat → Option α) (g : Nat → α) (n : Nat) (h : ∀ k, k < n → f k = some (g k)) :
    (List.range n).mapM f = some ((List.range n).map g) := by
  induction n with
  | zero => simp
  | succ n ih =>
    rw [List.range_succ, List.mapM_append, ih fun k hk => h k (by omega)]
    simp [h n (by omega)]

theorem mapM_none {α : Type} (f : Nat → Option α) (l : List Nat) {k : Nat} (hk : k ∈ l) (h : f k = none) : l.mapM f = none := by
  induction l with
  | nil => simp at hk
  | cons a l ih =>
    rw [List.mapM_cons]
    rcases List.mem_cons.1 hk with rfl | h'
    · simp [h]
    · simp [ih h']

theorem guess_ok {ds : List Nat} {H12 H1 : List (Tensor K)} (h : SparseTerms ds H12 H1) :
    (List.range ds.length).mapM (fun k => guessDim (site H12 k) (site H1 k)) = some ds := by
  rw [mapM_range_some _ (fun k => ds.getD k 0) ds.length]
  · congr 1
    refine List.ext_getElem (by simp) fun j h1 h2 => ?_
    simp [h2]
  · intro k hk
    unfold guessDim
    by_cases he : (site H1 k).isEmpty
    · rcases h.known k hk with h' | ⟨h1, h2⟩
      · exact absurd he h'
      · rw [if_neg (by simpa using he), if_pos h1, h2]
    · rw [if_pos he]
      rcases h.loc k hk with h' | h'
      · exact absurd h' he
      · simp [dim, h', nrm]

/-- **C39** (open chains): `sparse_1d_hamiltonian(H12[], H1[], false)` is the sum over sites of `1 ⊗ h_k ⊗ 1` and over bonds
of `1 ⊗ h_{k,k+1} ⊗ 1`, in the basis where the first site is the fastest. -/
theorem C75_open (svd : Tensor K → SvdRes K) (eps dflt : ℝ) {ds : List Nat} (h0 : 0 < ds.length) {H12 H1 : List (Tensor K)}
    (h : SparseTerms ds H12 H1) :
    ∃ A, sparse1dMany svd eps dflt H12 H1 false = some A ∧ A.dims = [ds.prod, ds.prod] ∧
      ∀ s t, IsCfg ds s → IsCfg ds t → A.get [flat ds s, flat ds t] = sparseElt ds H12 H1 s t := by
  unfold sparse1dMany
  have hN : max H12.length H1.length = ds.length := by rw [h.len12, h.len1]; simp
  simp only [hN]
  rw [if_neg (by rw [h.len12, h.len1]; omega), guess_ok h]
  simp only [Option.bind_eq_bind, Option.bind_some, Bool.false_eq_true, false_and, if_false, Option.map_some]
  refine ⟨_, rfl, ?_⟩
  let f12 : Nat → Option (Tensor K) := fun k0 => if (site H12 k0).isEmpty then none else
    some (kron (eye (dRight ds (k0 + 1))) (kron (site H12 k0) (eye (dLeft ds k0))))
  let f1 : Nat → Option (Tensor K) := fun k => if (site H1 k).isEmpty then none else
    some (kron (eye (dRight ds k)) (kron (site H1 k) (eye (dLeft ds k))))
  have e12 : (fun (out : Tensor K) k0 => if (site H12 (k0 + 1 - 1)).isEmpty then out
      else add out (kron (eye (dRight ds (k0 + 1))) (kron (site H12 (k0 + 1 - 1)) (eye (dLeft ds (k0 + 1 - 1)))))) =
      fun out k0 => optAdd out (f12 k0) := by
    funext out k0
    simp only [f12, optAdd, Nat.add_sub_cancel]
    split <;> rfl
  have e1 : (fun (out : Tensor K) k => if (site H1 k).isEmpty then out
      else add out (kron (eye (dRight ds k)) (kron (site H1 k) (eye (dLeft ds k))))) =
      fun out k => optAdd out (f1 k) := by
    funext out k
    simp only [f1, optGet, optAdd]
    split <;> rfl
  rw [e12, e1]
  refine ⟨?_, fun s t hs ht => ?_⟩
  · rw [(foldl_add_get f1 _ _ []).1, (foldl_add_get f12 _ _ []).1]; rfl
  · rw [(foldl_add_get f1 _ _ _).2, (foldl_add_get f12 _ _ _).2]
    unfold sparseElt
    have ez : (zeros [ds.prod, ds.prod] : Tensor K).get [flat ds s, flat ds t] = 0 := rfl
    rw [ez, zero_add, add_comm]
    congr 1
    · refine Finset.sum_congr rfl fun k hk => ?_
      have hk := Finset.mem_range.1 hk
      simp only [f1, optGet, optAdd]
      by_cases he : (site H1 k).isEmpty
      · simp [he]
      · rw [if_neg he, if_neg he]
        rw [Option.elim_some]
        rw [dRight_eq ds hk, dLeft_eq ds hk.le]
        exact one_embed hk ((h.loc k hk).resolve_left he) hs ht
    · refine Finset.sum_congr rfl fun k hk => ?_
      have hk := Finset.mem_range.1 hk
      simp only [f12, optGet, optAdd]
      by_cases he : (site H12 k).isEmpty
      · simp [he]
      · rw [if_neg he, if_neg he]
        rw [Option.elim_some]
        rw [dRight_eq ds (by omega), dLeft_eq ds (by omega)]
        exact two_embed (by omega) ((h.inter k (by omega)).resolve_left he) hs ht

/-- **C39** (rejection): without a local term for the last site of an open chain whose vector of interactions has, as it
must, nothing to say about the bond after the last site, the program aborts. -/
theorem C39_missing_last_violated (svd : Tensor K → SvdRes K) (eps dflt : ℝ) (N : Nat) (hN : 0 < N) {H12 H1 : List (Tensor K)}
    (h12 : H12.length = N) (h1 : H1.length = N) (e12 : (site H12 (N - 1)).isEmpty) (e1 : (site H1 (N - 1)).isEmpty) (p : Bool) :
    sparse1dMany svd eps dflt H12 H1 p = none := by
  unfold sparse1dMany
  simp only
  split
  · rfl
  · rw [mapM_none _ _ (k := N - 1)]
    · rfl
    · rw [h12, h1]; simp; omega
    · simp [guessDim, e1, e12]

/-- **C39** (Hamiltonian objects): `sparse_hamiltonian(H, t)` of an open chain all of whose sites have a local term. -/
theorem C75_hamiltonian (svd : Tensor K → SvdRes K) (eps dflt : ℝ) {ds : List Nat} (h0 : 0 < ds.length) {H : Ham K}
    (hs : H.size = ds.length) (hp : H.periodic = false) (hpos : ∀ d ∈ ds, 0 < d)
    (hloc : ∀ k, k < ds.length → (H.loc k).dims = [ds.getD k 0, ds.getD k 0])
    (hint : ∀ k, k + 1 < ds.length → H.depth k ≠ 0 →
      (H.inter k).dims = [ds.getD k 0 * ds.getD (k + 1) 0, ds.getD k 0 * ds.getD (k + 1) 0]) :
    ∃ A, sparseHamiltonian svd eps dflt H = some A ∧ A.dims = [ds.prod, ds.prod] ∧
      ∀ s t, IsCfg ds s → IsCfg ds t → A.get [flat ds s, flat ds t] =
        ∑ k ∈ Finset.range ds.length, embed1 ds.length k (H.loc k) s t +
        ∑ k ∈ Finset.range (ds.length - 1), if H.depth k = 0 then 0 else embed2 ds.length (ds.getD k 0) k (H.inter k) s t := by
  have hd : ∀ k, k < ds.length → 0 < ds.getD k 0 := by
    intro k hk
    rw [List.getD_eq_getElem _ _ hk]
    exact hpos _ (List.getElem_mem hk)
  unfold sparseHamiltonian
  rw [hp, hs]
  set H12 : List (Tensor K) := (List.range ds.length).map fun k =>
    if (k + 1 < ds.length ∨ false = true) ∧ H.depth k ≠ 0 then H.inter k else Tensor.empty with hH12
  set H1 : List (Tensor K) := (List.range ds.length).map H.loc with hH1
  have s1 : ∀ k, k < ds.length → site H1 k = H.loc k := by
    intro k hk; simp [hH1, site, hk]
  have s12 : ∀ k, k + 1 < ds.length → site H12 k = if H.depth k = 0 then Tensor.empty else H.inter k := by
    intro k hk
    have hk' : k < ds.length := by omega
    by_cases hz : H.depth k = 0 <;> simp [hH12, site, hk, hk', hz]
  have ne1 : ∀ k, k < ds.length → (site H1 k).isEmpty = false := by
    intro k hk; rw [s1 k hk]; exact not_isEmpty (hloc k hk) (hd k hk)
  have emp : (Tensor.empty : Tensor K).isEmpty = true := by simp [Tensor.empty, isEmpty, size]
  have ne12 : ∀ k, k + 1 < ds.length → H.depth k ≠ 0 → (H.inter k).isEmpty = false := fun k hk hz =>
    not_isEmpty (hint k hk hz) (Nat.mul_pos (hd k (by omega)) (hd (k + 1) hk))
  have hT : SparseTerms ds H12 H1 := by
    refine ⟨by simp [hH12], by simp [hH1], ?_, ?_, ?_⟩
    · intro k hk; right; rw [s1 k hk]; exact hloc k hk
    · intro k hk
      rw [s12 k hk]
      by_cases hz : H.depth k = 0
      · left; rw [if_pos hz]; exact emp
      · right; rw [if_neg hz]; exact hint k hk hz
    · intro k hk; left; simp [ne1 k hk]
  obtain ⟨A, h1, h2, h3⟩ := C75_open svd eps dflt h0 hT
  refine ⟨A, h1, h2, fun s t hs ht => ?_⟩
  rw [h3 s t hs ht]
  unfold sparseElt
  congr 1
  · refine Finset.sum_congr rfl fun k hk => ?_
    have hk := Finset.mem_range.1 hk
    rw [ne1 k hk, s1 k hk]; simp
  · refine Finset.sum_congr rfl fun k hk => ?_
    have hk : k + 1 < ds.length := by have := Finset.mem_range.1 hk; omega
    rw [s12 k hk]
    by_cases hz : H.depth k = 0
    · simp [hz, emp]
    · simp [hz, ne12 k hk hz]

/-- **C39** (equal sites): `sparse_1d_hamiltonian(H12, H1, N, false)` puts the same terms on all sites and all bonds of an
open chain. -/
theorem C75_uniform (svd : Tensor K → SvdRes K) (eps dflt : ℝ) {d N : Nat} (hd : 0 < d) {H12 H1 : Tensor K}
    (h12 : H12.isEmpty ∨ H12.dims = [d * d, d * d]) (h1 : H1.isEmpty ∨ H1.dims = [d, d]) (hne : ¬ (H12.isEmpty ∧ H1.isEmpty))
    (z12 : H12.isEmpty → H12.dim 0 = 0) (z1 : H1.isEmpty → H1.dim 0 = 0) :
    ∃ A, sparse1dUniform svd eps dflt H12 H1 N false = some A ∧ A.dims = [d ^ N, d ^ N] ∧
      ∀ s t, IsCfg (List.replicate N d) s → IsCfg (List.replicate N d) t →
        A.get [flat (List.replicate N d) s, flat (List.replicate N d) t] =
          ∑ k ∈ Finset.range N, (if H1.isEmpty then 0 else embed1 N k H1 s t) +
          ∑ k ∈ Finset.range (N - 1), if H12.isEmpty then 0 else embed2 N d k H12 s t := by
  have hdd : max (H1.dim 0) (Nat.sqrt (H12.dim 0)) = d := by
    have a1 : H1.dims = [d, d] → H1.dim 0 = d := fun h => by simp [dim, h, nrm]
    have a2 : H12.dims = [d * d, d * d] → Nat.sqrt (H12.dim 0) = d := fun h => by
      have : H12.dim 0 = d * d := by simp [dim, h, nrm]
      rw [this, Nat.sqrt_eq]
    rcases h12 with a | a <;> rcases h1 with b | b
    · exact absurd ⟨a, b⟩ hne
    · rw [a1 b, z12 a]; simp
    · rw [a2 a, z1 b]; simp
    · rw [a1 b, a2 a]; simp
  unfold sparse1dUniform
  rw [if_neg hne, hdd]
  set ds := List.replicate N d with hds
  have hl : ds.length = N := by simp [hds]
  have tk : ∀ k, k ≤ N → (ds.take k).prod = d ^ k := by
    intro k hk; simp [hds, List.take_replicate, Nat.min_eq_left hk]
  have dr : ∀ k, (ds.drop k).prod = d ^ (N - k) := by
    intro k; simp [hds, List.drop_replicate]
  have gt : ∀ k, k < N → ds.getD k 0 = d := by
    intro k hk; simp [hds, hk]
  let f12 : Nat → Option (Tensor K) := fun k0 => some (kron (eye (d ^ (k0 + 1 - 1))) (kron H12 (eye (d ^ (N - (k0 + 1) - 1)))))
  let f1 : Nat → Option (Tensor K) := fun k => some (kron (eye (d ^ k)) (kron H1 (eye (d ^ (N - k - 1)))))
  have v1 : ¬ H1.isEmpty → ∀ s t, IsCfg ds s → IsCfg ds t → ∑ k ∈ Finset.range N,
      (optGet (f1 k) [flat ds s, flat ds t]) = ∑ k ∈ Finset.range N, embed1 N k H1 s t := by
    intro he s t hs ht
    rw [← Finset.sum_range_reflect]
    refine Finset.sum_congr rfl fun k hk => ?_
    have hk := Finset.mem_range.1 hk
    simp only [f1, optGet, Option.elim_some]
    have := one_embed (k := k) (by omega) (h := H1) (by rw [gt k hk]; exact h1.resolve_left he) hs ht
    rw [tk k hk.le, dr, hl] at this
    rw [← this, show N - 1 - k = N - (k + 1) by omega, show N - (N - (k + 1)) - 1 = k by omega]
  have v12 : ¬ H12.isEmpty → ∀ s t, IsCfg ds s → IsCfg ds t → ∑ k ∈ Finset.range (N - 1),
      (optGet (f12 k) [flat ds s, flat ds t]) = ∑ k ∈ Finset.range (N - 1), embed2 N d k H12 s t := by
    intro he s t hs ht
    rw [← Finset.sum_range_reflect]
    refine Finset.sum_congr rfl fun k hk => ?_
    have hk := Finset.mem_range.1 hk
    simp only [f12, optGet, Option.elim_some]
    have := two_embed (k := k) (by omega) (h := H12) (by rw [gt k (by omega), gt (k + 1) (by omega)]; exact h12.resolve_left he) hs ht
    rw [tk k (by omega), dr, hl, gt k (by omega)] at this
    rw [← this, show N - 1 - 1 - k + 1 - 1 = N - (k + 2) by omega, show N - (N - 1 - 1 - k + 1) - 1 = k by omega]
  have e1 : (fun (out : Tensor K) k => add out (kron (eye (d ^ k)) (kron H1 (eye (d ^ (N - k - 1)))))) =
      fun out k => optAdd out (f1 k) := rfl
  have e12 : (fun (out : Tensor K) k0 => add out (kron (eye (d ^ (k0 + 1 - 1))) (kron H12 (eye (d ^ (N - (k0 + 1) - 1)))))) =
      fun out k => optAdd out (f12 k) := rfl
  simp only [e1, e12, Bool.false_eq_true, false_and, if_false]
  have ez : ∀ i, (zeros [d ^ N, d ^ N] : Tensor K).get i = 0 := fun _ => rfl
  by_cases a : H12.isEmpty <;> by_cases b : H1.isEmpty <;> simp only [a, b, if_true, Bool.false_eq_true, if_false, Option.map_some]
  · exact absurd ⟨a, b⟩ hne
  · refine ⟨_, rfl, ?_, fun s t hs ht => ?_⟩
    · rw [(foldl_add_get f1 _ _ []).1]; rfl
    · rw [(foldl_add_get f1 _ _ _).2, v1 b s t hs ht, ez]; simp
  · refine ⟨_, rfl, ?_, fun s t hs ht => ?_⟩
    · rw [(foldl_add_get f12 _ _ []).1]; rfl
    · rw [(foldl_add_get f12 _ _ _).2, v12 a s t hs ht, ez]; simp
  · refine ⟨_, rfl, ?_, fun s t hs ht => ?_⟩
    · rw [(foldl_add_get f1 _ _ []).1, (foldl_add_get f12 _ _ []).1]; rfl
    · rw [(foldl_add_get f1 _ _ _).2, (foldl_add_get f12 _ _ _).2, v1 b s t hs ht, v12 a s t hs ht, ez]; ring

end MPS.Props
