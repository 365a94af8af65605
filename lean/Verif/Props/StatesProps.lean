import Verif.StatesLemmas
import Mathlib.NumberTheory.Zsqrtd.GaussianInt
import Mathlib.Tactic.Linarith

/-!
# Properties C09–C13: reduced density matrices, reference states, shapes of new states
-/

set_option linter.unusedSimpArgs false

namespace MPS.Props
open MPS Tensor
variable {R : Type} [CommRing R]

/-! ### C09 -/

/-- specification of the reduced density matrix of site `k`:
`ρ(i,j) = ∑_{l,r} φ(l,i,r) conj(φ(l,j,r))`, `l` and `r` ranging over the configurations to the left and right -/
def rdm [Star R] (ds : List Nat) (φ : List Nat → R) (k i j : Nat) : R :=
  sumCfg (ds.take k) fun l => sumCfg (ds.drop (k + 1)) fun r =>
    φ (l ++ i :: r) * star (φ (l ++ j :: r))

/-- C09 at full strength. FALSE of the code, see the two theorems `C09_…_violated`. -/
def C09Statement (R : Type) [CommRing R] [StarRing R] : Prop :=
  ∀ (ds : List Nat) (ψ : List (Tensor R)) (k : Nat), IsMPS ds ψ → k < ds.length →
    ∃ ρ, densityMatrix ψ k = some ρ ∧ ρ.dims = [ds.getD k 0, ds.getD k 0] ∧
      ∀ i j, i < ds.getD k 0 → j < ds.getD k 0 → ρ.get [i, j] = rdm ds (amp ψ) k i j

/-- C09 for real scalars (trivial conjugation) and every site but the first and last. -/
theorem C09_density_matrix_partial [StarRing R] [TrivialStar R] {ds : List Nat} {ψ : List (Tensor R)}
    (h : IsMPS ds ψ) (k : Nat) (hk0 : 0 < k) (hk : k + 1 < ds.length) :
    ∃ ρ, densityMatrix ψ k = some ρ ∧ ρ.dims = [ds.getD k 0, ds.getD k 0] ∧
      ∀ i j, i < ds.getD k 0 → j < ds.getD k 0 → ρ.get [i, j] = rdm ds (amp ψ) k i j := by
  obtain ⟨hne, D, hW⟩ := h
  have hlen := hW.length
  have hsp : ψ = ψ.take k ++ (ψ[k]'(by omega) :: ψ.drop (k + 1)) := by
    rw [List.getElem_cons_drop]; exact (List.take_append_drop k ψ).symm
  have hW' := hW
  rw [hsp] at hW'
  obtain ⟨ds1, ds2, c, hds, hL, hR'⟩ := hW'.split
  cases hR' with
  | @cons _ d c' _ A _ ds3 h1 h2 h3 h4 hR =>
    have hkl : k ≤ ψ.length := by omega
    have hl1 : ds1.length = k := by rw [← hL.length, List.length_take]; exact Nat.min_eq_left hkl
    have htk : ds.take k = ds1 := by rw [hds, ← hl1]; simp
    have hdk : ds.drop (k + 1) = ds3 := by
      rw [hds, ← hl1]; simp [List.drop_append]
    have hgd : ds.getD k 0 = d := by rw [hds, ← hl1]; simp
    have hD0 : 0 < D := by
      cases hW with
      | nil => exact absurd rfl hne
      | cons _ h _ _ _ => exact h
    have hLne : (ψ.take k).map (fun A => (A, A, (none : Option (Tensor R)))) ≠ [] := by
      intro he; have := congrArg List.length he
      rw [List.length_map, List.length_take, List.length_nil] at this; omega
    have hRne : (ψ.drop (k + 1)).map (fun A => (A, A, (none : Option (Tensor R)))) ≠ [] := by
      intro he; have := congrArg List.length he; simp at this; omega
    have hb : ∀ l : List (Tensor R), Trip.bras (l.map (fun A => (A, A, (none : Option (Tensor R))))) = l := by
      intro l; simp [Trip.bras, Function.comp_def]
    have hkt : ∀ l : List (Tensor R), Trip.kets (l.map (fun A => (A, A, (none : Option (Tensor R))))) = l := by
      intro l; simp [Trip.kets, Function.comp_def]
    have hac : ∀ l : List (Tensor R), Trip.acted (l.map (fun A => (A, A, (none : Option (Tensor R))))) = l := by
      intro l; simp [Trip.acted, Function.comp_def, actT]
    have hoo : ∀ (l : List (Tensor R)) (es : List Nat), l.length = es.length →
        Trip.OpsOk es (l.map (fun A => (A, A, (none : Option (Tensor R))))) := by
      intro l es hl
      unfold Trip.OpsOk; rw [List.forall₂_iff_get]
      exact ⟨by simp [hl], fun i h1 h2 => by simp [OpOk]⟩
    have hML := propAllRight_empty (l := (ψ.take k).map fun A => (A, A, (none : Option (Tensor R))))
      (es := ds1) (a1 := D) (b1 := D) (a2 := c) (b2 := c) hLne (by rw [hb]; exact hL)
      (by rw [hkt]; exact hL) (hoo _ _ hL.length)
    have hMR := propAllLeft_empty (l := (ψ.drop (k + 1)).map fun A => (A, A, (none : Option (Tensor R))))
      (es := ds3) (a1 := c') (b1 := c') (a2 := D) (b2 := D) hRne (by rw [hb]; exact hR)
      (by rw [hkt]; exact hR) (hoo _ _ hR.length)
    rw [hb, hac] at hML hMR
    set ML := propAllRight Tensor.empty ((ψ.take k).map fun A => (A, A, (none : Option (Tensor R))))
    set MR := propAllLeft Tensor.empty ((ψ.drop (k + 1)).map fun A => (A, A, (none : Option (Tensor R))))
    have hsite : site ψ k = ψ[k]'(by omega) := by
      simp [site, List.getElem?_eq_getElem (show k < ψ.length by omega)]
    have hdef : densityMatrix ψ k = some (densityContract ML MR (site ψ k)) := by
      unfold densityMatrix
      rw [if_pos (by omega), if_pos ⟨hML.rank, hMR.rank⟩]
    refine ⟨_, hdef, ?_, ?_⟩
    · rw [hgd, hsite]
      exact (densityContract_get hML.1 hMR.1 h1 rfl rfl h3 h3).1
    · intro i j hi hj
      rw [hgd] at hi hj
      rw [hsite, (densityContract_get hML.1 hMR.1 h1 rfl rfl hi hj).2, rdm, htk, hdk]
      -- amplitudes in terms of the three parts
      have hamp : ∀ l r i, IsCfg ds1 l → IsCfg ds3 r → amp ψ (l ++ i :: r) =
          ∑ x1 ∈ Finset.range D, ∑ x2 ∈ Finset.range c, ∑ x3 ∈ Finset.range c',
            path (ψ.take k) l x1 x2 * ((ψ[k]'(by omega)).get [x2, i, x3] * path (ψ.drop (k + 1)) r x3 x1) := by
        intro l r i hl hr
        rw [amp_of_WF hW hne]
        refine Finset.sum_congr rfl fun x1 hx1 => ?_
        rw [Finset.mem_range] at hx1
        conv_lhs => rw [hsp]
        rw [path_append hL (by rw [hl.length, hL.length]) hx1]
        refine Finset.sum_congr rfl fun x2 _ => ?_
        rw [path_cons, dim2_of h1, Finset.mul_sum]
      have hterm : ∀ l, IsCfg ds1 l → ∀ r, IsCfg ds3 r →
          amp ψ (l ++ i :: r) * star (amp ψ (l ++ j :: r)) =
          ∑ x3 ∈ Finset.range c', ∑ x2 ∈ Finset.range c, ∑ y3 ∈ Finset.range c', ∑ y2 ∈ Finset.range c,
          ∑ y1 ∈ Finset.range D, ∑ x1 ∈ Finset.range D,
            (star ((ψ[k]'(by omega)).get [y2, j, y3]) * (ψ[k]'(by omega)).get [x2, i, x3]) *
            ((star (path (ψ.drop (k + 1)) r x3 x1) * path (ψ.drop (k + 1)) r y3 y1) *
             (star (path (ψ.take k) l x1 x2) * path (ψ.take k) l y1 y2)) := by
        intro l hl r hr
        rw [hamp l r i hl hr, hamp l r j hl hr]
        simp only [star_trivial]
        -- reorder the first factor to x3, x2, x1 and the second to y3, y2, y1
        have r1 : ∀ (f : Nat → Nat → Nat → R), ∑ x1 ∈ Finset.range D, ∑ x2 ∈ Finset.range c,
            ∑ x3 ∈ Finset.range c', f x1 x2 x3 = ∑ x3 ∈ Finset.range c', ∑ x2 ∈ Finset.range c,
            ∑ x1 ∈ Finset.range D, f x1 x2 x3 := by
          intro f
          rw [Finset.sum_comm]
          simp only [Finset.sum_comm (s := Finset.range D) (t := Finset.range c')]
          rw [Finset.sum_comm]
        rw [r1, r1, mul_comm]
        simp only [Finset.sum_mul, Finset.mul_sum]
        refine Finset.sum_congr rfl fun x3 _ => Finset.sum_congr rfl fun x2 _ => ?_
        rw [Finset.sum_comm]
        refine Finset.sum_congr rfl fun y3 _ => ?_
        rw [Finset.sum_comm]
        refine Finset.sum_congr rfl fun y2 _ => ?_
        rw [Finset.sum_comm]
        exact Finset.sum_congr rfl fun y1 _ => Finset.sum_congr rfl fun x1 _ => by ring
      rw [sumCfg_congr fun l hl => sumCfg_congr fun r hr => hterm l hl r hr]
      simp only [sumCfg_sum, sumCfg_mul_left, sumCfg_mul_right]
      refine Finset.sum_congr rfl fun x3 hx3 => Finset.sum_congr rfl fun x2 hx2 => ?_
      rw [Finset.sum_mul]
      refine Finset.sum_congr rfl fun y3 hy3 => ?_
      rw [Finset.sum_mul]
      refine Finset.sum_congr rfl fun y2 hy2 => ?_
      rw [mul_right_comm, Finset.mul_sum]
      refine Finset.sum_congr rfl fun y1 hy1 => ?_
      rw [Finset.mul_sum]
      refine Finset.sum_congr rfl fun x1 hx1 => ?_
      rw [Finset.mem_range] at hx3 hx2 hy3 hy2 hy1 hx1
      rw [hML.2 _ _ _ _ hx1 hy1 hx2 hy2, hMR.2 _ _ _ _ hx3 hy3 hx1 hy1]

/-- C09 fails at the first and at the last site: the code asks the four dimensions of a tensor that was never
assigned. -/
theorem C09_boundary_violated [StarRing R] {ds : List Nat} {ψ : List (Tensor R)} (_ : IsMPS ds ψ)
    (k : Nat) (hk : k = 0 ∨ k + 1 = ψ.length) : densityMatrix ψ k = none := by
  unfold densityMatrix
  split
  case isFalse => rfl
  case isTrue hlt =>
    rcases hk with rfl | hk
    · rw [if_neg]
      simp [propAllRight, Tensor.rank, Tensor.empty]
    · rw [if_neg]
      rw [List.drop_eq_nil_of_le (by omega)]
      simp [propAllLeft, Tensor.rank, Tensor.empty]

/-- three sites, bond dimension 2, complex entries: amplitude `1·1·1 + i·1·1` with a middle site of dimension 2 -/
def exCplx : List (Tensor GaussianInt) :=
  [⟨[1, 1, 2], fun j => if j.getD 2 0 = 0 then 1 else ⟨0, 1⟩⟩,
   ⟨[2, 2, 1], fun j => if j = [0, 0, 0] then 1 else if j = [1, 1, 0] then 1 else 0⟩,
   ⟨[1, 1, 1], fun _ => 1⟩]

/-- C09 fails for complex states also at inner sites: for the product state `1 ⊗ (|0⟩ + i|1⟩) ⊗ 1` the exact reduced
density matrix has `ρ(0,1) = -i`; the code returns `i`. -/
theorem C09_complex_violated : ¬ C09Statement GaussianInt := by
  intro h
  obtain ⟨ρ, h1, h2, h3⟩ := h [1, 2, 1] exCplx 1
    ⟨by simp [exCplx], 1, .cons rfl (by simp) (by simp) (by simp) (.cons rfl (by simp) (by simp) (by simp)
      (.cons rfl (by simp) (by simp) (by simp) (.nil 1)))⟩ (by simp)
  have h4 := h3 0 1 (by simp) (by simp)
  have h5 : (densityMatrix exCplx 1).map (fun ρ => ρ.get [0, 1]) = some (rdm [1, 2, 1] (amp exCplx) 1 0 1) := by
    rw [h1, Option.map_some, h4]
  revert h5
  decide +kernel

section example09
def exT' (a d b : Nat) (seed : Int) : Tensor ℤ :=
  ⟨[a, d, b], fun i => seed + (i.getD 0 0 : Int) * 2 - (i.getD 1 0 : Int) * 3 + (i.getD 2 0 : Int)⟩
/-- the hypotheses of `C09_density_matrix_partial` are met by a three site chain -/
example : ∃ ρ, densityMatrix [exT' 1 2 2 1, exT' 2 3 2 (-1), exT' 2 2 1 2] 1 = some ρ ∧
    ρ.get [0, 2] = rdm [2, 3, 2] (amp [exT' 1 2 2 1, exT' 2 3 2 (-1), exT' 2 2 1 2]) 1 0 2 := by
  have h : IsMPS [2, 3, 2] [exT' 1 2 2 1, exT' 2 3 2 (-1), exT' 2 2 1 2] :=
    ⟨by simp, 1, .cons rfl (by simp) (by simp) (by simp) (.cons rfl (by simp) (by simp) (by simp)
      (.cons rfl (by simp) (by simp) (by simp) (.nil 1)))⟩
  obtain ⟨ρ, h1, _, h3⟩ := C09_density_matrix_partial h 1 (by simp) (by simp)
  exact ⟨ρ, h1, h3 0 2 (by simp) (by simp)⟩
end example09

/-! ### C10 -/

/-- C10: the amplitude of `product_state(n, v)` at `s` is `∏_k v(s_k)`; non-vectors, empty vectors and length zero are
rejected. -/
theorem C10_product_state (n : Nat) (v : Tensor R) (d : Nat) (hv : v.dims = [d]) (hd : 0 < d)
    (hn : 0 < n) :
    ∃ ψ, productState n v = some ψ ∧ IsMPS (List.replicate n d) ψ ∧
      ∀ s, IsCfg (List.replicate n d) s → amp ψ s = (s.map fun i => v.get [i]).prod := by
  have hsz : v.size = d := by simp [size, hv]
  have hdims : (reshape v [1, d, 1]).dims = [1, d, 1] := rfl
  have hW : ∀ n, WF 1 (List.replicate n (reshape v [1, d, 1])) (List.replicate n d) 1 := by
    intro n
    induction n with
    | zero => exact WF.nil 1
    | succ n ih => exact WF.cons hdims (by omega) hd (by omega) ih
  have hpath : ∀ n s, IsCfg (List.replicate n d) s →
      path (List.replicate n (reshape v [1, d, 1])) s 0 0 = (s.map fun i => v.get [i]).prod := by
    intro n
    induction n with
    | zero => intro s hs; cases s with
      | nil => simp [path_nil]
      | cons _ _ => cases hs
    | succ n ih =>
      intro s hs
      cases s with
      | nil => cases hs
      | cons i s =>
        have h := isCfg_cons.1 hs
        rw [List.replicate_succ, path_cons, dim2_of hdims, Finset.sum_range_one, ih s h.2]
        rw [reshape_get (A := v) (idx := [i]) (by simp [hv, h.1]) (by simp [flat, hv])]
        simp
  refine ⟨List.replicate n (reshape v [1, d, 1]), ?_, ⟨?_, 1, hW n⟩, fun s hs => ?_⟩
  · simp only [productState, Tensor.rank, hv, hsz]
    rw [if_pos ⟨rfl, by omega, hn⟩]
  · intro h; have := congrArg List.length h; simp at this; omega
  · rw [amp_of_WF (hW n) (by intro h; have := congrArg List.length h; simp at this; omega),
      Finset.sum_range_one, hpath n s hs]

omit [CommRing R] in
/-- C10: rejected arguments -/
theorem C10_rejects (n : Nat) (v : Tensor R) (h : v.rank ≠ 1 ∨ v.size = 0 ∨ n = 0) :
    productState n v = none := by
  unfold productState; rw [if_neg]; rintro ⟨h1, h2, h3⟩; omega

example : ∃ ψ, productState 3 (⟨[2], fun i => if i = [1] then 3 else 2⟩ : Tensor ℤ) = some ψ ∧
    amp ψ [1, 0, 1] = 18 := by
  obtain ⟨ψ, h1, _, h3⟩ := C10_product_state 3 (⟨[2], fun i => if i = [1] then 3 else 2⟩ : Tensor ℤ) 2 rfl
    (by omega) (by omega)
  exact ⟨ψ, h1, by rw [h3 _ (by simp [IsCfg])]; decide⟩

/-! ### C11 -/

/-- the GHZ amplitudes -/
noncomputable def ghzAmp (n : Nat) (s : List Nat) : ℝ :=
  if s = List.replicate n 0 ∨ s = List.replicate n 1 then 1 / Real.sqrt 2 else 0

/-- C11 at full strength (`n ≥ 1`, both boundary conditions). FALSE of the code: `C11_periodic_one_violated`. -/
def C11Statement : Prop := ∀ (n : Nat) (periodic : Bool), 0 < n →
  ∃ ψ, ghzState n periodic = some ψ ∧ IsMPS (List.replicate n 2) ψ ∧
    ∀ s, IsCfg (List.replicate n 2) s → amp ψ s = ghzAmp n s

/-- C11 for every length and boundary condition except a periodic chain of one site. -/
theorem C11_ghz_partial (n : Nat) (periodic : Bool) (hn : 0 < n) (hp : n = 1 → periodic = false) :
    ∃ ψ, ghzState n periodic = some ψ ∧ IsMPS (List.replicate n 2) ψ ∧
      ∀ s, IsCfg (List.replicate n 2) s → amp ψ s = ghzAmp n s := by
  have hw : (1 / Real.sqrt (Real.sqrt 2)) * (1 / Real.sqrt (Real.sqrt 2)) = 1 / Real.sqrt 2 := by
    rw [div_mul_div_comm, one_mul, Real.mul_self_sqrt (Real.sqrt_nonneg _)]
  rcases Nat.lt_or_ge n 2 with h2 | h2
  · obtain rfl : n = 1 := by omega
    obtain rfl := hp rfl
    refine ⟨[ghzOne (1 / Real.sqrt 2) false (zeros [1, 2, 1])], ?_,
      ⟨by simp, 1, .cons rfl (by simp) (by simp) (by simp) (.nil 1)⟩, ?_⟩
    · rfl
    · intro s hs
      cases s with
      | nil => cases hs
      | cons i s =>
        have h := isCfg_cons.1 hs
        cases s with
        | cons _ _ => cases h.2
        | nil =>
          have hi := h.1
          rw [amp_of_WF (a := 1) (ds := [2]) (b := 1)
            (.cons rfl (by simp) (by simp) (by simp) (.nil 1)) (by simp), Finset.sum_range_one,
            path_single (a := 1) (d := 2) (c := 1) rfl (by omega)]
          interval_cases i <;> simp [ghzOne, setAt, fillZeros, ghzAmp]
  · obtain ⟨m, rfl⟩ : ∃ m, n = m + 2 := ⟨n - 2, by omega⟩
    set w := 1 / Real.sqrt (Real.sqrt 2) with hwdef
    set p := periodic.toNat with hpdef
    have hp2 : p < 2 := by cases periodic <;> simp [hpdef]
    have hWm : ∀ m, WF 2 (List.replicate m (ghzMid : Tensor ℝ)) (List.replicate m 2) 2 := by
      intro m
      induction m with
      | zero => exact WF.nil 2
      | succ m ih => exact WF.cons rfl (by omega) (by omega) (by omega) ih
    have hds : List.replicate (m + 2) 2 = 2 :: (List.replicate m 2 ++ [2]) := by
      rw [List.replicate_succ, List.replicate_succ']
    have hW : WF (p + 1) (ghzFirst w p :: (List.replicate m ghzMid ++ [ghzLast w p]))
        (List.replicate (m + 2) 2) (p + 1) := by
      rw [hds]
      exact WF.cons rfl (by omega) (by omega) (by omega)
        ((hWm m).append (WF.single rfl (by omega) (by omega) (by omega)))
    refine ⟨_, ghzWith_eq _ _ m periodic, ⟨by simp, p + 1, hW⟩, fun s hs => ?_⟩
    rw [← hwdef, ← hpdef, amp_of_WF hW (by simp)]
    rw [hds] at hs
    cases s with
    | nil => cases hs
    | cons i s =>
      have h := isCfg_cons.1 hs
      obtain ⟨s1, s2, rfl, hs1, hs2⟩ := isCfg_split h.2
      cases s2 with
      | nil => cases hs2
      | cons j s2 =>
        have h' := isCfg_cons.1 hs2
        cases s2 with
        | cons _ _ => cases h'.2
        | nil =>
          have hi := h.1
          have hj := h'.1
          have hpath : ∀ x, x < p + 1 → path (ghzFirst w p :: (List.replicate m ghzMid ++ [ghzLast w p]))
              (i :: (s1 ++ [j])) x x = ∑ c ∈ Finset.range 2, (ghzFirst w p).get [x, i, c] *
                ∑ e ∈ Finset.range 2, (if c = e ∧ s1 = List.replicate m c then 1 else 0) *
                  (ghzLast w p).get [e, j, x] := by
            intro x hx
            rw [path_cons, dim2_of (A := ghzFirst w p) rfl]
            refine Finset.sum_congr rfl fun c hc => ?_
            rw [Finset.mem_range] at hc
            rw [path_append (hWm m) (by rw [hs1.length]; simp) hc]
            congr 1
            refine Finset.sum_congr rfl fun e _ => ?_
            rw [path_ghzMid m s1 hs1 c e hc, path_single (A := ghzLast w p) rfl hx]
          rw [Finset.sum_congr rfl fun x hx => hpath x (Finset.mem_range.1 hx)]
          have e0 : ∀ b : Nat, (i :: (s1 ++ [j]) = List.replicate (m + 2) b) ↔
              (i = b ∧ s1 = List.replicate m b ∧ j = b) := by
            intro b
            rw [List.replicate_succ, List.replicate_succ', List.cons.injEq]
            constructor
            · rintro ⟨h1, h2⟩
              have := List.append_inj' h2 rfl
              exact ⟨h1, this.1, by simpa using this.2⟩
            · rintro ⟨h1, h2, h3⟩; rw [h1, h2, h3]; exact ⟨rfl, rfl⟩
          unfold ghzAmp
          simp only [e0]
          simp only [Finset.sum_range_succ, Finset.sum_range_zero, zero_add]
          rw [← hw]
          cases periodic <;>
          · simp only [hpdef, Bool.toNat_false, Bool.toNat_true, Finset.sum_range_succ,
              Finset.sum_range_zero, zero_add]
            interval_cases i <;> interval_cases j <;> simp [ghzFirst, ghzLast, mul_comm]

/-- C11 fails for a periodic chain of one site: the state returned is `√2 |1⟩`. -/
theorem C11_periodic_one_violated : ¬ C11Statement := by
  intro h
  obtain ⟨ψ, h1, h2, h3⟩ := h 1 true (by omega)
  have e : ghzState 1 true = some [ghzOne (1 / Real.sqrt 2) true (zeros [2, 2, 2])] := rfl
  rw [e, Option.some.injEq] at h1
  subst h1
  have := h3 [0] (by simp [IsCfg])
  have hA : amp [ghzOne (1 / Real.sqrt 2) true (zeros [2, 2, 2])] [0] = 0 := by
    simp [amp, path, ghzOne, setAt, fillZeros, zeros, dim, Finset.sum_range_succ]
  rw [hA] at this
  have h2 : (0 : ℝ) < Real.sqrt 2 := Real.sqrt_pos.2 (by norm_num)
  simp [ghzAmp] at this
  linarith

example : ∃ ψ, ghzState 4 true = some ψ ∧ amp ψ [1, 1, 1, 1] = 1 / Real.sqrt 2 ∧ amp ψ [1, 0, 1, 1] = 0 := by
  obtain ⟨ψ, h1, _, h3⟩ := C11_ghz_partial 4 true (by omega) (by omega)
  exact ⟨ψ, h1, by rw [h3 _ (by simp [IsCfg])]; simp [ghzAmp], by rw [h3 _ (by simp [IsCfg])]; simp [ghzAmp]⟩

/-! ### C12 -/

/-- C12: `cluster_state(n)`, `n ≥ 3`, has amplitudes `2^{-n/2} ∏_k (-1)^{s_k s_{k+1}}`. -/
theorem C12_cluster (n : Nat) (hn : 3 ≤ n) :
    ∃ ψ, clusterState n = some ψ ∧ IsMPS (List.replicate n 2) ψ ∧
      ∀ s, IsCfg (List.replicate n 2) s →
        amp ψ s = (1 / Real.sqrt 2) ^ n *
          ∏ k ∈ Finset.range (n - 1), (-1) ^ (s.getD k 0 * s.getD (k + 1) 0) := by
  obtain ⟨m, rfl⟩ : ∃ m, n = m + 2 := ⟨n - 2, by omega⟩
  set v := 1 / Real.sqrt 2 with hv
  have hds : List.replicate (m + 2) 2 = 2 :: (List.replicate m 2 ++ [2]) := by
    rw [List.replicate_succ, List.replicate_succ']
  have hWm : ∀ m, WF 2 (List.replicate m (clMid v)) (List.replicate m 2) 2 := by
    intro m
    induction m with
    | zero => exact WF.nil 2
    | succ m ih => exact WF.cons rfl (by omega) (by omega) (by omega) ih
  have hW : WF 1 (clFirst v :: (List.replicate m (clMid v) ++ [clLast v])) (List.replicate (m + 2) 2) 1 := by
    rw [hds]
    exact WF.cons rfl (by omega) (by omega) (by omega)
      ((hWm m).append (WF.single rfl (by omega) (by omega) (by omega)))
  have hcz : ∀ s : List Nat, (czSign s : ℝ) = ∏ k ∈ Finset.range (s.length - 1),
      (-1) ^ (s.getD k 0 * s.getD (k + 1) 0) := by
    intro s
    induction s with
    | nil => simp [czSign]
    | cons a s ih =>
      cases s with
      | nil => simp [czSign]
      | cons b s =>
        rw [czSign, ih]
        simp only [List.length_cons, Nat.add_sub_cancel]
        rw [Finset.prod_range_succ', mul_comm]
        simp
  refine ⟨_, ?_, ⟨by simp, 1, hW⟩, fun s hs => ?_⟩
  · rw [clusterState, if_neg (by omega)]; exact cluster_eq _ m
  · rw [amp_of_WF hW (by simp), Finset.sum_range_one]
    have hl := hs.length
    cases s with
    | nil => cases hs
    | cons i s =>
      have h := isCfg_cons.1 hs
      have hi := h.1
      rw [path_cons, dim2_of (A := clFirst v) rfl, Finset.sum_range_succ, Finset.sum_range_one,
        path_clTail v m s h.2 0 (by omega), path_clTail v m s h.2 1 (by omega)]
      have h3 := hcz (i :: s)
      have hl2 : (i :: s).length - 1 = m + 2 - 1 := by rw [hl]; simp
      rw [hl2] at h3
      rw [← h3]
      interval_cases i <;> simp [clFirst] <;> ring

example : ∃ ψ, clusterState 3 = some ψ ∧ amp ψ [1, 1, 1] = (1 / Real.sqrt 2) ^ 3 ∧
    amp ψ [1, 1, 0] = -(1 / Real.sqrt 2) ^ 3 := by
  obtain ⟨ψ, h1, _, h3⟩ := C12_cluster 3 (by omega)
  refine ⟨ψ, h1, ?_, ?_⟩
  · rw [h3 _ (by simp [IsCfg])]; simp [Finset.prod_range_succ]
  · rw [h3 _ (by simp [IsCfg])]; simp [Finset.prod_range_succ]

/-! ### C13 -/

/-- the bond between sites `k-1` and `k` promised for a new state: `D`, but 1 at the ends of an open chain -/
def promisedBond (l D : Nat) (periodic : Bool) (k : Nat) : Nat :=
  if periodic = false ∧ (k = 0 ∨ k = l) then 1 else D

theorem promisedBond_eq {l D k : Nat} {p : Bool} (hk : k ≤ l) :
    presizeBond l D p k = promisedBond l D p k := by
  unfold presizeBond promisedBond
  cases p <;> simp
  by_cases h : 0 < k ∧ k < l
  · rw [if_pos h, if_neg (by omega)]
  · rw [if_neg h, if_pos (by omega)]

/-- "`ψ` has exactly the promised shape" -/
def HasShape (pd : List Nat) (D : Nat) (periodic : Bool) (ψ : List (Tensor R)) : Prop :=
  ψ.length = pd.length ∧ ∀ k (h : k < ψ.length), (ψ[k]).dims =
    [promisedBond pd.length D periodic k, pd.getD k 0, promisedBond pd.length D periodic (k + 1)]

/-- C13, constructor from a list of dimensions: succeeds exactly for positive dimensions, and the result has the
promised shape, all entries zero; it is a matrix product state (matching bonds). -/
theorem C13_new_dims (pd : List Nat) (D : Nat) (periodic : Bool) :
    (0 < D ∧ (∀ d ∈ pd, 0 < d) →
      ∃ ψ : List (Tensor R), newMPSdims pd D periodic = some ψ ∧ HasShape pd D periodic ψ ∧
        (pd ≠ [] → IsMPS pd ψ)) ∧
    (¬ (0 < D ∧ ∀ d ∈ pd, 0 < d) → newMPSdims (R := R) pd D periodic = none) := by
  constructor
  · intro h
    obtain ⟨ψ, hψ⟩ : ∃ ψ : List (Tensor R), presizeMPS pd D periodic = some ψ := by
      unfold presizeMPS; rw [if_pos h]; exact ⟨_, rfl⟩
    obtain ⟨hD, hd, hl, hg⟩ := presizeMPS_get hψ
    refine ⟨ψ, hψ, ⟨hl, fun k hk => ?_⟩, fun hne => shape_isMPS hne hD hd hl fun k hk => by rw [hg k hk]; rfl⟩
    rw [hg k hk, promisedBond_eq (by omega), promisedBond_eq (by omega)]; rfl
  · intro h; unfold newMPSdims presizeMPS; rw [if_neg h]

/-- C13, constructor from length and one physical dimension. -/
theorem C13_new (n d D : Nat) (periodic : Bool) (hd : 0 < d) (hD : 0 < D) :
    ∃ ψ : List (Tensor R), newMPS n d D periodic = some ψ ∧
      HasShape (List.replicate n d) D periodic ψ ∧ (0 < n → IsMPS (List.replicate n d) ψ) := by
  obtain ⟨ψ, h1, h2, h3⟩ := (C13_new_dims (R := R) (List.replicate n d) D periodic).1
    ⟨hD, fun x hx => by rw [List.eq_of_mem_replicate hx]; exact hd⟩
  refine ⟨ψ, ?_, h2, fun hn => h3 ?_⟩
  · unfold newMPS; rw [if_neg (by omega)]; exact h1
  · intro h; have := congrArg List.length h; simp at this; omega

/-- C13, `RMPS::random(n, d, D, periodic)`. -/
theorem C13_random (rnd : Nat → List Nat → R) (n d D : Nat) (periodic : Bool) (hd : 0 < d) (hD : 0 < D) :
    ∃ ψ, randomMPS rnd n d D periodic = some ψ ∧ HasShape (List.replicate n d) D periodic ψ := by
  obtain ⟨ψ, h1, h2, _⟩ := C13_new (R := R) n d D periodic hd hD
  refine ⟨_, by rw [randomMPS, h1]; rfl, by simpa [randomize] using h2.1, fun k hk => ?_⟩
  have := h2.2 k (by simpa [randomize] using hk)
  simpa [randomize] using this

/-- C13 for `RMPS::random(dims, D, periodic)`. FALSE of the code. -/
def C13RandomDimsStatement (R : Type) [CommRing R] : Prop :=
  ∀ (rnd : Nat → List Nat → R) (pd : List Nat) (D : Nat) (periodic : Bool), 0 < D → (∀ d ∈ pd, 0 < d) →
    ∃ ψ, randomMPSdims rnd pd D periodic = some ψ ∧ HasShape pd D periodic ψ

/-- C13 fails: `RMPS::random({2,2}, 3, true)` has physical dimension 3 (and bond dimension 1)... -/
theorem C13_random_dims_violated : ¬ C13RandomDimsStatement R := by
  intro h
  obtain ⟨ψ, h1, h2⟩ := h (fun _ _ => 0) [2, 2] 3 true (by omega) (by simp)
  have e : randomMPSdims (R := R) (fun _ _ => 0) [2, 2] 3 true =
    some [⟨[1, 3, 1], fun _ => 0⟩, ⟨[1, 3, 1], fun _ => 0⟩] := by
      simp [randomMPSdims, newMPS, presizeMPS, randomize, List.mapIdx_cons, List.replicate, zeros, presizeDims]
  rw [e, Option.some.injEq] at h1
  subst h1
  have := h2.2 0 (by simp)
  simp [promisedBond] at this

/-- ... and every open chain is rejected. -/
theorem C13_random_dims_open_rejected (rnd : Nat → List Nat → R) (pd : List Nat) (D : Nat) (hD : 0 < D) :
    randomMPSdims rnd pd D false = none := by
  simp [randomMPSdims, newMPS, presizeMPS]; omega

/-- C13: `is_periodic()` of a new state tells how it was created, whenever the bond dimension can tell. -/
theorem C13_is_periodic (n d D : Nat) (periodic : Bool) (hd : 0 < d) (hD : 1 < D) (hn : 0 < n)
    (ψ : List (Tensor R)) (h : newMPS n d D periodic = some ψ) : isPeriodic ψ = periodic := by
  obtain ⟨ψ', h1, h2, _⟩ := C13_new (R := R) n d D periodic hd (by omega)
  rw [h] at h1
  obtain rfl := Option.some.inj h1
  have hl : ψ.length = n := by simpa using h2.1
  have a0 := h2.2 0 (by omega)
  have a1 := h2.2 (ψ.length - 1) (by omega)
  have e0 : (site ψ 0).dim 0 = promisedBond n D periodic 0 := by
    simp [site, dim, List.getElem?_eq_getElem (show 0 < ψ.length by omega), a0]
  have e1 : (site ψ (ψ.length - 1)).dim 2 = promisedBond n D periodic n := by
    simp [site, dim, List.getElem?_eq_getElem (show ψ.length - 1 < ψ.length by omega), a1]
    congr 1; omega
  unfold isPeriodic
  rw [if_neg (by omega)]
  simp only [e0, e1]
  cases periodic <;> simp [promisedBond, hD]

example : ∃ ψ : List (Tensor ℤ), newMPSdims [2, 3, 2] 4 false = some ψ ∧ (site ψ 1).dims = [4, 3, 4] ∧
    (site ψ 2).dims = [4, 2, 1] := ⟨_, rfl, rfl, rfl⟩

end MPS.Props
