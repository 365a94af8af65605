import Verif.Props.MinimizerProps
import Verif.Props.FormProps

/-!
# C55: the projectors of `minimize(..., other)`

The vectors on which the eigenvalue solver works are changed by `orthogonalize(P, orthogonal_projectors(...))`.  For one
state `φ` in `other` this is what happens to the overlap with `φ`.
-/

set_option linter.unusedSectionVars false
set_option linter.unusedSimpArgs false

namespace MPS.Props
open MPS Tensor Form Minim
variable {K : Type} [RCLike K]

theorem lin_flat (A : Tensor K) {I : List Nat} (hI : IsCfg A.dims I) : A.lin (flat A.dims I) = A.get I := by
  unfold lin; rw [unflat_flat hI]

theorem tscprod_eq {A B : Tensor K} (hd : A.dims = B.dims) (hpos : ∀ x ∈ B.dims, 0 < x) :
    tscprod A B = sumCfg B.dims fun I => star (A.get I) * B.get I := by
  unfold tscprod
  rw [Tensor.size, ← sumCfg_flat hpos]
  refine sumCfg_congr fun I hI => ?_
  rw [lin_flat B hI, ← hd, lin_flat A (by rw [hd]; exact hI)]

theorem frob_eq {A : Tensor K} (hpos : ∀ x ∈ A.dims, 0 < x) : frob A ^ 2 = sumCfg A.dims fun I => ‖A.get I‖ ^ 2 := by
  unfold frob
  rw [Real.sq_sqrt (Finset.sum_nonneg fun _ _ => by positivity), Tensor.size, ← sumCfg_flat hpos]
  exact sumCfg_congr fun I hI => by rw [lin_flat A hI]

/-- removing the component along the projector built from the vector `V` -/
theorem ortho_entry {V X : Tensor K} (hd : V.dims = X.dims) (hpos : ∀ x ∈ X.dims, 0 < x) (hV : 0 < frob V) {I : List Nat} (hI : IsCfg X.dims I) :
    (orthogonalize X [smul ((1 / Real.sqrt (frob V) : ℝ) : K) V]).get I =
      X.get I - ((1 / frob V : ℝ) : K) * (sumCfg X.dims fun J => star (V.get J) * X.get J) * V.get I := by
  unfold orthogonalize
  simp only [List.foldl_cons, List.foldl_nil, orthoStep]
  have hv : (smul ((1 / Real.sqrt (frob V) : ℝ) : K) V).dims = X.dims := hd
  rw [tscprod_eq hv hpos, ← hv, lin_flat _ (by rw [hv]; exact hI), hv]
  have hc : ∀ c : K, (sumCfg X.dims fun J => star c * star (V.get J) * X.get J) = star c * sumCfg X.dims fun J => star (V.get J) * X.get J := by
    intro c
    rw [← sumCfg_mul_left]
    exact sumCfg_congr fun J _ => by ring
  simp only [smul, star_mul']
  rw [hc]
  have hs : star ((1 / Real.sqrt (frob V) : ℝ) : K) = ((1 / Real.sqrt (frob V) : ℝ) : K) := by
    rw [RCLike.star_def, RCLike.conj_ofReal]
  rw [hs]
  have h2 : ((1 / frob V : ℝ) : K) = ((1 / Real.sqrt (frob V) : ℝ) : K) * ((1 / Real.sqrt (frob V) : ℝ) : K) := by
    rw [← RCLike.ofReal_mul]
    congr 1
    rw [div_mul_div_comm, one_mul, Real.mul_self_sqrt hV.le]
  rw [h2]; ring

/-- the contraction with `V` after removing the component -/
theorem ortho_overlap {V X : Tensor K} (hd : V.dims = X.dims) (hpos : ∀ x ∈ X.dims, 0 < x) (hV : 0 < frob V) :
    sumCfg X.dims (fun I => V.get I * (orthogonalize X [smul ((1 / Real.sqrt (frob V) : ℝ) : K) V]).get I) =
      sumCfg X.dims (fun I => V.get I * X.get I) -
        ((1 / frob V : ℝ) : K) * (sumCfg X.dims fun J => star (V.get J) * X.get J) * sumCfg X.dims fun I => V.get I * V.get I := by
  rw [sumCfg_congr (G := fun I => V.get I * X.get I +
    (-(((1 / frob V : ℝ) : K) * (sumCfg X.dims fun J => star (V.get J) * X.get J))) * (V.get I * V.get I))]
  · rw [sumCfg_add, sumCfg_mul_left, neg_mul, ← sub_eq_add_neg]
  · intro I hI
    rw [ortho_entry hd hpos hV hI]; ring

/-- over the reals -/
theorem ortho_real {V X : Tensor ℝ} (hd : V.dims = X.dims) (hpos : ∀ x ∈ X.dims, 0 < x) (hV : 0 < frob V) :
    sumCfg X.dims (fun I => V.get I * (orthogonalize X [smul (RCLike.ofReal (1 / Real.sqrt (frob V)) : ℝ) V]).get I) =
      (1 - frob V) * sumCfg X.dims (fun I => V.get I * X.get I) := by
  refine (ortho_overlap hd hpos hV).trans ?_
  have e2 : (sumCfg X.dims fun J => V.get J * V.get J) = frob V ^ 2 := by
    rw [frob_eq (by rw [hd]; exact hpos), hd]
    exact sumCfg_congr fun I _ => by rw [Real.norm_eq_abs, sq_abs]; ring
  have hn' : frob V ≠ 0 := ne_of_gt hV
  simp only [star_trivial, RCLike.ofReal_real_eq_id, id]
  rw [e2]
  field_simp

/-- **C55**, real states, one state `φ` to be orthogonal to, in the single-site algorithm.  The projector exists, and the overlap
of `φ` with the vector the solver works on is multiplied by `1 - n` where `n` is the norm of the vector `V` which represents
`X ↦ ⟨φ|ψ[X]⟩`.  It becomes zero if `n = 1`, which is what is missing: the vector is divided by the square root of its norm,
not by its norm. -/
theorem C55_single_partial {ds : List Nat} {φ ket : List (Tensor ℝ)} {start : Nat}
    (hb : WF 1 φ ds 1) (hk : WF 1 ket ds 1) (hs : start < ds.length)
    (history : List (Move (Tensor ℝ))) {l r : List (Tensor ℝ)} {D E : Nat}
    (hh : history.foldl Move.after (ket.take start, ket.drop (start + 1)) = (l, r))
    (hl : WF 1 l (ds.take l.length) D) (hr : WF E r (ds.drop (l.length + 1)) 1) (hN : l.length < ds.length) (hd : 0 < ds.getD l.length 0)
    (hn : 0 < frob (history.foldl LForm.move (LForm.new [1] [φ] ket start)).singleSiteVector) :
    let f := history.foldl LForm.move (LForm.new [1] [φ] ket start)
    ∃ v, projector f 0 = some v ∧ ∀ X : Tensor ℝ, X.dims = [D, ds.getD l.length 0, E] →
      (orthogonalize X [v]).dims = X.dims ∧
      MPS.inner ds (amp φ) (amp (l ++ orthogonalize X [v] :: r)) =
        (1 - frob f.singleSiteVector) * MPS.inner ds (amp φ) (amp (l ++ X :: r)) := by
  intro f
  obtain ⟨-, h2, h3⟩ := C49_single_site_vector (weight := [(1 : ℝ)]) (bras := [φ]) (by simp) (by simpa using hb) hk hs history hh hl hr
  have hD0 : 0 < D := hl.pos_right (by omega)
  have hE0 : 0 < E := WF.pos_left hr (by omega)
  have hsup : superpose [(1 : ℝ)] [φ] = amp φ := by funext s; simp [superpose]
  rw [hsup] at h3
  refine ⟨smul (RCLike.ofReal (1 / Real.sqrt (frob f.singleSiteVector)) : ℝ) f.singleSiteVector, rfl, fun X hX => ⟨rfl, ?_⟩⟩
  change f.singleSiteVector.dims = _ at h2
  change ∀ X : Tensor ℝ, X.dims = _ → sumCfg _ (fun i => f.singleSiteVector.get i * X.get i) = _ at h3
  change 0 < frob f.singleSiteVector at hn
  generalize f.singleSiteVector = V at *
  have hpos : ∀ x ∈ X.dims, 0 < x := by rw [hX]; intro x hx; simp at hx; rcases hx with rfl | rfl | rfl <;> assumption
  rw [← h3 X hX, ← h3 (orthogonalize X [smul (RCLike.ofReal (1 / Real.sqrt (frob V)) : ℝ) V]) (by rw [← hX]; rfl)]
  have key := ortho_real (V := V) (X := X) (by rw [hX]; exact h2) hpos hn
  rw [hX] at key
  exact key

/-- **C55**, likewise in the two-site algorithm. -/
theorem C55_two_partial {ds : List Nat} {φ ket : List (Tensor ℝ)} {start : Nat}
    (hb : WF 1 φ ds 1) (hk : WF 1 ket ds 1) (hs : start < ds.length)
    (history : List (Move (Tensor ℝ))) {k : List (Tensor ℝ) × List (Tensor ℝ)} {l r : List (Tensor ℝ)} {D E : Nat} (sense : Int) (hsense : sense ≠ 0)
    (hh : history.foldl Move.after (ket.take start, ket.drop (start + 1)) = k) (hpair : HasPair sense k) (hlr : aroundPair sense k = (l, r))
    (hl : WF 1 l (ds.take l.length) D) (hr : WF E r (ds.drop (l.length + 2)) 1) (hD : 0 < D) (hE : 0 < E)
    (hd : 0 < ds.getD l.length 0) (hd' : 0 < ds.getD (l.length + 1) 0) :
    let f := history.foldl LForm.move (LForm.new [1] [φ] ket start)
    ∃ V v, f.twoSiteVector sense = some V ∧ projector f sense = some v ∧
    (0 < frob V → ∀ (X A B A' B' : Tensor ℝ) (m m' : Nat), X.dims = [D, ds.getD l.length 0, ds.getD (l.length + 1) 0, E] →
      A.dims = [D, ds.getD l.length 0, m] → B.dims = [m, ds.getD (l.length + 1) 0, E] →
      A'.dims = [D, ds.getD l.length 0, m'] → B'.dims = [m', ds.getD (l.length + 1) 0, E] →
      (∀ I, IsCfg X.dims I → joined m A B I = X.get I) → (∀ I, IsCfg X.dims I → joined m' A' B' I = (orthogonalize X [v]).get I) →
      MPS.inner ds (amp φ) (amp (l ++ A' :: B' :: r)) = (1 - frob V) * MPS.inner ds (amp φ) (amp (l ++ A :: B :: r))) := by
  intro f
  obtain ⟨V, h1, h2, h3⟩ := C50_two_site_vector (weight := [(1 : ℝ)]) (bras := [φ]) (by simp) (by simpa using hb) hk hs history sense hh hpair hlr hl hr
  have hsup : superpose [(1 : ℝ)] [φ] = amp φ := by funext s; simp [superpose]
  rw [hsup] at h3
  refine ⟨V, _, h1, by unfold projector; rw [if_pos hsense, h1, Option.map_some], ?_⟩
  intro hn X A B A' B' m m' hX hA hB hA' hB' hj hj'
  have hpos : ∀ x ∈ X.dims, 0 < x := by rw [hX]; intro x hx; simp at hx; rcases hx with rfl | rfl | rfl | rfl <;> assumption
  have key := ortho_real (V := V) (X := X) (by rw [hX]; exact h2) hpos hn
  rw [hX] at key hj hj'
  rw [← h3 A B m hA hB, ← h3 A' B' m' hA' hB', sumCfg_congr (F := fun i => V.get i * joined m' A' B' i) (fun I hI => by rw [hj' I hI]),
    sumCfg_congr (F := fun i => V.get i * joined m A B i) (fun I hI => by rw [hj I hI])]
  exact key

/-- the vector for a chain of one site -/
theorem one_site_vector {A B : Tensor K} {d : Nat} (hA : A.dims = [1, d, 1]) (hB : B.dims = [1, d, 1]) (hd : 0 < d) :
    (LForm.new [1] [[A]] [B] 0).singleSiteVector.dims = [1, d, 1] ∧
    ∀ i < d, (LForm.new [1] [[A]] [B] 0).singleSiteVector.get [0, i, 0] = star (A.get [0, i, 0]) := by
  have hw : ∀ {T : Tensor K}, T.dims = [1, d, 1] → WF 1 [T] [d] 1 := fun h => .cons h (by omega) hd (by omega) (.nil 1)
  obtain ⟨-, h2, h3⟩ := C49_single_site_vector (weight := [(1 : K)]) (bras := [[A]]) (ket := [B]) (ds := [d]) (start := 0) (by simp) (by simpa using hw hA) (hw hB)
    (by simp) [] (l := []) (r := []) (D := 1) (E := 1) rfl (.nil 1) (.nil 1)
  refine ⟨h2, fun i hi => ?_⟩
  have := h3 (basis [1, d, 1] [0, i, 0]) rfl
  simp only [List.length_nil, List.getD_cons_zero, List.foldl_nil] at this
  have hc : IsCfg [1, d, 1] [0, i, 0] := .cons (by omega) (.cons hi (.cons (by omega) .nil))
  rw [sumCfg_congr (G := fun J => if J = [0, i, 0] then (LForm.new [1] [[A]] [B] 0).singleSiteVector.get J else 0) (fun J _ => by simp [basis]),
    sumCfg_if _ _ hc] at this
  rw [this]
  have e : ∀ j, amp ([] ++ basis (K := K) [1, d, 1] [0, i, 0] :: []) [j] = if j = i then 1 else 0 := by
    intro j; simp [amp, path, basis, dim]
  have e' : ∀ j, superpose [(1 : K)] [[A]] [j] = A.get [0, j, 0] := by
    intro j; simp [superpose, amp, path, dim0_of hA, dim2_of hA]
  unfold MPS.inner
  simp only [sumCfg_cons, sumCfg_nil, e, e']
  simp [hi]

/-- a tensor of one site with two levels -/
def spin (x y : K) : Tensor K := ⟨[1, 2, 1], fun I => if I.getD 1 0 = 0 then x else y⟩

theorem spin_overlap (x y : K) (X : Tensor K) (hX : X.dims = [1, 2, 1]) :
    MPS.inner [2] (amp [spin x y]) (amp [X]) = star x * X.get [0, 0, 0] + star y * X.get [0, 1, 0] := by
  have e : ∀ i, amp [X] [i] = X.get [0, i, 0] := by intro i; simp [amp, path, dim0_of hX, dim2_of hX]
  have e' : ∀ i, amp [spin x y] [i] = if i = 0 then x else y := by intro i; simp [amp, path, spin, dim]
  simp [MPS.inner, sumCfg_cons, Finset.sum_range_succ, e, e']

theorem spin_frob {V : Tensor K} {x y : K} (hV : V.dims = [1, 2, 1]) (h0 : V.get [0, 0, 0] = x) (h1 : V.get [0, 1, 0] = y) :
    frob V ^ 2 = ‖x‖ ^ 2 + ‖y‖ ^ 2 := by
  rw [frob_eq (by rw [hV]; simp), hV]
  simp [sumCfg_cons, Finset.sum_range_succ, h0, h1]

/-- **C55** is violated for a state which is not normalised: after projecting on the complement of `2|0⟩`, the vector `|0⟩` has the
overlap `-2` with `2|0⟩`. -/
theorem C55_norm_violated : ∃ v, projector (LForm.new [1] [[spin (2 : ℝ) 0]] [spin 1 0] 0) 0 = some v ∧
    MPS.inner [2] (amp [spin (2 : ℝ) 0]) (amp [orthogonalize (spin 1 0) [v]]) = -2 := by
  have hw : ∀ x y : ℝ, WF 1 [spin x y] [2] 1 := fun x y => .cons rfl (by omega) (by omega) (by omega) (.nil 1)
  obtain ⟨h2, h3⟩ := one_site_vector (A := spin (2 : ℝ) 0) (B := spin 1 0) (d := 2) rfl rfl (by omega)
  have hf := spin_frob h2 (h3 0 (by omega)) (h3 1 (by omega))
  have hf' : frob (LForm.new [1] [[spin (2 : ℝ) 0]] [spin 1 0] 0).singleSiteVector = 2 := by
    have h0 : 0 ≤ frob (LForm.new [1] [[spin (2 : ℝ) 0]] [spin 1 0] 0).singleSiteVector := Real.sqrt_nonneg _
    generalize frob (LForm.new [1] [[spin (2 : ℝ) 0]] [spin 1 0] 0).singleSiteVector = z at *
    simp [spin] at hf
    nlinarith
  obtain ⟨v, v1, v2⟩ := C55_single_partial (φ := [spin (2 : ℝ) 0]) (ket := [spin 1 0]) (start := 0) (hw 2 0) (hw 1 0) (by simp) [] (l := []) (r := []) (D := 1) (E := 1) rfl
    (.nil 1) (.nil 1) (by simp) (by simp) (by show 0 < frob (LForm.new [1] [[spin (2 : ℝ) 0]] [spin 1 0] 0).singleSiteVector; rw [hf']; norm_num)
  refine ⟨v, v1, ?_⟩
  obtain ⟨-, h⟩ := v2 (spin 1 0) rfl
  simp only [List.foldl_nil, hf', List.nil_append] at h
  rw [h, spin_overlap _ _ _ rfl]
  simp [spin]
  norm_num

/-- **C55** is violated for complex states, even if they are normalised: the vector `φ = (|0⟩ + i|1⟩)/√2` is left as it is by the
projection on the complement of `φ`. -/
theorem C55_complex_violated {c : ℝ} (hc : c ^ 2 = 1 / 2) :
    ∃ v, projector (LForm.new [1] [[spin (c : ℂ) (c * Complex.I)]] [spin 1 0] 0) 0 = some v ∧
    MPS.inner [2] (amp [spin (c : ℂ) (c * Complex.I)]) (amp [orthogonalize (spin (c : ℂ) (c * Complex.I)) [v]]) = 1 := by
  obtain ⟨h2, h3⟩ := one_site_vector (A := spin (c : ℂ) (c * Complex.I)) (B := spin 1 0) (d := 2) rfl rfl (by omega)
  refine ⟨_, rfl, ?_⟩
  generalize (LForm.new [1] [[spin (c : ℂ) (c * Complex.I)]] [spin 1 0] 0).singleSiteVector = V at *
  have hf := spin_frob h2 (h3 0 (by omega)) (h3 1 (by omega))
  have hpos : 0 < frob V := by
    have h0 : 0 ≤ frob V := Real.sqrt_nonneg _
    simp [spin, hc] at hf
    nlinarith
  have key : ∀ i, i < 2 → (orthogonalize (spin (c : ℂ) (c * Complex.I)) [smul (RCLike.ofReal (1 / Real.sqrt (frob V)) : ℂ) V]).get [0, i, 0] =
      (spin (c : ℂ) (c * Complex.I)).get [0, i, 0] := by
    intro i hi
    rw [ortho_entry (V := V) (X := spin (c : ℂ) (c * Complex.I)) h2 (by simp [spin]) hpos (.cons (by omega) (.cons hi (.cons (by omega) .nil)))]
    have e : sumCfg (spin (c : ℂ) (c * Complex.I)).dims (fun J => star (V.get J) * (spin (c : ℂ) (c * Complex.I)).get J) = 0 := by
      show sumCfg [1, 2, 1] _ = 0
      simp only [sumCfg_cons, sumCfg_nil, Finset.sum_range_succ, Finset.sum_range_zero, h3 0 (by omega), h3 1 (by omega), star_star]
      simp only [spin, List.getD_cons_succ, List.getD_cons_zero, if_true, if_neg one_ne_zero]
      linear_combination (c : ℂ) ^ 2 * Complex.I_sq
    rw [e]; ring
  show MPS.inner [2] (amp [spin (c : ℂ) (c * Complex.I)]) (amp [orthogonalize (spin (c : ℂ) (c * Complex.I)) [smul (RCLike.ofReal (1 / Real.sqrt (frob V)) : ℂ) V]]) = 1
  rw [spin_overlap _ _ _ rfl, key 0 (by omega), key 1 (by omega)]
  simp only [spin, List.getD_cons_succ, List.getD_cons_zero, if_true, if_neg one_ne_zero]
  have hc' : (c : ℂ) ^ 2 = 1 / 2 := by rw [← Complex.ofReal_pow, hc]; norm_num
  simp only [star_mul', RCLike.star_def, Complex.conj_ofReal, Complex.conj_I]
  linear_combination 2 * hc' - (c : ℂ) ^ 2 * Complex.I_sq

end MPS.Props
