import Verif.Props.MinimizerProps3

/-!
# C55: the operators given to the eigenvalue solver by `minimize(..., other)`
-/

set_option linter.unusedSectionVars false
set_option linter.unusedSimpArgs false

namespace MPS.Props
open MPS Tensor Form Minim
variable {K : Type} [RCLike K]

theorem flat_of_unflat (ds : List Nat) (n : Nat) (h : n < ds.prod) : flat ds (unflat ds n) = n := by
  induction ds generalizing n with
  | nil => simp at h; simp [flat, h]
  | cons d ds ih =>
    rw [List.prod_cons] at h
    simp only [unflat, flat]
    rw [ih (n / d) (Nat.div_lt_of_lt_mul h)]
    exact Nat.mod_add_div n d

/-- `X` is what is left of `Ψ` when its components along the vectors `vs` are removed: it differs from `Ψ` by a combination of them and
is orthogonal to each one. -/
def ProjectsOut (vs : List (Tensor K)) (Ψ X : Tensor K) : Prop :=
  (∀ v ∈ vs, ∑ n ∈ Finset.range Ψ.size, star (v.lin n) * X.lin n = 0) ∧
  ∃ a : Nat → K, ∀ n < Ψ.size, X.lin n = Ψ.lin n - ∑ j ∈ Finset.range vs.length, a j * (vs.getD j Tensor.empty).lin n

/-- an orthonormal list of vectors of size `n` -/
def Orthonormal (n : Nat) (vs : List (Tensor K)) : Prop :=
  (∀ v ∈ vs, v.size = n ∧ ∑ i ∈ Finset.range n, star (v.lin i) * v.lin i = 1) ∧
  vs.Pairwise fun v w => ∑ i ∈ Finset.range n, star (v.lin i) * w.lin i = 0

theorem orthoStep_lin (Ψ v : Tensor K) {n : Nat} (hn : n < Ψ.size) : (orthoStep Ψ v).lin n = Ψ.lin n - tscprod v Ψ * v.lin n := by
  unfold orthoStep
  simp only [Tensor.lin]
  rw [flat_of_unflat _ _ hn]

theorem orthoStep_dims (Ψ v : Tensor K) : (orthoStep Ψ v).dims = Ψ.dims := rfl

theorem orthogonalize_dims (Ψ : Tensor K) (vs : List (Tensor K)) : (orthogonalize Ψ vs).dims = Ψ.dims := by
  unfold orthogonalize
  induction vs generalizing Ψ with
  | nil => rfl
  | cons v vs ih => rw [List.foldl_cons, ih]; rfl

theorem orthogonalize_keeps {w : Tensor K} (Ψ : Tensor K) (vs : List (Tensor K))
    (hv : ∀ v ∈ vs, ∑ i ∈ Finset.range Ψ.size, star (w.lin i) * v.lin i = 0)
    (h0 : ∑ i ∈ Finset.range Ψ.size, star (w.lin i) * Ψ.lin i = 0) :
    ∑ i ∈ Finset.range Ψ.size, star (w.lin i) * (orthogonalize Ψ vs).lin i = 0 := by
  unfold orthogonalize
  induction vs generalizing Ψ with
  | nil => exact h0
  | cons v vs ih =>
    rw [List.foldl_cons]
    refine ih (orthoStep Ψ v) (fun x hx => hv x (List.mem_cons_of_mem _ hx)) ?_
    show ∑ i ∈ Finset.range Ψ.size, star (w.lin i) * (orthoStep Ψ v).lin i = 0
    have : ∀ i ∈ Finset.range Ψ.size, star (w.lin i) * (orthoStep Ψ v).lin i =
        star (w.lin i) * Ψ.lin i - tscprod v Ψ * (star (w.lin i) * v.lin i) := by
      intro i hi
      rw [orthoStep_lin Ψ v (Finset.mem_range.1 hi)]; ring
    rw [Finset.sum_congr rfl this, Finset.sum_sub_distrib, ← Finset.mul_sum, h0, hv v (by simp)]
    ring

theorem orthogonalize_projects (Ψ : Tensor K) (vs : List (Tensor K)) (h : Orthonormal Ψ.size vs) : ProjectsOut vs Ψ (orthogonalize Ψ vs) := by
  induction vs generalizing Ψ with
  | nil => exact ⟨by simp, fun _ => 0, fun n _ => by simp [orthogonalize]⟩
  | cons v vs ih =>
    obtain ⟨h1, h2⟩ := h
    obtain ⟨h3, h4⟩ := List.pairwise_cons.1 h2
    obtain ⟨i1, a, i2⟩ := ih (orthoStep Ψ v) ⟨fun x hx => h1 x (List.mem_cons_of_mem _ hx), h4⟩
    obtain ⟨s1, s2⟩ := h1 v (by simp)
    have e : orthogonalize Ψ (v :: vs) = orthogonalize (orthoStep Ψ v) vs := rfl
    rw [e]
    refine ⟨fun x hx => ?_, fun j => if j = 0 then tscprod v Ψ else a (j - 1), fun n hn => ?_⟩
    · rcases List.mem_cons.1 hx with rfl | hx
      · refine orthogonalize_keeps (orthoStep Ψ x) vs h3 ?_
        show ∑ i ∈ Finset.range Ψ.size, star (x.lin i) * (orthoStep Ψ x).lin i = 0
        have : ∀ i ∈ Finset.range Ψ.size, star (x.lin i) * (orthoStep Ψ x).lin i =
            star (x.lin i) * Ψ.lin i - tscprod x Ψ * (star (x.lin i) * x.lin i) := by
          intro i hi
          rw [orthoStep_lin Ψ x (Finset.mem_range.1 hi)]; ring
        rw [Finset.sum_congr rfl this, Finset.sum_sub_distrib, ← Finset.mul_sum, s2, mul_one]
        unfold tscprod
        rw [sub_self]
      · exact i1 x hx
    · rw [i2 n hn, orthoStep_lin Ψ v hn, List.length_cons, Finset.sum_range_succ']
      simp
      ring

theorem reshape_lin (A : Tensor K) (d : List Nat) {n : Nat} (hn : n < d.prod) : (reshape A d).lin n = A.lin n := by
  simp only [Tensor.lin, reshape]
  rw [flat_of_unflat _ _ hn]

theorem ProjectsOut.left {vs : List (Tensor K)} {Ψ Φ X : Tensor K} (h : ProjectsOut vs Ψ X) (hs : Φ.size = Ψ.size) (he : ∀ n < Ψ.size, Ψ.lin n = Φ.lin n) :
    ProjectsOut vs Φ X := by
  obtain ⟨h1, a, h2⟩ := h
  unfold ProjectsOut
  rw [hs]
  exact ⟨h1, a, fun n hn => by rw [h2 n hn, he n hn]⟩

theorem ProjectsOut.right {vs : List (Tensor K)} {Ψ X Y : Tensor K} (h : ProjectsOut vs Ψ X) (he : ∀ n < Ψ.size, Y.lin n = X.lin n) : ProjectsOut vs Ψ Y := by
  obtain ⟨h1, a, h2⟩ := h
  refine ⟨fun v hv => ?_, a, fun n hn => by rw [he n hn, h2 n hn]⟩
  rw [← h1 v hv]
  exact Finset.sum_congr rfl fun n hn => by rw [he n (Finset.mem_range.1 hn)]

/-- **C55** for the operators the solver works with, for projectors `vs` which are orthonormal (what the algorithm does not ensure,
`C55_norm_violated`): the effective Hamiltonian acts between two projections onto the vectors orthogonal to all of `vs`.  With a constraint, the
vector is first extended from the subspace `sub` to the two sites, and only the entries in `sub` of the result are kept. -/
theorem C55_operator_partial (H : QForm K) (vs : List (Tensor K)) (d : List Nat) (hv : Orthonormal d.prod vs) :
    (∀ P : Tensor K, P.size = d.prod → ∃ X : Tensor K, X.dims = d ∧ ProjectsOut vs P X ∧
      ((H.applyOneSite X).size = d.prod → (applyQform1 d H vs P).dims = [d.prod] ∧ ProjectsOut vs (H.applyOneSite X) (applyQform1 d H vs P))) ∧
    (∀ (P : Tensor K) (sense : Int), P.size = d.prod → ∃ X : Tensor K, X.dims = d ∧ ProjectsOut vs P X ∧
      ∀ V, H.applyTwoSite X sense = some V → V.size = d.prod →
        (applyQform2 sense d H vs P).dims = [d.prod] ∧ ProjectsOut vs V (applyQform2 sense d H vs P)) ∧
    (∀ (P : Tensor K) (sense : Int) (sub : List Nat), sub.Nodup → (∀ n ∈ sub, n < d.prod) → ∃ Q X : Tensor K, Q.dims = d ∧ X.dims = d ∧
      (∀ j < sub.length, Q.lin (sub.getD j 0) = P.lin j) ∧ (∀ n < d.prod, n ∉ sub → Q.lin n = 0) ∧ ProjectsOut vs Q X ∧
      ∀ V, H.applyTwoSite X sense = some V → V.size = d.prod → ∃ Y, ProjectsOut vs V Y ∧
        (applyQform2Sub sense d H sub vs P).dims = [sub.length] ∧
        ∀ j < sub.length, (applyQform2Sub sense d H sub vs P).lin j = Y.lin (sub.getD j 0)) := by
  refine ⟨fun P hP => ?_, fun P sense hP => ?_, fun P sense sub hnd hsub => ?_⟩
  · refine ⟨orthogonalize (reshape P d) vs, orthogonalize_dims _ _,
      (orthogonalize_projects (reshape P d) vs hv).left (by rw [hP]; rfl) (fun n hn => reshape_lin P d hn), fun hs => ?_⟩
    unfold applyQform1
    refine ⟨by simp [reshape, hP], ((orthogonalize_projects _ vs (hs ▸ hv)).right fun n hn => ?_)⟩
    rw [reshape_lin _ _ (by rw [List.prod_singleton, hP, ← hs]; exact hn)]
  · refine ⟨orthogonalize (reshape P d) vs, orthogonalize_dims _ _,
      (orthogonalize_projects (reshape P d) vs hv).left (by rw [hP]; rfl) (fun n hn => reshape_lin P d hn), fun V hV hs => ?_⟩
    unfold applyQform2
    simp only [hV, Option.getD_some]
    have hrs : (reshape V [V.size]).size = V.size := by simp [Tensor.size, reshape]
    refine ⟨by rw [orthogonalize_dims, hs]; rfl, (orthogonalize_projects _ vs (by rw [hrs, hs]; exact hv)).left hrs.symm fun n hn => ?_⟩
    exact reshape_lin _ _ (by rw [List.prod_singleton]; rwa [hrs] at hn)
  · have hQ : ∀ n < d.prod, (embedSub d sub P).lin n = ∑ j ∈ Finset.range sub.length, if sub.getD j 0 = n then P.lin j else 0 := by
      intro n hn
      unfold embedSub
      simp only [Tensor.lin]
      rw [flat_of_unflat _ _ hn]
    refine ⟨embedSub d sub P, orthogonalize (embedSub d sub P) vs, rfl, orthogonalize_dims _ _, fun j hj => ?_, fun n hn hns => ?_,
      orthogonalize_projects _ vs hv, fun V hV hs => ?_⟩
    · have hg : sub.getD j 0 = sub[j] := by simp [hj]
      rw [hQ _ (hsub _ (by rw [hg]; exact List.getElem_mem hj)), Finset.sum_eq_single j]
      · rw [if_pos rfl]
      · intro i hi hij
        rw [if_neg]
        intro h
        have hi' := Finset.mem_range.1 hi
        have : sub.getD i 0 = sub[i] := by simp [hi']
        rw [this, hg] at h
        exact hij ((List.Nodup.getElem_inj_iff hnd).1 h)
      · intro h; exact absurd (Finset.mem_range.2 hj) h
    · rw [hQ n hn]
      refine Finset.sum_eq_zero fun i hi => ?_
      rw [if_neg]
      intro h
      have hi' := Finset.mem_range.1 hi
      have : sub.getD i 0 = sub[i] := by simp [hi']
      rw [this] at h
      exact hns (h ▸ List.getElem_mem hi')
    · refine ⟨orthogonalize V vs, orthogonalize_projects _ vs (hs ▸ hv), ?_, fun j hj => ?_⟩
      · unfold applyQform2Sub; rfl
      · unfold applyQform2Sub
        simp only [hV, Option.getD_some]
        show (takeSub sub (orthogonalize V vs)).get (unflat [sub.length] j) = _
        rw [show unflat [sub.length] j = [j] by simp [unflat, Nat.mod_eq_of_lt hj]]
        rfl

/-- The hypotheses are met by one qubit with the identity as Hamiltonian and one projector. -/
theorem C55_operator_example :
    let O : List (Tensor ℝ) := [⟨[1, 2, 2, 1], fun I => if I.getD 1 0 = I.getD 2 0 then 1 else 0⟩]
    let ψ : List (Tensor ℝ) := [⟨[1, 2, 1], fun I => if I.getD 1 0 = 0 then 1 else 0⟩]
    ∃ f, QForm.new O ψ ψ 0 = some f ∧ Orthonormal [1, 2, 1].prod ψ ∧ ∀ X : Tensor ℝ, X.dims = [1, 2, 1] → (f.applyOneSite X).size = [1, 2, 1].prod := by
  classical
  intro O ψ
  have hO : WFO 1 O [2] 1 := .cons rfl (by omega) (by omega) (by omega) (.nil 1)
  have hw : WF 1 ψ [2] 1 := .cons rfl (by omega) (by omega) (by omega) (.nil 1)
  have hdef : NonZero [2] O := ⟨[0], [0], by simp [IsCfg], by simp [IsCfg], by
    rw [opElt_of_WFO hO (by simp [O])]; simp [O, opPath, dim]⟩
  obtain ⟨f, f1, f2⟩ := QGood.new (start := 0) hO hw hw (by simp)
  refine ⟨f, by convert f1, ⟨?_, by simp [ψ]⟩, fun X hX => ?_⟩
  · intro v hv
    simp only [ψ, List.mem_singleton] at hv
    subst hv
    simp [Tensor.size, Finset.sum_range_succ, Tensor.lin, unflat]
  · obtain ⟨-, -, -, happ⟩ := form_single (l := []) (r := []) (a := 1) (a' := 1) (b := 1) (b' := 1) hO f2 (.nil 1) (.nil 1) (.nil 1) (.nil 1)
    obtain ⟨e1, e2⟩ := happ X hX
    have hne := Form.single_nonempty (l := []) (r := []) (a := 1) (b := 1) (a' := 1) (b' := 1) hO hdef f2 (.nil 1) (.nil 1) (.nil 1) (.nil 1)
    rw [Tensor.size, (e2 hne).1]
    rfl

end MPS.Props
