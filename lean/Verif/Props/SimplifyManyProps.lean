import Verif.SimplifyLemmas11
import Verif.Props.SimplifyProps

/-!
# C95, C96: `simplify(&P, {Q}, weights, &sense, sweeps, normalize)` and `simplify(&P, {Q}, weights, Dmax, tol, &sense, sweeps, normalize)`
-/

set_option linter.unusedSectionVars false
set_option linter.unusedSimpArgs false

namespace MPS.Props
open MPS Tensor Form Minim Obc Simp
variable {K : Type} [RCLike K]

/-- the two functions, apart from the loop -/
theorem manySimplify_unfold {ds : List Nat} {P : List (Tensor K)} {Q : List (List (Tensor K))} (hP : WF 1 P ds 1) (hQ : ∀ q ∈ Q, WF 1 q ds 1)
    (hne : Q ≠ []) (h1 : 1 < ds.length) (w : List K) (sweep : Int → MSweep K → Option (MSweep K)) (tolerance : ℝ) {sense : Option Int}
    (hs : sense = none ∨ sense = some 1 ∨ sense = some (-1)) (sweeps : Nat) (normalize : Bool) :
    ∃ m m' : Many K, m.Q = Q ∧ m.weights = w ∧ m.L = ds.length ∧ MReady ds m (sense.getD 1) ⟨P, m', Tensor.empty, 0⟩ ∧
      manySimplify sweep tolerance P Q w sense sweeps normalize =
        manyLoop sweep tolerance (normSqOf ds (superpose w Q)) normalize (max sweeps 1 - 1) (sense.getD 1) (normSqOf ds (superpose w Q) * 10)
          ⟨P, m', Tensor.empty, 0⟩ [] := by
  have hQl : 0 < Q.length := List.length_pos_iff.2 hne
  have hq0 := hQ _ (getD_mem hQl [])
  have hl0 := hq0.length
  have hPl := hP.length
  have hmps : ∀ b ∈ Q, IsMPS ds b := fun b hb => ⟨by have := (hQ b hb).length; rintro rfl; simp at this; omega, 1, hQ b hb⟩
  set m : Many K := ⟨Q, w, ds.length, Q.map fun _ => List.replicate (ds.length + 2) Tensor.empty⟩ with hm
  have hnew : Many.new Q w = some m := by
    unfold Many.new
    simp only
    rw [if_neg (by omega), if_neg (by omega), hl0, hm]
  have hb : AllCaches ds m.Q P m.mat 0 ds.length := base_caches hPl hQ
  have hs0 : sense.getD 1 ≠ 0 := by rcases hs with rfl | rfl | rfl <;> decide
  refine ⟨m, if sense.getD 1 > 0 then m.initRight P m.L else m.initLeft P m.L 0, rfl, rfl, rfl, ?_, ?_⟩
  · obtain ⟨r1, r2, r3, r4⟩ := initRight_spec hPl ds.length m hQ le_rfl hb
    obtain ⟨l1, l2, l3, l4⟩ := initLeft_spec hPl ds.length 0 m hQ (by omega) hb
    unfold MReady
    split_ifs with h
    · exact ⟨⟨r1, r2, r3⟩, r4⟩
    · exact ⟨⟨l1, l2, l3⟩, l4⟩
  · unfold manySimplify
    rw [hnew, Option.bind_some, manyNorm2_spec hmps, Option.bind_some]
    simp only
    rw [if_neg hs0]

theorem dir_of {sense : Option Int} (hs : sense = none ∨ sense = some 1 ∨ sense = some (-1)) : sense.getD 1 = 1 ∨ sense.getD 1 = -1 := by
  rcases hs with rfl | rfl | rfl
  · exact Or.inl rfl
  · exact Or.inl rfl
  · exact Or.inr rfl

theorem norm_of_overlap {ds : List Nat} {P : List (Tensor K)} {q : List Nat → K} (h : MPS.inner ds (amp P) q ≠ 0) : normSq ds P ≠ 0 := by
  intro h0
  refine inner_ne_norm (x := q) (q := amp P) (ds := ds) ?_ h0
  rw [← inner_star']
  simpa using h

/-- **C95.**  The function with several vectors that changes one tensor at a time.  It returns whenever the initial guess is not orthogonal
to the target `∑ weights[i] Q[i]`, and what it returns is as promised: see `Fitted`.  The number returned is the squared distance between
the target and the state found (before it is normalised), nothing is lost, and bonds do not grow. -/
theorem C95_simplify_many {svd : Tensor K → SvdRes K} (hg : GoodSvd svd) (eps : ℝ) {dflt : ℝ} (hd : 0 ≤ dflt) {ds : List Nat} {P : List (Tensor K)}
    {Q : List (List (Tensor K))} (hP : WF 1 P ds 1) (hQ : ∀ q ∈ Q, WF 1 q ds 1) (hne : Q ≠ []) (h1 : 1 < ds.length) (w : List K) (tolerance : ℝ)
    {sense : Option Int} (hs : sense = none ∨ sense = some 1 ∨ sense = some (-1)) (sweeps : Nat) (normalize : Bool)
    (hz : MPS.inner ds (amp P) (superpose w Q) ≠ 0) :
    ∃ out, simplifyMany svd eps dflt tolerance P Q w sense sweeps normalize = some out ∧
      Fitted ds (superpose w Q) P (sense.getD 1) (max sweeps 1) normalize (ManyStop tolerance (normSqOf ds (superpose w Q))) (fun e => e)
        (fun j d => d ≤ (site P j).dim 2) (normSqOf ds (superpose w Q) * 10) 0 out.errs out ∧
      out.err = sumCfg ds (fun s => ‖superpose w Q s - amp out.P0 s‖ ^ 2) ∧ out.lost = 0 ∧ MPS.inner ds (amp out.P0) (superpose w Q) ≠ 0 ∧
      normSq ds out.P0 ≠ 0 := by
  obtain ⟨m, m', rfl, rfl, mL, mr, e⟩ := manySimplify_unfold hP hQ hne h1 w
    (fun s x => some (if s > 0 then manyRight svd eps dflt x.m.L 0 x else manyLeft svd eps dflt x.m.L x)) tolerance hs sweeps normalize
  obtain ⟨l1, l2⟩ := manyLoop_spec mL hQ (by omega) (oneSite_ok hg eps hd mL hne hQ (by omega) (fun j => (site P j).dim 2)) tolerance normalize
    (max sweeps 1 - 1) (dir_of hs) (normSqOf ds (superpose m.weights m.Q) * 10) (x := ⟨P, m', Tensor.empty, 0⟩) hP ⟨rfl, hz, fun _ _ => le_rfl⟩ mr []
  obtain ⟨out, ho⟩ := l2 (Or.inr fun P l h => norm_of_overlap h.2.1)
  obtain ⟨⟨i1, i2, i3⟩, es, i4, f⟩ := l1 out ho
  rw [List.nil_append] at i4
  rw [← i4, show max sweeps 1 - 1 + 1 = max sweeps 1 by omega] at f
  refine ⟨out, ?_, f, f.err, i1, i2, norm_of_overlap i2⟩
  rw [← ho, ← e]
  rfl

/-- **C96.**  The function with several vectors that changes two tensors at a time, with a bound on the bond dimensions (`Dmax = 0`: none)
and a tolerance for truncations.  Whatever it returns is as promised: see `Fitted`; `out.lost` is the weight of all singular values dropped. -/
theorem C96_simplify_many {svd : Tensor K → SvdRes K} (hg : GoodSvd svd) (eps : ℝ) {dflt : ℝ} (hd : 0 < dflt) {ds : List Nat} {P : List (Tensor K)}
    {Q : List (List (Tensor K))} (hP : WF 1 P ds 1) (hQ : ∀ q ∈ Q, WF 1 q ds 1) (hne : Q ≠ []) (h1 : 1 < ds.length) (w : List K) (Dmax : Nat)
    {tol : ℝ} (htol : tol ≠ 0) (tolerance : ℝ) {sense : Option Int} (hs : sense = none ∨ sense = some 1 ∨ sense = some (-1)) (sweeps : Nat)
    (normalize : Bool) {out : Res K} (ho : simplifyMany2 svd eps dflt tolerance P Q w Dmax tol sense sweeps normalize = some out) :
    Fitted ds (superpose w Q) P (sense.getD 1) (max sweeps 1) normalize (ManyStop tolerance (normSqOf ds (superpose w Q))) (fun e => e)
        (fun _ d => 0 < Dmax → d ≤ Dmax) (normSqOf ds (superpose w Q) * 10) 0 out.errs out ∧
      out.err = sumCfg ds (fun s => ‖superpose w Q s - amp out.P0 s‖ ^ 2) := by
  obtain ⟨m, m', rfl, rfl, mL, mr, e⟩ := manySimplify_unfold hP hQ hne h1 w
    (fun s x => if s > 0 then manyRight2 svd eps dflt Dmax tol (x.m.L - 1) 0 x else manyLeft2 svd eps dflt Dmax tol (x.m.L - 1) x)
    tolerance hs sweeps normalize
  obtain ⟨l1, -⟩ := manyLoop_spec mL hQ (by omega) (twoSite_ok hg eps hd Dmax htol mL hne hQ h1) tolerance normalize
    (max sweeps 1 - 1) (dir_of hs) (normSqOf ds (superpose m.weights m.Q) * 10) (x := ⟨P, m', Tensor.empty, 0⟩) hP trivial mr []
  obtain ⟨-, es, i4, f⟩ := l1 out (by rw [← ho, ← e]; rfl)
  rw [List.nil_append] at i4
  rw [← i4, show max sweeps 1 - 1 + 1 = max sweeps 1 by omega] at f
  exact ⟨f, f.err⟩

/-- **C96**: without `normalize` it always returns (with it, it may divide zero by zero) -/
theorem C96_returns {svd : Tensor K → SvdRes K} (hg : GoodSvd svd) (eps : ℝ) {dflt : ℝ} (hd : 0 < dflt) {ds : List Nat} {P : List (Tensor K)}
    {Q : List (List (Tensor K))} (hP : WF 1 P ds 1) (hQ : ∀ q ∈ Q, WF 1 q ds 1) (hne : Q ≠ []) (h1 : 1 < ds.length) (w : List K) (Dmax : Nat)
    {tol : ℝ} (htol : tol ≠ 0) (tolerance : ℝ) {sense : Option Int} (hs : sense = none ∨ sense = some 1 ∨ sense = some (-1)) (sweeps : Nat) :
    ∃ out, simplifyMany2 svd eps dflt tolerance P Q w Dmax tol sense sweeps false = some out := by
  obtain ⟨m, m', rfl, rfl, mL, mr, e⟩ := manySimplify_unfold hP hQ hne h1 w
    (fun s x => if s > 0 then manyRight2 svd eps dflt Dmax tol (x.m.L - 1) 0 x else manyLeft2 svd eps dflt Dmax tol (x.m.L - 1) x)
    tolerance hs sweeps false
  obtain ⟨-, l2⟩ := manyLoop_spec mL hQ (by omega) (twoSite_ok hg eps hd Dmax htol mL hne hQ h1) tolerance false
    (max sweeps 1 - 1) (dir_of hs) (normSqOf ds (superpose m.weights m.Q) * 10) (x := ⟨P, m', Tensor.empty, 0⟩) hP trivial mr []
  obtain ⟨out, ho⟩ := l2 (Or.inl rfl)
  exact ⟨out, by rw [← ho, ← e]; rfl⟩

/-- **C95, C96**: an empty set of vectors, chains of one site, and `sense = 0` are rejected -/
theorem C95_rejects (sweep : Int → MSweep K → Option (MSweep K)) (P : List (Tensor K)) (Q : List (List (Tensor K))) (w : List K) (tolerance : ℝ)
    (sense : Option Int) (sweeps : Nat) (normalize : Bool) (h : Q = [] ∨ (Q.getD 0 []).length = 1 ∨ sense = some 0) :
    manySimplify sweep tolerance P Q w sense sweeps normalize = none := by
  unfold manySimplify
  rcases h with rfl | h | rfl
  · rfl
  · have : Many.new Q w = none := by
      unfold Many.new
      simp only
      rw [if_pos h]
      split_ifs <;> rfl
    rw [this]; rfl
  · cases Many.new Q w with
    | none => rfl
    | some m =>
      cases manyNorm2 Q w with
      | none => rfl
      | some x => rfl

theorem C95_rejects_one (svd : Tensor K → SvdRes K) (eps dflt : ℝ) (P : List (Tensor K)) (Q : List (List (Tensor K))) (w : List K) (tolerance : ℝ)
    (sense : Option Int) (sweeps : Nat) (normalize : Bool) (h : Q = [] ∨ (Q.getD 0 []).length = 1 ∨ sense = some 0) :
    simplifyMany svd eps dflt tolerance P Q w sense sweeps normalize = none := C95_rejects _ P Q w tolerance sense sweeps normalize h

theorem C96_rejects (svd : Tensor K → SvdRes K) (eps dflt : ℝ) (P : List (Tensor K)) (Q : List (List (Tensor K))) (w : List K) (Dmax : Nat) (tol tolerance : ℝ)
    (sense : Option Int) (sweeps : Nat) (normalize : Bool) (h : Q = [] ∨ (Q.getD 0 []).length = 1 ∨ sense = some 0) :
    simplifyMany2 svd eps dflt tolerance P Q w Dmax tol sense sweeps normalize = none := C95_rejects _ P Q w tolerance sense sweeps normalize h

theorem superpose_ex (s : List Nat) : superpose [1, -3] [guess2, target2] s = amp guess2 s - 3 * amp target2 s := by
  simp [superpose, Finset.sum_range_succ]
  ring

/-- the hypotheses of C95 are met: one vector is a product state, the other is not, and the first guess overlaps with the target -/
theorem C95_witness : ∃ svd : Tensor ℝ → SvdRes ℝ, GoodSvd svd ∧
    ∃ out, simplifyMany svd 0 0 (1 / 10 ^ 14) guess2 [guess2, target2] [1, -3] none 5 true = some out ∧ out.lost = 0 := by
  obtain ⟨svd, hg⟩ := exists_goodSvd (K := ℝ)
  refine ⟨svd, hg, ?_⟩
  obtain ⟨out, h1, -, -, h2, -⟩ := C95_simplify_many hg 0 le_rfl (Q := [guess2, target2]) guess2_wf (by
    intro q hq
    simp only [List.mem_cons, List.not_mem_nil, or_false] at hq
    rcases hq with rfl | rfl
    · exact guess2_wf
    · exact target2_wf) (by simp) (by decide) [1, -3] (1 / 10 ^ 14) (Or.inl rfl) 5 true (by
    simp only [MPS.inner, superpose_ex]
    simp [sumCfg_cons, sumCfg_nil, Finset.sum_range_succ, guess2_amp, target2_amp]
    norm_num)
  exact ⟨out, h1, h2⟩

/-- the hypotheses of C96 are met, with a bound on the bond dimension below that of the target -/
theorem C96_witness : ∃ svd : Tensor ℝ → SvdRes ℝ, GoodSvd svd ∧
    ∃ out, simplifyMany2 svd 0 (1 / 10) (1 / 10 ^ 14) guess2 [guess2, target2] [1, -3] 1 (-1) (some (-1)) 5 false = some out := by
  obtain ⟨svd, hg⟩ := exists_goodSvd (K := ℝ)
  exact ⟨svd, hg, C96_returns hg 0 (by norm_num) (Q := [guess2, target2]) guess2_wf (by
    intro q hq
    simp only [List.mem_cons, List.not_mem_nil, or_false] at hq
    rcases hq with rfl | rfl
    · exact guess2_wf
    · exact target2_wf) (by simp) (by decide) [1, -3] 1 (by norm_num) _ (Or.inr (Or.inr rfl)) 5⟩

end MPS.Props
