import Verif.DmrgLemmas6

/-! Sweeps and the loop of the single-site algorithm. -/

set_option linter.unusedSectionVars false
set_option linter.unusedSimpArgs false

namespace MPS.Dmrg
open MPS Tensor Form Minim
variable {K : Type} [RCLike K]

theorem hamExp_congr {ds : List Nat} {H : Ham K} {φ ψ : List (Tensor K)} (h : ∀ s, IsCfg ds s → amp φ s = amp ψ s) :
    hamExp ds H φ φ = hamExp ds H ψ ψ := by
  unfold hamExp MPS.inner actOp
  refine sumCfg_congr fun s hs => ?_
  rw [h s hs]
  congr 1
  exact sumCfg_congr fun t ht => by rw [h t ht]

/-- nothing lost: the state itself is normalised and has the energy `E` -/
theorem Best.exact {ds : List Nat} {H : Ham K} {d : St K} {E : ℝ} (h : Best ds H d E) (h0 : d.lost = 0) :
    normSq ds d.P = 1 ∧ hamExp ds H d.P d.P = (E : K) := by
  obtain ⟨χ, k, -, -, h1, h2, h3, -⟩ := h.near
  rw [h0] at h3
  have := distSq_zero h3
  exact ⟨by rw [normSq_congr this, h1], by rw [hamExp_congr this, h2]⟩

/-- what a sequence of steps from `d` to `d'` achieves -/
structure Swept (ds : List Nat) (H : Ham K) (d d' : St K) (E : ℝ) : Prop where
  best : Best ds H d' E
  total : d.total + d'.lost ≤ d'.total
  le : d'.total = d.total → E * normSq ds d.P ≤ hamEnergy ds H d.P

theorem Swept.decreases {ds : List Nat} {H : Ham K} {d d' d'' : St K} {E E' : ℝ} (h : Swept ds H d d' E) (h' : Swept ds H d' d'' E')
    (ht : d''.total = d.total) : E' ≤ E := by
  have p1 := h.best.pos
  have p2 := h'.best.pos
  have t1 := h.total
  have t2 := h'.total
  obtain ⟨n1, n2⟩ := h.best.exact (by linarith)
  have := h'.le (by linarith)
  rwa [n1, hamEnergy, n2, RCLike.ofReal_re, mul_one] at this

theorem Swept.trans {ds : List Nat} {H : Ham K} {d d' d'' : St K} {E E' : ℝ} (h : Swept ds H d d' E) (h' : Swept ds H d' d'' E') :
    Swept ds H d d'' E' := by
  have p1 := h.best.pos
  have p2 := h'.best.pos
  have t1 := h.total
  have t2 := h'.total
  refine ⟨h'.best, by linarith, fun ht => ?_⟩
  exact le_trans (mul_le_mul_of_nonneg_right (h.decreases h' ht) (normSq_nonneg ds d.P)) (h.le (by linarith))

theorem single_swept {svd : Tensor K → SvdRes K} (hg : GoodSvd svd) (eps : ℝ) {dflt : ℝ} (hd0 : 0 < dflt) {eigs : Eigs K} (he : GoodEigs eigs)
    {ds : List Nat} {H : Ham K} (hH : HamOk ds H) (P0 : List (List (Tensor K))) {d : St K} {k : Nat} (hc : Cent ds H d k) {dk : Int}
    (hdk : k = 0 → dk > 0) {d' : St K} {E : ℝ} (hrun : singleSite svd eps dflt eigs H P0 d k dk = some (d', E)) :
    Cent ds H d' (nextCentre ds.length dk k) ∧ Swept ds H d d' E ∧ (nextCentre ds.length dk k = k → d'.lost = 0) := by
  obtain ⟨h1, h2, h3, h4, h5⟩ := single_site hg eps hd0 he hH P0 hc hdk hrun
  exact ⟨h1, ⟨h2, by rw [h4], fun _ => h3⟩, h5⟩

theorem single_right {svd : Tensor K → SvdRes K} (hg : GoodSvd svd) (eps : ℝ) {dflt : ℝ} (hd0 : 0 < dflt) {eigs : Eigs K} (he : GoodEigs eigs)
    {ds : List Nat} {H : Ham K} (hH : HamOk ds H) (P0 : List (List (Tensor K))) (fuel : Nat) {k : Nat} (hfuel : k + fuel + 1 = ds.length) {d : St K}
    (hc : Cent ds H d k) {E0 : ℝ} {r : Iter (St K)} (hrun : singleRight svd eps dflt eigs H P0 (fuel + 1) k d E0 = some r) :
    ∃ d' E, r = .done d' E ∧ Cent ds H d' (ds.length - 1) ∧ Swept ds H d d' E ∧ d'.lost = 0 := by
  induction fuel generalizing k d E0 with
  | zero =>
    rw [singleRight] at hrun
    obtain ⟨⟨d1, E1⟩, h1, h2⟩ := Option.bind_eq_some_iff.1 hrun
    simp only [singleRight, Option.some.injEq] at h2
    obtain ⟨a1, a2, a3⟩ := single_swept hg eps hd0 he hH P0 hc (fun _ => by decide) h1
    have e : nextCentre ds.length 1 k = k := by unfold nextCentre; rw [if_pos (by decide), if_pos (by omega)]
    have ek : ds.length - 1 = k := by omega
    rw [e] at a1
    rw [ek]
    exact ⟨d1, E1, h2.symm, a1, a2, a3 e⟩
  | succ fuel ih =>
    rw [singleRight] at hrun
    obtain ⟨⟨d1, E1⟩, h1, h2⟩ := Option.bind_eq_some_iff.1 hrun
    obtain ⟨a1, a2, -⟩ := single_swept hg eps hd0 he hH P0 hc (fun _ => by decide) h1
    have e : nextCentre ds.length 1 k = k + 1 := by unfold nextCentre; rw [if_pos (by decide), if_neg (by omega)]
    rw [e] at a1
    obtain ⟨d2, E2, b1, b2, b3, b4⟩ := ih (by omega) a1 h2
    exact ⟨d2, E2, b1, b2, a2.trans b3, b4⟩

theorem single_left {svd : Tensor K → SvdRes K} (hg : GoodSvd svd) (eps : ℝ) {dflt : ℝ} (hd0 : 0 < dflt) {eigs : Eigs K} (he : GoodEigs eigs)
    {ds : List Nat} {H : Ham K} (hH : HamOk ds H) (P0 : List (List (Tensor K))) {k : Nat} {d : St K}
    (hc : Cent ds H d (k + 1)) {E0 : ℝ} {r : Iter (St K)} (hrun : singleLeft svd eps dflt eigs H P0 (k + 1) d E0 = some r) :
    ∃ d' E, r = .done d' E ∧ Cent ds H d' 0 ∧ Swept ds H d d' E := by
  induction k generalizing d E0 with
  | zero =>
    rw [singleLeft] at hrun
    obtain ⟨⟨d1, E1⟩, h1, h2⟩ := Option.bind_eq_some_iff.1 hrun
    simp only [singleLeft, Option.some.injEq] at h2
    obtain ⟨a1, a2, -⟩ := single_swept hg eps hd0 he hH P0 hc (fun h => by omega) h1
    have e : nextCentre ds.length (-1) (0 + 1) = 0 := by simp [nextCentre]
    rw [e] at a1
    exact ⟨d1, E1, h2.symm, a1, a2⟩
  | succ k ih =>
    rw [singleLeft] at hrun
    obtain ⟨⟨d1, E1⟩, h1, h2⟩ := Option.bind_eq_some_iff.1 hrun
    obtain ⟨a1, a2, -⟩ := single_swept hg eps hd0 he hH P0 hc (fun h => by omega) h1
    have e : nextCentre ds.length (-1) (k + 1 + 1) = k + 1 := by simp [nextCentre]
    rw [e] at a1
    obtain ⟨d2, E2, b1, b2, b3⟩ := ih a1 h2
    exact ⟨d2, E2, b1, b2, a2.trans b3⟩

/-- one iteration of `minimize` with `Dmax = 0` -/
theorem single_iteration {svd : Tensor K → SvdRes K} (hg : GoodSvd svd) (eps : ℝ) {dflt : ℝ} (hd0 : 0 < dflt) {eigs : Eigs K} (he : GoodEigs eigs)
    (solve : Solve K) (svdTol : ℝ) {ds : List Nat} {H : Ham K} (hH : HamOk ds H) (P0 : List (List (Tensor K))) {d : St K} {dk : Int}
    (hc : Cent ds H d (endOf ds.length dk)) {r : Iter (St K)}
    (hrun : iteration svd eps dflt eigs solve svdTol H P0 0 dk d = some r) :
    ∃ d' E, r = .done d' E ∧ (dk > 0 → Cent ds H d' (ds.length - 1) ∧ d'.lost = 0) ∧ (¬ dk > 0 → Cent ds H d' 0) ∧ Swept ds H d d' E := by
  have h2 := hH.two
  unfold iteration at hrun
  rw [if_neg (by simp), hH.size] at hrun
  by_cases hs : dk > 0
  · rw [if_pos hs] at hrun
    simp only [endOf, if_pos hs] at hc
    obtain ⟨n, hn⟩ : ∃ n, ds.length = n + 1 := ⟨ds.length - 1, by omega⟩
    rw [hn] at hrun
    obtain ⟨d', E, a1, a2, a3, a4⟩ := single_right hg eps hd0 he hH P0 n (by omega) hc hrun
    exact ⟨d', E, a1, fun _ => ⟨a2, a4⟩, fun h => absurd hs h, a3⟩
  · rw [if_neg hs] at hrun
    simp only [endOf, if_neg hs] at hc
    obtain ⟨n, hn⟩ : ∃ n, ds.length - 1 = n + 1 := ⟨ds.length - 2, by omega⟩
    rw [hn] at hrun hc
    obtain ⟨d', E, a1, a2, a3⟩ := single_left hg eps hd0 he hH P0 hc hrun
    exact ⟨d', E, a1, fun h => absurd h hs, fun _ => a2, a3⟩

/-- a sequence of complete iterations -/
inductive Run (iter : Int → St K → Option (Iter (St K))) (d : St K) : List ℝ → St K → Prop
  | nil : Run iter d [] d
  | snoc {es d' d'' E} : Run iter d es d' → iter ((-1) ^ es.length) d' = some (.done d'' E) → Run iter d (es ++ [E]) d''

theorem Run.of_nil {iter : Int → St K → Option (Iter (St K))} {d d' : St K} {es : List ℝ} (h : Run iter d es d') (he : es = []) : d' = d := by
  cases h with
  | nil => rfl
  | snoc _ _ => simp at he

/-- what the loop of `minimize` guarantees, whatever a complete iteration does -/
structure LoopSpec (iter : Int → St K → Option (Iter (St K))) (o : Opts) (E0 : ℝ) (d : St K) (out : Out K) : Prop where
  count : out.energies.length ≤ o.sweeps
  ran : Run iter d out.energies out.last
  same : out.P = out.last.P
  energy : out.E = out.energies.getLastD E0
  stop : out.energies.length < o.sweeps → ∃ es E E', out.energies = es ++ [E, E'] ∧ (|E' - E| < o.tolerance ∨ E' - E > 1 / 10 ^ 14 * |E'|)
  go : ∀ j, j + 2 < out.energies.length → o.tolerance ≤ |out.energies.getD (j + 1) 0 - out.energies.getD j 0|

theorem loop_core {iter : Int → St K → Option (Iter (St K))} {fail : List (Tensor K) → List (Tensor K)} {o : Opts} {E0 : ℝ} {d0 : St K}
    (hdone : ∀ es d r, Run iter d0 es d → iter ((-1) ^ es.length) d = some r → ∃ d' E, r = .done d' E)
    (fuel i : Nat) (failures : Int) (E : ℝ) (d : St K)
    (es : List ℝ) {out : Out K} (hfuel : i + fuel = o.sweeps) (hi : es.length = i) (hE : E = es.getLastD E0)
    (htr : Run iter d0 es d) (hgo : ∀ j, j + 1 < es.length → o.tolerance ≤ |es.getD (j + 1) 0 - es.getD j 0|)
    (hrun : loop iter fail o fuel i ((-1) ^ i) failures E d es = some out) : LoopSpec iter o E0 d0 out := by
  induction fuel generalizing i failures E d es with
  | zero =>
    simp only [loop, Option.some.injEq] at hrun
    subst hrun
    exact ⟨by simp only; omega, htr, rfl, hE, fun h => by simp only at h; omega, fun j hj => hgo j (by simp only at hj; omega)⟩
  | succ fuel ih =>
    rw [loop] at hrun
    obtain ⟨r, h1, h2⟩ := Option.bind_eq_some_iff.1 hrun
    obtain ⟨d1, E1, rfl⟩ := hdone es d r htr (by rw [hi]; exact h1)
    simp only at h2
    have hgo1 : ∀ j, j + 2 < (es ++ [E1]).length → o.tolerance ≤ |(es ++ [E1]).getD (j + 1) 0 - (es ++ [E1]).getD j 0| := by
      intro j hj
      simp only [List.length_append, List.length_singleton] at hj
      rw [getD_snoc_lt (by omega), getD_snoc_lt (by omega)]
      exact hgo j (by omega)
    have hcnt : (es ++ [E1]).length ≤ o.sweeps := by simp; omega
    have htr1 : Run iter d0 (es ++ [E1]) d1 := htr.snoc (by rw [hi]; exact h1)
    have hsplit : i ≠ 0 → ∃ es', es = es' ++ [E] := by
      intro h0
      have hne : es ≠ [] := by rintro rfl; simp at hi; omega
      refine ⟨es.dropLast, ?_⟩
      rw [hE, List.getLastD_eq_getLast?, List.getLast?_eq_some_getLast hne, Option.getD_some]
      exact (List.dropLast_append_getLast hne).symm
    have hnext : ¬ (i ≠ 0 ∧ |E1 - E| < o.tolerance) → ∀ j, j + 1 < (es ++ [E1]).length →
        o.tolerance ≤ |(es ++ [E1]).getD (j + 1) 0 - (es ++ [E1]).getD j 0| := by
      intro hn j hj
      by_cases hj2 : j + 2 < (es ++ [E1]).length
      · exact hgo1 j hj2
      · simp only [List.length_append, List.length_singleton] at hj hj2
        obtain ⟨es', he'⟩ := hsplit (by omega)
        have hl : es.length = es'.length + 1 := by rw [he']; simp
        have ej : j = es'.length := by omega
        have : (es ++ [E1]).getD (j + 1) 0 = E1 ∧ (es ++ [E1]).getD j 0 = E := by
          rw [he', ej]; constructor <;> simp
        rw [this.1, this.2]
        push Not at hn
        exact hn (by omega)
    have hE1 : E1 = (es ++ [E1]).getLastD E0 := by simp
    have hstop : i ≠ 0 → (|E1 - E| < o.tolerance ∨ E1 - E > 1 / 10 ^ 14 * |E1|) → ∃ es' E2 E2', es ++ [E1] = es' ++ [E2, E2'] ∧
        (|E2' - E2| < o.tolerance ∨ E2' - E2 > 1 / 10 ^ 14 * |E2'|) := by
      intro h0 h
      obtain ⟨es', he'⟩ := hsplit h0
      exact ⟨es', E, E1, by rw [he']; simp, h⟩
    have hneg : -((-1 : Int) ^ i) = (-1) ^ (i + 1) := by rw [pow_succ]; ring
    rw [hneg] at h2
    by_cases ht : i ≠ 0 ∧ |E1 - E| < o.tolerance
    · rw [if_pos ht] at h2
      simp only [Option.some.injEq] at h2
      subst h2
      exact ⟨hcnt, htr1, rfl, hE1, fun _ => hstop ht.1 (Or.inl ht.2), hgo1⟩
    rw [if_neg ht] at h2
    have hrec : ∀ f, loop iter fail o fuel (i + 1) ((-1) ^ (i + 1)) f E1 d1 (es ++ [E1]) = some out → LoopSpec iter o E0 d0 out := fun f h =>
      ih (i + 1) f E1 d1 (es ++ [E1]) (by omega) (by simp [hi]) hE1 htr1 (hnext ht) h
    by_cases hgr : i ≠ 0 ∧ E1 - E > 1 / 10 ^ 14 * |E1|
    · rw [if_pos hgr] at h2
      by_cases hf : failures ≥ o.allowGrowth
      · rw [if_pos hf] at h2
        simp only [Option.some.injEq] at h2
        subst h2
        exact ⟨hcnt, htr1, rfl, hE1, fun _ => hstop hgr.1 (Or.inr hgr.2), hgo1⟩
      · rw [if_neg hf] at h2; exact hrec _ h2
    · rw [if_neg hgr] at h2; exact hrec _ h2

/-- a sequence of iterations with `Dmax = 0` -/
theorem single_run {svd : Tensor K → SvdRes K} (hg : GoodSvd svd) (eps : ℝ) {dflt : ℝ} (hd0 : 0 < dflt) {eigs : Eigs K} (he : GoodEigs eigs)
    (solve : Solve K) (svdTol : ℝ) {ds : List Nat} {H : Ham K} (hH : HamOk ds H) (P0 : List (List (Tensor K))) {d d' : St K} {es : List ℝ}
    (hc : Cent ds H d 0) (h : Run (iteration svd eps dflt eigs solve svdTol H P0 0) d es d') :
    Cent ds H d' (endOf ds.length ((-1) ^ es.length)) ∧ d.total ≤ d'.total ∧ (d'.total = d.total → es.Pairwise fun x y => y ≤ x) ∧
    ∀ es' E, es = es' ++ [E] → Swept ds H d d' E ∧ (d'.total = d.total → ∀ x ∈ es', E ≤ x) ∧ (es.length % 2 = 1 → d'.lost = 0) := by
  induction h with
  | nil => exact ⟨by simpa [endOf] using hc, le_rfl, fun _ => .nil, fun es' E h => by simp at h⟩
  | @snoc es d1 d2 E h hrun ih =>
    obtain ⟨i1, i2, i3, i4⟩ := ih
    obtain ⟨d3, E3, e1, e2, e3, e4⟩ := single_iteration hg eps hd0 he solve svdTol hH P0 i1 hrun
    cases e1
    have tt : d1.total ≤ d2.total := by have := e4.total; have := e4.best.pos; linarith
    have hdec : d2.total = d.total → ∀ x ∈ es, E ≤ x := by
      intro ht x hx
      obtain ⟨es2, E2, h2⟩ : ∃ es2 E2, es = es2 ++ [E2] := by
        have hne : es ≠ [] := by rintro rfl; simp at hx
        exact ⟨es.dropLast, es.getLast hne, (List.dropLast_append_getLast hne).symm⟩
      obtain ⟨j1, j2, -⟩ := i4 es2 E2 h2
      have hE2 : E ≤ E2 := j1.decreases e4 ht
      rw [h2] at hx
      rcases List.mem_append.1 hx with hx | hx
      · exact le_trans hE2 (j2 (by linarith) x hx)
      · simp at hx; rw [hx]; exact hE2
    have hsgn : ((-1 : Int) ^ es.length > 0 ↔ es.length % 2 = 0) := by
      rcases Nat.mod_two_eq_zero_or_one es.length with h0 | h0
      · rw [Even.neg_one_pow (Nat.even_iff.2 h0)]; simp [h0]
      · rw [Odd.neg_one_pow (Nat.odd_iff.2 h0)]; simp [h0]
    have hsgn' : ((-1 : Int) ^ (es.length + 1) > 0 ↔ ¬ es.length % 2 = 0) := by
      rcases Nat.mod_two_eq_zero_or_one es.length with h0 | h0
      · rw [Odd.neg_one_pow (Nat.odd_iff.2 (by omega))]; simp [h0]
      · rw [Even.neg_one_pow (Nat.even_iff.2 (by omega))]; simp [h0]
    refine ⟨?_, by linarith, fun ht => ?_, fun es' E' hh => ?_⟩
    · rw [List.length_append, List.length_singleton]
      unfold endOf
      by_cases h0 : es.length % 2 = 0
      · rw [if_neg (by rw [hsgn']; simpa using h0)]; exact (e2 (hsgn.2 h0)).1
      · rw [if_pos (hsgn'.2 h0)]; exact e3 (by rw [hsgn]; exact h0)
    · rw [List.pairwise_append]
      exact ⟨i3 (by linarith), by simp, fun x hx y hy => by simp at hy; rw [hy]; exact hdec ht x hx⟩
    · obtain ⟨rfl, hE⟩ := List.append_inj' hh rfl
      simp only [List.cons.injEq, and_true] at hE
      subst hE
      refine ⟨?_, hdec, fun hl => ?_⟩
      · rcases List.eq_nil_or_concat es with h0 | ⟨es2, E2, h0⟩
        · subst h0
          rw [h.of_nil rfl] at e4
          exact e4
        · obtain ⟨j1, -⟩ := i4 es2 E2 (by simpa using h0)
          exact j1.trans e4
      · rw [List.length_append, List.length_singleton] at hl
        exact (e2 (hsgn.2 (by omega))).2

/-- the matrices of all the sites -/
theorem init_spec {ds : List Nat} {H : Ham K} (hH : HamOk ds H) (P0 : List (List (Tensor K))) (i : Nat) (hi : i ≤ ds.length) {d : St K} (hw : WF 1 d.P ds 1)
    (hA : d.A.length = ds.length) (hr : ∀ j, 0 < j → j < ds.length → RightIso (site d.P j)) (hg : ∀ j, i ≤ j → j < ds.length → RGood ds H d.P d.A j) :
    (initMatrices H P0 i d).P = d.P ∧ (initMatrices H P0 i d).lost = d.lost ∧ (initMatrices H P0 i d).total = d.total ∧
    (initMatrices H P0 i d).A.length = ds.length ∧ ∀ j, j < ds.length → RGood ds H d.P (initMatrices H P0 i d).A j := by
  induction i generalizing d with
  | zero => exact ⟨rfl, rfl, rfl, hA, fun j hj => hg j (by omega) hj⟩
  | succ i ih =>
    rw [initMatrices]
    obtain ⟨a, b, -, q2, -⟩ := WF.around hw (show i < ds.length by omega)
    obtain ⟨m1, m2⟩ := rightMatrix_spec hw hH (by omega) q2 (fun l hl hl2 => hr l (by omega) hl2) (fun hk1 => hg _ (by omega) hk1)
    refine ih (d := updateRight H P0 d i) (by omega) hw (by simp [updateRight, hA]) hr fun j hj hj2 => ?_
    change RGood ds H d.P (d.A.set i (rightMatrix H d.P d.A i)) j
    by_cases hji : j = i
    · subst hji
      unfold RGood
      rw [site_set _ _ _ _ (by omega), if_pos rfl, dim0_of q2]
      exact ⟨m1, fun x y hx hy => ⟨(m2 x y hx hy).1, by rw [(m2 x y hx hy).1, (m2 y x hy hx).1]; exact (m2 x y hx hy).2⟩⟩
    · refine (hg j (by omega) hj2).congr rfl (by rw [hw.length]; exact hj2) (fun _ _ _ => rfl) ?_
      rw [site_set _ _ _ _ (by omega), if_neg hji]

theorem start_spec {svd : Tensor K → SvdRes K} (hg : GoodSvd svd) (eps : ℝ) {dflt : ℝ} (hd0 : 0 < dflt) {ds : List Nat} {H : Ham K} (hH : HamOk ds H)
    (P0 : List (List (Tensor K))) {P : List (Tensor K)} (hw : WF 1 P ds 1) :
    Cent ds H (start svd eps dflt H P0 P) 0 ∧ 0 ≤ (start svd eps dflt H P0 P).total ∧
    (start svd eps dflt H P0 P).P = (canonicalForm svd eps dflt P (-1)).1 ∧ (start svd eps dflt H P0 P).total = (canonicalForm svd eps dflt P (-1)).2 ∧
    ((start svd eps dflt H P0 P).total = 0 → ∀ s, IsCfg ds s → amp (start svd eps dflt H P0 P).P s = amp P s) := by
  have h2 := hH.two
  have hlen := hw.length
  have hne : P ≠ [] := by rintro rfl; simp at hlen; omega
  obtain ⟨e1, e2, e3, e4⟩ := eitherForm_spec hg eps hw (Or.inl hd0) 0 (by omega)
  have ec : canonicalForm svd eps dflt P (-1) = eitherForm svd eps dflt P 0 false := by
    simp [canonicalForm, canonicalFormAt]
  rw [← ec] at e1 e2 e3 e4
  set c := canonicalForm svd eps dflt P (-1) with hc
  obtain ⟨i1, i2, i3, i4, i5⟩ := init_spec hH P0 H.size hH.size.le (d := ⟨c.1, List.replicate H.size Tensor.empty, P0, [], c.2, c.2⟩) e1.wf
    (by simp [hH.size]) (fun j hj hj2 => e4 j hj (by omega)) (fun j hj hj2 => by rw [hH.size] at hj; omega)
  have es : start svd eps dflt H P0 P = initMatrices H P0 H.size ⟨c.1, List.replicate H.size Tensor.empty, P0, [], c.2, c.2⟩ := rfl
  rw [← es] at i1 i2 i3 i4 i5
  simp only at i1 i3 i5
  rw [i1, i3]
  refine ⟨⟨by omega, by rw [i1]; exact e1.wf, i4, fun j hj => by omega, fun j hj hj2 => by rw [i1]; exact e4 j hj (by omega), fun j hj => by omega,
    fun j hj hj2 => by rw [i1]; exact i5 j hj2⟩, e1.nonneg, rfl, rfl, fun h0 s hs => ?_⟩
  have hne' : c.1 ≠ [] := by intro hh; have := e2; rw [hh] at this; simp at this; omega
  rw [amp_of_WF e1.wf hne', amp_of_WF hw hne, Finset.sum_range_one, Finset.sum_range_one]
  exact e1.same h0 s hs 0 (by omega) 0

/-- the solver always succeeds -/
theorem singleSite_runs (svd : Tensor K → SvdRes K) (eps dflt : ℝ) {eigs : Eigs K} (hok : ∀ A n P, (eigs A n P).ok = true) (H : Ham K)
    (P0 : List (List (Tensor K))) (d : St K) {k : Nat} (dk : Int) (hl : (H.loc k).isEmpty = false) :
    ∃ r, singleSite svd eps dflt eigs H P0 d k dk = some r := by
  unfold singleSite
  simp only [hl]
  rw [if_neg (by simp)]
  split_ifs <;> simp_all

theorem singleRight_runs (svd : Tensor K → SvdRes K) (eps dflt : ℝ) {eigs : Eigs K} (hok : ∀ A n P, (eigs A n P).ok = true) (H : Ham K)
    (P0 : List (List (Tensor K))) (fuel : Nat) {k N : Nat} (hN : k + fuel ≤ N) (d : St K) (E : ℝ) (hl : ∀ j, j < N → (H.loc j).isEmpty = false) :
    ∃ r, singleRight svd eps dflt eigs H P0 fuel k d E = some r := by
  induction fuel generalizing k d E with
  | zero => exact ⟨_, rfl⟩
  | succ fuel ih =>
    obtain ⟨r, hr⟩ := singleSite_runs svd eps dflt hok H P0 d 1 (hl k (by omega))
    rw [singleRight, hr, Option.bind_some]
    exact ih (by omega) _ _

theorem singleLeft_runs (svd : Tensor K → SvdRes K) (eps dflt : ℝ) {eigs : Eigs K} (hok : ∀ A n P, (eigs A n P).ok = true) (H : Ham K)
    (P0 : List (List (Tensor K))) {k N : Nat} (hN : k < N) (d : St K) (E : ℝ) (hl : ∀ j, j < N → (H.loc j).isEmpty = false) :
    ∃ r, singleLeft svd eps dflt eigs H P0 k d E = some r := by
  induction k generalizing d E with
  | zero => exact ⟨_, rfl⟩
  | succ k ih =>
    obtain ⟨r, hr⟩ := singleSite_runs svd eps dflt hok H P0 d (-1) (hl (k + 1) hN)
    rw [singleLeft, hr, Option.bind_some]
    exact ih (by omega) _ _

theorem loop_runs {iter : Int → St K → Option (Iter (St K))} (h : ∀ dk d, ∃ r, iter dk d = some r) (fail : List (Tensor K) → List (Tensor K)) (o : Opts)
    (fuel i : Nat) (dk failures : Int) (E : ℝ) (d : St K) (es : List ℝ) : ∃ out, loop iter fail o fuel i dk failures E d es = some out := by
  induction fuel generalizing i dk failures E d es with
  | zero => exact ⟨_, rfl⟩
  | succ fuel ih =>
    obtain ⟨r, hr⟩ := h dk d
    rw [loop, hr, Option.bind_some]
    cases r with
    | skip d => exact ih _ _ _ _ _ _
    | failed d => exact ⟨_, rfl⟩
    | done d E' =>
      simp only
      split_ifs
      · exact ⟨_, rfl⟩
      · exact ⟨_, rfl⟩
      · exact ih _ _ _ _ _ _
      · exact ih _ _ _ _ _ _

end MPS.Dmrg
