import Verif.DmrgTrunc

/-! The energies of single-site DMRG with truncations. -/

set_option linter.unusedSectionVars false
set_option linter.unusedSimpArgs false

namespace MPS.Dmrg
open MPS Tensor Form Minim
variable {K : Type} [RCLike K]

theorem amp_set_line {ds : List Nat} {P : List (Tensor K)} {k a b : Nat} (hlen : P.length = ds.length) (hk : k < ds.length)
    (h1 : WF 1 (P.take k) (ds.take k) a) (h2 : WF b (P.drop (k + 1)) (ds.drop (k + 1)) 1) (ha : 0 < a) (hd : 0 < ds.getD k 0) (hb : 0 < b)
    {X Z W : Tensor K} (hX : X.dims = [a, ds.getD k 0, b]) (hZ : Z.dims = [a, ds.getD k 0, b]) (hW : W.dims = [a, ds.getD k 0, b]) {t : K}
    (h : ∀ I, IsCfg [a, ds.getD k 0, b] I → W.get I = X.get I + t * (X.get I - Z.get I)) {s : List Nat} (hs : IsCfg ds s) :
    amp (P.set k W) s = amp (P.set k X) s + t * (amp (P.set k X) s - amp (P.set k Z) s) := by
  have e : ∀ {Y : Tensor K}, Y.dims = [a, ds.getD k 0, b] → amp (P.set k Y) s =
      ∑ x ∈ Finset.range a, path (P.take k) (s.take k) 0 x * ∑ y ∈ Finset.range b, Y.get [x, s.getD k 0, y] * path (P.drop (k + 1)) (s.drop (k + 1)) y 0 := by
    intro Y hY
    have hw : WF 1 (P.set k Y) ds 1 := WF.replace hk hlen h1 h2 hY ha hd hb
    have hne : P.set k Y ≠ [] := by intro h0; have := hw.length; rw [h0] at this; simp at this; omega
    have hsl : s.length = ds.length := hs.length
    have hs' : s = s.take k ++ (s.getD k 0 :: s.drop (k + 1)) := by
      rw [List.getD_eq_getElem _ _ (by omega : k < s.length), List.cons_getElem_drop_succ, List.take_append_drop]
    rw [amp_open hw hne, set_split (by omega) Y]
    conv_lhs => rw [hs']
    rw [path_append h1 (by simp; omega) (by omega)]
    refine Finset.sum_congr rfl fun x _ => ?_
    rw [path_cons, dim2_of hY]
  have hi : s.getD k 0 < ds.getD k 0 := by
    have hsl : s.length = ds.length := hs.length
    have := List.Forall₂.get hs (by omega : k < s.length) hk
    rw [List.getD_eq_getElem _ _ (by omega : k < s.length), List.getD_eq_getElem _ _ hk]
    simpa using this
  rw [e hW, e hX, e hZ, ← Finset.sum_sub_distrib, Finset.mul_sum, ← Finset.sum_add_distrib]
  refine Finset.sum_congr rfl fun x hx => ?_
  rw [← mul_sub, ← Finset.sum_sub_distrib, mul_left_comm, ← mul_add]
  congr 1
  rw [Finset.mul_sum, ← Finset.sum_add_distrib]
  refine Finset.sum_congr rfl fun y hy => ?_
  rw [h _ (.cons (Finset.mem_range.1 hx) (.cons hi (.cons (Finset.mem_range.1 hy) .nil)))]
  ring

/-- the state after a step: its norm, and its energy compared with the number `E` -/
structure Kept (ds : List Nat) (H : Ham K) (M τ : ℝ) (P : List (Tensor K)) (E : ℝ) : Prop where
  le_one : normSq ds P ≤ 1
  norm : 1 - τ ≤ normSq ds P
  low : E * normSq ds P ≤ hamEnergy ds H P
  high : hamEnergy ds H P ≤ E * normSq ds P + 2 * M * τ
  abs : |E| ≤ M

theorem step_kept {svd : Tensor K → SvdRes K} (hg : GoodSvd svd) (eps : ℝ) {dflt : ℝ} (hd0 : 0 < dflt) {eigs : Eigs K} (he : GoodEigs eigs)
    {ds : List Nat} {H : Ham K} (hH : HamOk ds H) {M : ℝ} (hM : EnergyBound ds H M) (P0 : List (List (Tensor K))) {d : St K} {k : Nat} (hc : Cent ds H d k) {dk : Int}
    {d' : St K} {E : ℝ} (hrun : singleSite svd eps dflt eigs H P0 d k dk = some (d', E)) : Kept ds H M (max dflt eps) d'.P E := by
  obtain ⟨hk, hw, hA, hlo, hhi, hlg, hrg⟩ := hc
  have hlen := hw.length
  obtain ⟨a, b, h1, hd, h2, ha, hdp, hb⟩ := WF.around hw hk
  have hsz : (site d.P k).size = [a, ds.getD k 0, b].prod := by simp only [Tensor.size, hd]
  unfold singleSite at hrun
  simp only [dim0_of hd, dim1_of hd, dim2_of hd, hsz] at hrun
  by_cases hloc : (H.loc k).isEmpty = true
  · rw [if_pos hloc] at hrun; exact absurd hrun (by simp)
  rw [if_neg hloc] at hrun
  obtain ⟨mul, hmul, hr⟩ : ∃ mul, (mul = denseMul (opLeft H d.P d.A k dk) (opRight H d.P d.A k dk) a b ∨
      mul = arpackMul (opLeft H d.P d.A k dk) (opRight H d.P d.A k dk) a (ds.getD k 0) b) ∧
      (if a * ds.getD k 0 * b ≤ 10 then eigs (denseMul (opLeft H d.P d.A k dk) (opRight H d.P d.A k dk) a b) [a, ds.getD k 0, b].prod
        (reshape (site d.P k) [[a, ds.getD k 0, b].prod]) else eigs (arpackMul (opLeft H d.P d.A k dk) (opRight H d.P d.A k dk) a (ds.getD k 0) b)
        [a, ds.getD k 0, b].prod (reshape (site d.P k) [[a, ds.getD k 0, b].prod])) =
      eigs mul [a, ds.getD k 0, b].prod (reshape (site d.P k) [[a, ds.getD k 0, b].prod]) := by
    by_cases hs : a * ds.getD k 0 * b ≤ 10
    · exact ⟨_, Or.inl rfl, if_pos hs⟩
    · exact ⟨_, Or.inr rfl, if_neg hs⟩
  simp only [hr] at hrun
  set r := eigs mul [a, ds.getD k 0, b].prod (reshape (site d.P k) [[a, ds.getD k 0, b].prod]) with hrr
  by_cases hok : r.ok = true
  swap
  · rw [if_neg hok] at hrun; exact absurd hrun (by simp)
  rw [if_pos hok] at hrun
  simp only [Option.some.injEq, Prod.mk.injEq] at hrun
  obtain ⟨hd', hE⟩ := hrun
  obtain ⟨w1, w2, w3, w4⟩ := solve_site he hw hH hk hd hlo hhi (fun hk0 => hlg _ (by omega)) (fun hk1 => hrg _ (by omega) hk1) dk _ hmul hok
  simp only [← hrr, hE] at w1 w2 w3 w4
  set X := reshape r.P [a, ds.getD k 0, b] with hX
  set φ := d.P.set k X with hφ
  have hsX : site φ k = X := by rw [hφ, site_set _ _ _ _ (by omega), if_pos rfl]
  have hXd : X.dims = [a, ds.getD k 0, b] := rfl
  have hso : ∀ j, j ≠ k → site φ j = site d.P j := fun j hj => by rw [hφ, site_set _ _ _ _ (by omega), if_neg hj]
  have hcφ : Trotter.Cent ds φ k := ⟨w1, fun j hj => by rw [hso j (by omega)]; exact hlo j hj, fun j hj hj2 => by rw [hso j (by omega)]; exact hhi j hj hj2⟩
  obtain ⟨-, ⟨Z, z1, -, z3⟩, -⟩ := Obc.store_trunc hg eps hd0 w1 hk dk hcφ.lo hcφ.hi
  obtain ⟨-, t1, t2, t3, t4⟩ := Trotter.store hg eps hd0 hcφ hk dk
  have hcan : setCanonical svd eps dflt φ k (site φ k) dk true = setCanonical svd eps dflt d.P k X dk true := by
    exact setCanonical_set svd eps dflt d.P k (by omega) X dk true
  rw [hcan] at t1 t2 t3 t4 z3
  set c := setCanonical svd eps dflt d.P k X dk true with hc
  have hP' : d'.P = c.1 := by rw [← hd']; split_ifs <;> rfl
  rw [hsX, hXd] at z1
  rw [w2, mul_one] at t4
  rw [w2] at t2
  -- amplitudes
  have hf : ∀ s, IsCfg ds s → amp c.1 s = amp (d.P.set k Z) s := fun s hs => by rw [z3 s hs, hφ, List.set_set]
  let f := amp φ
  let w : List Nat → K := fun s => amp φ s - amp (d.P.set k Z) s
  have hen : ∀ Q : List (Tensor K), hamEnergy ds H Q = stateEnergy ds H (amp Q) := fun Q => rfl
  have hcongr : ∀ {u v : List Nat → K}, (∀ s, IsCfg ds s → u s = v s) → stateEnergy ds H u = stateEnergy ds H v := by
    intro u v huv
    unfold stateEnergy MPS.inner actOp
    congr 1
    refine sumCfg_congr fun s hs => ?_
    rw [huv s hs]
    congr 1
    exact sumCfg_congr fun t ht => by rw [huv t ht]
  have hline := min_line ds H f w (E := E) (by
      have : stateEnergy ds H f = E := by
        change RCLike.re (hamExp ds H φ φ) = E
        rw [w3, RCLike.ofReal_re]
      rw [this]
      change E = E * normSq ds φ
      rw [w2, mul_one]) (by
    intro t
    let W : Tensor K := ⟨[a, ds.getD k 0, b], fun I => X.get I + (t : K) * (X.get I - Z.get I)⟩
    have hamp : ∀ s, IsCfg ds s → amp (d.P.set k W) s = f s + (t : K) * w s := fun s hs =>
      amp_set_line hlen hk h1 h2 ha hdp hb hXd z1 (W := W) rfl (fun _ _ => rfl) hs
    have := w4 W rfl
    rw [hen, hcongr hamp] at this
    refine le_trans (le_of_eq ?_) this
    congr 1
    unfold normSq
    exact sumCfg_congr fun s hs => by rw [hamp s hs])
  have hsub : ∀ s, IsCfg ds s → f s - w s = amp c.1 s := fun s hs => by rw [hf s hs]; exact sub_sub_cancel _ _
  rw [hcongr hsub] at hline
  have hn1 : (sumCfg ds fun s => ‖f s - w s‖ ^ 2) = normSq ds c.1 := sumCfg_congr fun s hs => by rw [hsub s hs]
  have hn2 : (sumCfg ds fun s => ‖w s‖ ^ 2) = c.2 := by
    rw [← t1]; unfold distSq; exact sumCfg_congr fun s hs => by rw [hf s hs]
  rw [hn1, hn2, ← hen] at hline
  have hSE : stateEnergy ds H f = E := by
    change RCLike.re (hamExp ds H φ φ) = E
    rw [w3, RCLike.ofReal_re]
  have habs : |E| ≤ M := by
    have := hM f
    rw [hSE] at this
    change |E| ≤ M * normSq ds φ at this
    rwa [w2, mul_one] at this
  have hMw := hM w
  rw [hn2] at hMw
  have b1 := (abs_le.1 habs).1
  have b2 := (abs_le.1 hMw).2
  have hM0 : 0 ≤ M := (abs_nonneg _).trans habs
  rw [hP']
  refine ⟨by rw [t2]; linarith, by rw [t2]; linarith, ?_, ?_, habs⟩
  · have := w4 Z z1
    rw [hen, hcongr (fun s hs => (hf s hs).symm), ← hen] at this
    refine le_trans (le_of_eq ?_) this
    congr 1
    unfold normSq
    exact sumCfg_congr fun s hs => by rw [hf s hs]
  · nlinarith

/-- the largest increase of the energy in one step -/
noncomputable def slack (M τ : ℝ) : ℝ := 2 * M * τ / (1 - τ)

theorem Kept.next {ds : List Nat} {H : Ham K} {M τ : ℝ} (hτ : τ < 1) (hτ0 : 0 ≤ τ) {P : List (Tensor K)} {E : ℝ} (h : Kept ds H M τ P E) {e : ℝ}
    (he : e * normSq ds P ≤ hamEnergy ds H P) : e ≤ E + slack M τ := by
  have hM0 : 0 ≤ M := (abs_nonneg _).trans h.abs
  have hp : 0 < 1 - τ := by linarith
  have h1 : (e - E) * normSq ds P ≤ 2 * M * τ := by have := h.high; linarith
  have hs : 0 ≤ slack M τ := by unfold slack; positivity
  have h2 : slack M τ * (1 - τ) = 2 * M * τ := by unfold slack; field_simp
  by_contra hlt
  have h3 : slack M τ < e - E := by linarith
  have h4 : slack M τ * (1 - τ) < (e - E) * normSq ds P :=
    lt_of_lt_of_le (mul_lt_mul_of_pos_right h3 hp) (mul_le_mul_of_nonneg_left h.norm (hs.trans h3.le))
  linarith

theorem right_kept {svd : Tensor K → SvdRes K} (hg : GoodSvd svd) (eps : ℝ) {dflt : ℝ} (hd0 : 0 < dflt) {eigs : Eigs K} (he : GoodEigs eigs)
    {ds : List Nat} {H : Ham K} (hH : HamOk ds H) {M : ℝ} (hM : EnergyBound ds H M) (hτ : max dflt eps < 1) (P0 : List (List (Tensor K))) (fuel : Nat) {k : Nat}
    (hfuel : k + fuel + 1 = ds.length) {d : St K} (hc : Cent ds H d k) {B : ℝ} (hB : ∀ e, e * normSq ds d.P ≤ hamEnergy ds H d.P → e ≤ B) {E0 : ℝ}
    {d' : St K} {E : ℝ} (hrun : singleRight svd eps dflt eigs H P0 (fuel + 1) k d E0 = some (.done d' E)) :
    Kept ds H M (max dflt eps) d'.P E ∧ E ≤ B + fuel * slack M (max dflt eps) := by
  induction fuel generalizing k d E0 B with
  | zero =>
    rw [singleRight] at hrun
    obtain ⟨⟨d1, E1⟩, h1, h2⟩ := Option.bind_eq_some_iff.1 hrun
    simp only [singleRight, Option.some.injEq, Iter.done.injEq] at h2
    obtain ⟨rfl, rfl⟩ := h2
    obtain ⟨-, -, a3, -⟩ := single_site hg eps hd0 he hH P0 hc (dk := 1) (fun _ => by decide) h1
    exact ⟨step_kept hg eps hd0 he hH hM P0 hc h1, by simpa using hB _ a3⟩
  | succ fuel ih =>
    rw [singleRight] at hrun
    obtain ⟨⟨d1, E1⟩, h1, h2⟩ := Option.bind_eq_some_iff.1 hrun
    obtain ⟨a1, -, a3, -⟩ := single_site hg eps hd0 he hH P0 hc (dk := 1) (fun _ => by decide) h1
    have e : nextCentre ds.length 1 k = k + 1 := by unfold nextCentre; rw [if_pos (by decide), if_neg (by omega)]
    rw [e] at a1
    have hk := step_kept hg eps hd0 he hH hM P0 hc h1
    obtain ⟨b1, b2⟩ := ih (by omega) a1 (B := B + slack M (max dflt eps)) (fun e he' => (hk.next hτ (hd0.le.trans (le_max_left _ _)) he').trans (by
      have := hB _ a3; linarith)) h2
    exact ⟨b1, by push_cast; linarith⟩

theorem left_kept {svd : Tensor K → SvdRes K} (hg : GoodSvd svd) (eps : ℝ) {dflt : ℝ} (hd0 : 0 < dflt) {eigs : Eigs K} (he : GoodEigs eigs)
    {ds : List Nat} {H : Ham K} (hH : HamOk ds H) {M : ℝ} (hM : EnergyBound ds H M) (hτ : max dflt eps < 1) (P0 : List (List (Tensor K))) {k : Nat}
    {d : St K} (hc : Cent ds H d (k + 1)) {B : ℝ} (hB : ∀ e, e * normSq ds d.P ≤ hamEnergy ds H d.P → e ≤ B) {E0 : ℝ}
    {d' : St K} {E : ℝ} (hrun : singleLeft svd eps dflt eigs H P0 (k + 1) d E0 = some (.done d' E)) :
    Kept ds H M (max dflt eps) d'.P E ∧ E ≤ B + k * slack M (max dflt eps) := by
  induction k generalizing d E0 B with
  | zero =>
    rw [singleLeft] at hrun
    obtain ⟨⟨d1, E1⟩, h1, h2⟩ := Option.bind_eq_some_iff.1 hrun
    simp only [singleLeft, Option.some.injEq, Iter.done.injEq] at h2
    obtain ⟨rfl, rfl⟩ := h2
    obtain ⟨-, -, a3, -⟩ := single_site hg eps hd0 he hH P0 hc (dk := -1) (fun h => by omega) h1
    exact ⟨step_kept hg eps hd0 he hH hM P0 hc h1, by simpa using hB _ a3⟩
  | succ k ih =>
    rw [singleLeft] at hrun
    obtain ⟨⟨d1, E1⟩, h1, h2⟩ := Option.bind_eq_some_iff.1 hrun
    obtain ⟨a1, -, a3, -⟩ := single_site hg eps hd0 he hH P0 hc (dk := -1) (fun h => by omega) h1
    have e : nextCentre ds.length (-1) (k + 1 + 1) = k + 1 := by simp [nextCentre]
    rw [e] at a1
    have hk := step_kept hg eps hd0 he hH hM P0 hc h1
    obtain ⟨b1, b2⟩ := ih a1 (B := B + slack M (max dflt eps)) (fun e he' => (hk.next hτ (hd0.le.trans (le_max_left _ _)) he').trans (by
      have := hB _ a3; linarith)) h2
    exact ⟨b1, by push_cast; linarith⟩

theorem iteration_kept {svd : Tensor K → SvdRes K} (hg : GoodSvd svd) (eps : ℝ) {dflt : ℝ} (hd0 : 0 < dflt) {eigs : Eigs K} (he : GoodEigs eigs)
    (solve : Solve K) (svdTol : ℝ) {ds : List Nat} {H : Ham K} (hH : HamOk ds H) {M : ℝ} (hM : EnergyBound ds H M) (hτ : max dflt eps < 1)
    (P0 : List (List (Tensor K))) {d : St K} {dk : Int} (hc : Cent ds H d (endOf ds.length dk))
    {B : ℝ} (hB : ∀ e, e * normSq ds d.P ≤ hamEnergy ds H d.P → e ≤ B) {d' : St K} {E : ℝ}
    (hrun : iteration svd eps dflt eigs solve svdTol H P0 0 dk d = some (.done d' E)) :
    Kept ds H M (max dflt eps) d'.P E ∧ E ≤ B + (ds.length - 1 : Nat) * slack M (max dflt eps) := by
  have h2 := hH.two
  unfold iteration at hrun
  rw [if_neg (by simp), hH.size] at hrun
  by_cases hs : dk > 0
  · rw [if_pos hs] at hrun
    simp only [endOf, if_pos hs] at hc
    obtain ⟨n, hn⟩ : ∃ n, ds.length = n + 1 := ⟨ds.length - 1, by omega⟩
    rw [hn] at hrun
    have := right_kept hg eps hd0 he hH hM hτ P0 n (by omega) hc hB hrun
    rwa [show ds.length - 1 = n by omega]
  · rw [if_neg hs] at hrun
    simp only [endOf, if_neg hs] at hc
    obtain ⟨n, hn⟩ : ∃ n, ds.length - 1 = n + 1 := ⟨ds.length - 2, by omega⟩
    rw [hn] at hrun hc
    have hk := left_kept hg eps hd0 he hH hM hτ P0 hc hB hrun
    refine ⟨hk.1, hk.2.trans ?_⟩
    rw [hn]
    have hs : 0 ≤ slack M (max dflt eps) := by
      have h1 : 0 ≤ M := (abs_nonneg _).trans hk.1.abs
      have h2 : 0 ≤ max dflt eps := hd0.le.trans (le_max_left _ _)
      have h3 : 0 < 1 - max dflt eps := by linarith
      unfold slack; positivity
    push_cast; linarith

/-- the energies of all the sweeps -/
theorem run_kept {svd : Tensor K → SvdRes K} (hg : GoodSvd svd) (eps : ℝ) {dflt : ℝ} (hd0 : 0 < dflt) {eigs : Eigs K} (he : GoodEigs eigs)
    (solve : Solve K) (svdTol : ℝ) {ds : List Nat} {H : Ham K} (hH : HamOk ds H) {M : ℝ} (hM : EnergyBound ds H M) (hτ : max dflt eps < 1)
    (P0 : List (List (Tensor K))) {d d' : St K} {es : List ℝ}
    (hc : Cent ds H d 0) (h : Run (iteration svd eps dflt eigs solve svdTol H P0 0) d es d') :
    (∀ es' E, es = es' ++ [E] → Kept ds H M (max dflt eps) d'.P E) ∧
    (∀ B, (∀ e, e * normSq ds d.P ≤ hamEnergy ds H d.P → e ≤ B) → 0 < es.length → es.getD 0 0 ≤ B + (ds.length - 1 : Nat) * slack M (max dflt eps)) ∧
    ∀ j, j + 1 < es.length → es.getD (j + 1) 0 ≤ es.getD j 0 + ds.length * slack M (max dflt eps) := by
  induction h with
  | nil => exact ⟨fun es' E h => by simp at h, fun B _ h => by simp at h, fun j hj => by simp at hj⟩
  | @snoc es d1 d2 E h hrun ih =>
    obtain ⟨i1, i2, i3⟩ := ih
    obtain ⟨c1, -⟩ := single_run hg eps hd0 he solve svdTol hH P0 hc h
    have hk2 : Kept ds H M (max dflt eps) d2.P E := by
      obtain ⟨d3, k3, dk3, l1, -, l2⟩ := last_iteration hg eps hd0 he solve svdTol hH P0 c1 hrun
      exact step_kept hg eps hd0 he hH hM P0 l1 l2
    refine ⟨fun es' E' hh => ?_, fun B hB hl => ?_, fun j hj => ?_⟩
    · obtain ⟨-, hE⟩ := List.append_inj' hh rfl
      simp only [List.cons.injEq, and_true] at hE
      subst hE
      exact hk2
    · rcases Nat.eq_zero_or_pos es.length with h0 | h0
      · have h0 := List.length_eq_zero_iff.1 h0
        subst h0
        rw [h.of_nil rfl] at hrun c1
        simpa using (iteration_kept hg eps hd0 he solve svdTol hH hM hτ P0 c1 hB hrun).2
      · rw [getD_snoc_lt h0]; exact i2 B hB h0
    · simp only [List.length_append, List.length_singleton] at hj
      by_cases hj2 : j + 1 < es.length
      · rw [getD_snoc_lt hj2, getD_snoc_lt (by omega)]; exact i3 j hj2
      · have hne : es ≠ [] := by rintro rfl; simp at hj
        have hpos := List.length_pos_iff.2 hne
        have hlast := (List.dropLast_append_getLast hne).symm
        have hk1 := i1 _ _ hlast
        obtain ⟨-, b2⟩ := iteration_kept hg eps hd0 he solve svdTol hH hM hτ P0 c1
          (fun e he' => hk1.next hτ (hd0.le.trans (le_max_left _ _)) he') hrun
        have e1 : (es ++ [E]).getD (j + 1) 0 = E := by
          have : j + 1 = es.length := by omega
          rw [this]; simp
        have e2 : (es ++ [E]).getD j 0 = es.getLast hne := by
          rw [getD_snoc_lt (by omega), List.getD_eq_getElem _ _ (by omega : j < es.length), List.getLast_eq_getElem]
          congr 1; omega
        rw [e1, e2]
        have h2 := hH.two
        have : ((ds.length - 1 : Nat) : ℝ) = ds.length - 1 := by rw [Nat.cast_sub (by omega)]; simp
        rw [this] at b2
        linarith

end MPS.Dmrg
