import Verif.Props.DmrgProps
import Verif.MPOBuild3
import Verif.Props.MinimizerProps2

/-!
# C56, C98, C99: two-site DMRG, `RDMRG`, and `orthogonal_to`
-/

set_option linter.unusedSectionVars false
set_option linter.unusedSimpArgs false

namespace MPS.Props
open MPS Tensor Form Minim Dmrg
variable {K : Type} [RCLike K]

/-! ## C56 -/

/-- **C56 is false** (1): with `Dmax > 0` and at least one sweep, `minimize` aborts for every Hamiltonian and every state as soon as the
eigenvalue solver succeeds, because what it returns is a vector (or a matrix of vectors), and it is handed to a function that wants a tensor with four indices. -/
theorem C56_aborts_violated (svd : Tensor K → SvdRes K) (eps dflt : ℝ) (eigs : Eigs K) {solve : Solve K} (hok : ∀ d k, (solve d k).2.2 = true)
    (hrank : ∀ d k, (solve d k).1.rank ≤ 2) {o : Dmrg.Opts} (hs : 0 < o.sweeps) (H : Ham K) (P0 : List (List (Tensor K))) (P : List (Tensor K))
    {Dmax : Nat} (hD : 0 < Dmax) (E0 : ℝ) : Dmrg.minimize svd eps dflt eigs solve o H P0 P Dmax E0 = none := by
  unfold Dmrg.minimize
  split_ifs with h1 h2
  · rfl
  · rfl
  · obtain ⟨n, hn⟩ : ∃ n, o.sweeps = n + 1 := ⟨o.sweeps - 1, by omega⟩
    obtain ⟨m, hm⟩ : ∃ m, H.size - 1 = m + 1 := ⟨H.size - 2, by omega⟩
    have hi : ∀ d, iteration svd eps dflt eigs solve o.svdTolerance H P0 Dmax 1 d = none := by
      intro d
      unfold iteration
      rw [if_pos (by omega), if_pos (by norm_num), hm]
      have ht : twoSites svd eps dflt solve o.svdTolerance H P0 d 0 1 Dmax = none := by
        unfold twoSites
        simp only [hok, if_true]
        rw [if_pos (by have := hrank d 0; omega)]
      simp only [Dmrg.twoRight, ht, Option.bind_none]
    rw [hn]
    unfold loop
    rw [hi]
    rfl

/-- **C56 is false** (2): even if the eigenvector came as a tensor with four indices: with a tolerance in `[0,1)`, such as the default `1e-8`, the step for the pair
`(k,k+1)` aborts if `k = 0`; otherwise it leaves the tensor of the site `k+1` as it was and writes to the site `k-1`; and it does not depend on
the value of `svd_tolerance`. -/
theorem C56_pair_violated (svd : Tensor K → SvdRes K) (eps dflt : ℝ) {solve : Solve K} (hok : ∀ d k, (solve d k).2.2 = true)
    (hrank : ∀ d k, (solve d k).1.rank = 4) (H : Ham K) (P0 : List (List (Tensor K))) (d : St K) (dk : Int) (Dmax : Nat) {tol : ℝ} (h0 : 0 ≤ tol) (h1 : tol < 1) :
    twoSites svd eps dflt solve tol H P0 d 0 dk Dmax = none ∧
    (∀ k, 1 ≤ k → k < d.P.length → ∃ d' E, twoSites svd eps dflt solve tol H P0 d k dk Dmax = some (some (d', E)) ∧
      (∀ j, k < j → site d'.P j = site d.P j) ∧
      (k = 1 → (site d'.P 0).dims = [(solve d k).1.dims.getD 0 0, (solve d k).1.dims.getD 1 0, (site d'.P 1).dim 0])) ∧
    (∀ k tol', 0 ≤ tol' → tol' < 1 → twoSites svd eps dflt solve tol' H P0 d k dk Dmax = twoSites svd eps dflt solve tol H P0 d k dk Dmax) := by
  have hf : ∀ x : ℝ, 0 ≤ x → x < 1 → (if 0 ≤ x then ⌊x⌋ else ⌈x⌉) = (0 : Int) := by
    intro x hx hx'
    rw [if_pos hx, Int.floor_eq_zero_iff]
    exact ⟨hx, hx'⟩
  refine ⟨?_, fun k hk hkl => ?_, fun k tol' a b => ?_⟩
  · unfold twoSites
    simp only [hok, if_true, hrank, hf tol h0 h1]
    simp [setCanonical2]
  · have hs : ∃ c, setCanonical2 svd eps dflt d.P (solve d k).1 k 0 Dmax 0 true = some c ∧ (∀ j, k < j → site c.1 j = site d.P j) ∧
        (k = 1 → (site c.1 0).dims = [(solve d k).1.dims.getD 0 0, (solve d k).1.dims.getD 1 0, (site c.1 1).dim 0]) := by
      unfold setCanonical2
      dsimp only
      rw [if_neg (by omega), if_pos (by omega)]
      simp only [if_true]
      refine ⟨_, rfl, fun j hj => ?_, fun hk1 => ?_⟩
      · unfold setCanonical
        rw [if_neg (by omega)]
        simp only [Int.toNat_natCast]
        split_ifs <;> dsimp only <;> repeat rw [site_set_ne _ (by omega)]
      · subst hk1
        unfold setCanonical
        rw [if_neg (by omega), if_pos (by simp)]
        simp only [Int.toNat_natCast, Nat.sub_self]
        simp [site, List.getElem?_set, show 0 < d.P.length by omega, hkl, reshape, scale, dim]
    obtain ⟨c, e1, e2, e3⟩ := hs
    unfold twoSites
    simp only [hok, if_true, hrank, hf tol h0 h1, e1, ne_eq, not_true_eq_false, if_false, Option.map_some]
    refine ⟨_, _, rfl, ?_, ?_⟩
    · intro j hj
      split_ifs <;> exact e2 j hj
    · intro hk1
      split_ifs <;> exact e3 hk1
  · unfold twoSites
    rw [hf tol h0 h1, hf tol' a b]

/-! ## C98 -/

/-- a product of two spins `σy⊗σy` with no other term -/
noncomputable def yyHam : Ham ℂ :=
  let y : Tensor ℂ := ⟨[2, 2], fun I => if I.getD 0 0 = I.getD 1 0 then 0 else if I.getD 0 0 = 0 then -Complex.I else Complex.I⟩
  ⟨2, fun _ => 2, fun _ => zeros [2, 2], fun _ => Tensor.empty, fun _ => 1, fun _ _ => y, fun _ _ => y, false⟩

theorem yyHam_ok : HamOk [2, 2] yyHam := by
  refine ⟨rfl, by simp, rfl, by simp, ?_, ?_, ?_, ?_, ?_⟩
  · intro k hk; rcases k with _ | _ | k
    · rfl
    · rfl
    · simp at hk
  · intro k n hk _; rcases k with _ | k
    · rfl
    · simp at hk
  · intro k n hk _; rcases k with _ | k
    · rfl
    · simp at hk
  · intro k _ i j _ _
    simp [yyHam, zeros]
  · intro k hk i j p q hi hj hp hq
    simp only [yyHam, List.getD_cons_zero, List.getD_cons_succ, Finset.sum_range_one]
    rcases k with _ | k
    · simp at hi hj hp hq
      interval_cases i <;> interval_cases j <;> interval_cases p <;> interval_cases q <;> simp
    · simp at hk

theorem yyRe_ok : HamOk [2, 2] (reHam yyHam) := by
  refine ⟨rfl, by simp, rfl, by simp, yyHam_ok.loc, yyHam_ok.left, yyHam_ok.right, ?_, ?_⟩
  · intro k _ i j _ _
    simp [yyHam, reHam, zeros]
  · intro k hk i j p q hi hj hp hq
    simp only [yyHam, reHam, List.getD_cons_zero, List.getD_cons_succ, Finset.sum_range_one]
    have hy : ∀ i j : Nat, (if i = j then (0 : ℂ) else if i = 0 then -Complex.I else Complex.I).re = 0 := by
      intro i j; split_ifs <;> simp
    simp [hy]

theorem yyRe_elt {s t : List Nat} (hs : IsCfg [2, 2] s) (ht : IsCfg [2, 2] t) : hamElt [2, 2] (reHam yyHam) s t = 0 := by
  have hy : ∀ i j : Nat, (if i = j then (0 : ℂ) else if i = 0 then -Complex.I else Complex.I).re = 0 := by
    intro i j; split_ifs <;> simp
  obtain ⟨i, k, -, -, rfl⟩ := cfg22 hs
  obtain ⟨j, l, -, -, rfl⟩ := cfg22 ht
  simp [hamElt, tensorOp, Finset.prod_range_succ, Finset.sum_range_succ, onSite, onTwo, reHam, yyHam, zeros, hy]

theorem yy_elt {s t : List Nat} (hs : IsCfg [2, 2] s) (ht : IsCfg [2, 2] t) : (hamElt [2, 2] yyHam s t).im = 0 := by
  obtain ⟨i, k, hi, hk, rfl⟩ := cfg22 hs
  obtain ⟨j, l, hj, hl, rfl⟩ := cfg22 ht
  interval_cases i <;> interval_cases k <;> interval_cases j <;> interval_cases l <;>
    simp [hamElt, tensorOp, Finset.prod_range_succ, Finset.sum_range_succ, onSite, onTwo, yyHam, zeros]

/-- a real tensor as a complex one -/
noncomputable def toC (A : Tensor ℝ) : Tensor ℂ := ⟨A.dims, fun I => ((A.get I : ℝ) : ℂ)⟩

theorem path_toC (P : List (Tensor ℝ)) : ∀ (s : List Nat) (a b : Nat), path (P.map toC) s a b = ((path P s a b : ℝ) : ℂ) := by
  induction P with
  | nil => intro s a b; cases s <;> simp [path]; split_ifs <;> simp
  | cons A P ih =>
    intro s a b
    cases s with
    | nil => simp [path]
    | cons i s => simp [path, ih, toC, dim]

theorem amp_toC (P : List (Tensor ℝ)) (s : List Nat) : amp (P.map toC) s = ((amp P s : ℝ) : ℂ) := by
  cases P with
  | nil => simp [amp, path_toC, dim]
  | cons A P =>
    have := path_toC (A :: P) s
    simp only [List.map_cons] at this
    have hd : (toC A).dim 0 = A.dim 0 := rfl
    simp [amp, this, hd]

/-- **C98 is false**: the Hamiltonian `σy⊗σy` has real matrix elements and is Hermitian.  For a state with energy `-1` (after normalisation), `RDMRG` returns the energy `0` -/
theorem C98_violated : HamOk [2, 2] yyHam ∧ (∀ s t, IsCfg [2, 2] s → IsCfg [2, 2] t → (hamElt [2, 2] yyHam s t).im = 0) ∧
    WF 1 bellState [2, 2] 1 ∧ hamEnergy [2, 2] yyHam (bellState.map toC) = -1 * normSq [2, 2] bellState ∧ 0 < normSq [2, 2] bellState ∧
    ∀ {svd : Tensor ℝ → SvdRes ℝ} (_ : GoodSvd svd) (eps : ℝ) {dflt : ℝ} (_ : 0 < dflt) {eigs : Eigs ℝ} (_ : GoodEigs eigs) (solve : Solve ℝ)
      (P0 : List (List (Tensor ℝ))) {P : List (Tensor ℝ)} (_ : WF 1 P [2, 2] 1) (o : Dmrg.Opts) (_ : 0 < o.sweeps) (E0 : ℝ) {out : Dmrg.Out ℝ},
      Dmrg.minimize svd eps dflt eigs solve o (reHam yyHam) P0 P 0 E0 = some out → out.E = 0 := by
  refine ⟨yyHam_ok, fun s t => yy_elt, bellState_wf, ?_, ?_, ?_⟩
  · obtain ⟨a, b, c, d⟩ := bellState_amp
    simp [hamEnergy, hamExp, MPS.inner, actOp, sumCfg_cons, bell_norm, amp_toC, a, b, c, d, Finset.sum_range_succ,
      hamElt, tensorOp, Finset.prod_range_succ, onSite, onTwo, yyHam, zeros]
  · obtain ⟨a, b, c, d⟩ := bellState_amp
    simp [bell_norm, a, b, c, d]
  · intro svd hg eps dflt hd eigs he solve P0 P hw o hs E0 out h
    obtain ⟨-, ⟨χ, k, w, -, -, e, -⟩, -⟩ := C97_single_site hg eps hd he solve yyRe_ok P0 hw o hs E0 h
    rw [energy_ham yyRe_ok w] at e
    have : hamExp [2, 2] (reHam yyHam) χ χ = 0 := by
      unfold hamExp MPS.inner actOp
      rw [← sumCfg_zero [2, 2]]
      refine sumCfg_congr fun s hs => ?_
      rw [sumCfg_congr (fun t ht => by rw [yyRe_elt hs ht, zero_mul]), sumCfg_zero, mul_zero]
    rw [this] at e
    simpa using (Option.some.inj e).symm

theorem WF.toC {a b : Nat} {P : List (Tensor ℝ)} {ds : List Nat} (h : WF a P ds b) : WF a (P.map toC) ds b := by
  induction h with
  | nil => exact .nil _
  | cons h1 h2 h3 h4 _ ih => exact .cons h1 h2 h3 h4 ih

theorem cfg_lt {ds s : List Nat} (hs : IsCfg ds s) {k : Nat} (hk : k < ds.length) : s.getD k 0 < ds.getD k 0 := by
  have h1 : k < s.length := by rw [List.Forall₂.length_eq hs]; exact hk
  have := List.Forall₂.get hs (i := k) h1 hk
  simpa [List.getElem?_eq_getElem hk, List.getElem?_eq_getElem h1] using this

theorem hamElt_real {ds : List Nat} {H : Ham ℂ} (hH : HamOk ds H) (hre : RealTerms ds.length H) {s t : List Nat} (hs : IsCfg ds s) (ht : IsCfg ds t) :
    hamElt ds H s t = ((hamElt ds (reHam H) s t : ℝ) : ℂ) := by
  have hc : ∀ {f : Nat → Tensor ℂ} {g : Nat → Tensor ℝ}, (∀ k, k < ds.length → ∀ x y, x < ds.getD k 0 → y < ds.getD k 0 →
      (f k).get [x, y] = (((g k).get [x, y] : ℝ) : ℂ)) → tensorOp ds.length f s t = ((tensorOp ds.length g s t : ℝ) : ℂ) := by
    intro f g h
    unfold tensorOp
    rw [Complex.ofReal_prod]
    refine Finset.prod_congr rfl fun k hk => ?_
    have hk := Finset.mem_range.1 hk
    exact h k hk _ _ (cfg_lt hs hk) (cfg_lt ht hk)
  have hz : ∀ {z : ℂ}, z.im = 0 → z = ((z.re : ℝ) : ℂ) := fun h => Complex.ext (by simp) (by simp [h])
  have he : ∀ (d x y : Nat), (eye d : Tensor ℂ).get [x, y] = (((eye d : Tensor ℝ).get [x, y] : ℝ) : ℂ) := by
    intro d x y; simp only [eye]; split_ifs <;> simp
  unfold hamElt
  rw [Complex.ofReal_add, Complex.ofReal_sum, Complex.ofReal_sum]
  congr 1
  · refine Finset.sum_congr rfl fun k hk => hc fun j hj x y hx hy => ?_
    unfold onSite
    split_ifs with h
    · subst h
      exact hz (hre.loc j hj _ (by rw [hH.loc j hj]; exact .cons hx (.cons hy .nil)))
    · exact he _ _ _
  · refine Finset.sum_congr rfl fun k hk => ?_
    have hk : k + 1 < ds.length := by have := Finset.mem_range.1 hk; omega
    rw [Complex.ofReal_sum]
    refine Finset.sum_congr rfl fun n hn => hc fun j hj x y hx hy => ?_
    have hn := Finset.mem_range.1 hn
    unfold onTwo
    split_ifs with h1 h2 h3
    · subst h1
      exact hz (hre.left j n hj hn _ (by rw [hH.left j n hk hn]; exact .cons hx (.cons hy .nil)))
    · subst h2
      exact hz (hre.right k n (by omega) hn _ (by rw [hH.right k n hk hn]; exact .cons hx (.cons hy .nil)))
    · exact he _ _ _
    · exact he _ _ _

theorem hamExp_real {ds : List Nat} {H : Ham ℂ} (hH : HamOk ds H) (hre : RealTerms ds.length H) (P Q : List (Tensor ℝ)) :
    hamExp ds H (P.map toC) (Q.map toC) = ((hamExp ds (reHam H) P Q : ℝ) : ℂ) := by
  have hsum : ∀ (l : List Nat) (F : List Nat → ℝ), ((sumCfg l F : ℝ) : ℂ) = sumCfg l (fun s => ((F s : ℝ) : ℂ)) := by
    intro l
    induction l with
    | nil => intro F; rfl
    | cons d l ih => intro F; rw [sumCfg_cons, sumCfg_cons, Complex.ofReal_sum]; exact Finset.sum_congr rfl fun i _ => ih _
  unfold hamExp MPS.inner actOp
  rw [hsum]
  refine sumCfg_congr fun s hs => ?_
  rw [Complex.ofReal_mul, hsum]
  congr 1
  · simp [amp_toC]
  · refine sumCfg_congr fun t ht => ?_
    rw [hamElt_real hH hre hs ht, amp_toC, Complex.ofReal_mul]

theorem normSq_toC (ds : List Nat) (P : List (Tensor ℝ)) : normSq ds (P.map toC) = normSq ds P := by
  unfold normSq
  refine sumCfg_congr fun s _ => ?_
  rw [amp_toC]
  simp

theorem reHam_ok {ds : List Nat} {H : Ham ℂ} (hH : HamOk ds H) (hre : RealTerms ds.length H) : HamOk ds (reHam H) := by
  refine ⟨hH.size, hH.two, hH.opened, hH.pos, hH.loc, hH.left, hH.right, fun k hk i j hi hj => ?_, fun k hk i j p q hi hj hp hq => ?_⟩
  · have := congrArg Complex.re (hH.locHerm k hk i j hi hj)
    simpa [reHam] using this
  · have := congrArg Complex.re (hH.bondHerm k hk i j p q hi hj hp hq)
    simp only [Complex.star_def, Complex.conj_re, Complex.re_sum, Complex.mul_re] at this
    rw [star_trivial]
    convert this using 1
    · refine Finset.sum_congr rfl fun n hn => ?_
      have hn := Finset.mem_range.1 hn
      rw [hre.left k n (by omega) hn _ (by rw [hH.left k n hk hn]; exact .cons hi (.cons hj .nil)), zero_mul, sub_zero]
      rfl
    · refine Finset.sum_congr rfl fun n hn => ?_
      have hn := Finset.mem_range.1 hn
      rw [hre.left k n (by omega) hn _ (by rw [hH.left k n hk hn]; exact .cons hj (.cons hi .nil)), zero_mul, sub_zero]
      rfl

/-- **C98, what holds**: if all local terms *and all factors of the interactions* are real, `RDMRG` returns the energy of a real state for the complex Hamiltonian; if
nothing is dropped in the last step it is the energy of the state returned, and if nothing is dropped at all it is not above the initial one.  (Missing:
Hamiltonians with real matrix elements whose factors are not real.) -/
theorem C98_real_partial {svd : Tensor ℝ → SvdRes ℝ} (hg : GoodSvd svd) (eps : ℝ) {dflt : ℝ} (hd0 : 0 < dflt) {eigs : Eigs ℝ} (he : GoodEigs eigs)
    (solve : Solve ℝ) {ds : List Nat} {H : Ham ℂ} (hH : HamOk ds H) (hre : RealTerms ds.length H) (P0 : List (List (Tensor ℝ))) {P : List (Tensor ℝ)}
    (hw : WF 1 P ds 1) (o : Dmrg.Opts) (hs : 0 < o.sweeps) (E0 : ℝ) {out : Dmrg.Out ℝ}
    (h : Dmrg.minimize svd eps dflt eigs solve o (reHam H) P0 P 0 E0 = some out) :
    (∃ χ, WF 1 χ ds 1 ∧ normSq ds χ = 1 ∧ energy (χ.map toC) H = some (out.E : ℂ) ∧ distSq ds χ out.P = out.last.lost) ∧
    (out.last.lost = 0 → energy (out.P.map toC) H = some (out.E : ℂ)) ∧
    (out.last.total = 0 → out.E * normSq ds P ≤ hamEnergy ds H (P.map toC)) := by
  have hR := reHam_ok hH hre
  obtain ⟨c1, ⟨χ, k, x1, -, x3, x4, x5, -⟩, -, c4, c5, -⟩ := C97_single_site hg eps hd0 he solve hR P0 hw o hs E0 h
  have hE : ∀ {φ : List (Tensor ℝ)}, WF 1 φ ds 1 → energy φ (reHam H) = some out.E → energy (φ.map toC) H = some (out.E : ℂ) := by
    intro φ hφ hh
    rw [energy_ham hR hφ] at hh
    rw [energy_ham hH (WF.toC hφ), hamExp_real hH hre, Option.some.inj hh]
  refine ⟨⟨χ, x1, x3, hE x1 x4, x5⟩, fun h0 => hE c1 (c4 h0).2, fun h0 => ?_⟩
  have := (c5 h0).2.2
  unfold hamEnergy at this ⊢
  rw [hamExp_real hH hre]
  simpa using this

/-! ## C99 -/

/-- forget the matrices for the states given to `orthogonal_to` -/
def erase (d : St K) : St K := { d with proj := [] }

theorem erase_updateRight (H : Ham K) (P0 : List (List (Tensor K))) (d : St K) (k : Nat) :
    erase (updateRight H P0 d k) = updateRight H [] (erase d) k := rfl

theorem erase_updateLeft (H : Ham K) (P0 : List (List (Tensor K))) (d : St K) (k : Nat) :
    erase (updateLeft H P0 d k) = updateLeft H [] (erase d) k := rfl

theorem erase_init (H : Ham K) (P0 : List (List (Tensor K))) : ∀ (n : Nat) (d : St K), erase (initMatrices H P0 n d) = initMatrices H [] n (erase d)
  | 0, _ => rfl
  | n + 1, d => erase_init H P0 n _

theorem erase_singleSite (svd : Tensor K → SvdRes K) (eps dflt : ℝ) (eigs : Eigs K) (H : Ham K) (P0 : List (List (Tensor K))) (d : St K) (k : Nat) (dk : Int) :
    (singleSite svd eps dflt eigs H P0 d k dk).map (fun r => (erase r.1, r.2)) = singleSite svd eps dflt eigs H [] (erase d) k dk := by
  unfold singleSite
  dsimp only [erase]
  split_ifs <;> rfl

/-- forget the matrices in a result -/
def Iter.erase : Iter (St K) → Iter (St K)
  | .skip d => .skip (Props.erase d)
  | .failed d => .failed (Props.erase d)
  | .done d E => .done (Props.erase d) E

theorem erase_singleRight (svd : Tensor K → SvdRes K) (eps dflt : ℝ) (eigs : Eigs K) (H : Ham K) (P0 : List (List (Tensor K))) :
    ∀ (n k : Nat) (d : St K) (E : ℝ), (Dmrg.singleRight svd eps dflt eigs H P0 n k d E).map Iter.erase = Dmrg.singleRight svd eps dflt eigs H [] n k (erase d) E
  | 0, _, _, _ => rfl
  | n + 1, k, d, E => by
    unfold Dmrg.singleRight
    rw [← erase_singleSite svd eps dflt eigs H P0]
    cases singleSite svd eps dflt eigs H P0 d k 1 with
    | none => rfl
    | some r => exact erase_singleRight svd eps dflt eigs H P0 n (k + 1) r.1 r.2

theorem erase_singleLeft (svd : Tensor K → SvdRes K) (eps dflt : ℝ) (eigs : Eigs K) (H : Ham K) (P0 : List (List (Tensor K))) :
    ∀ (k : Nat) (d : St K) (E : ℝ), (Dmrg.singleLeft svd eps dflt eigs H P0 k d E).map Iter.erase = Dmrg.singleLeft svd eps dflt eigs H [] k (erase d) E
  | 0, _, _ => rfl
  | k + 1, d, E => by
    unfold Dmrg.singleLeft
    rw [← erase_singleSite svd eps dflt eigs H P0]
    cases singleSite svd eps dflt eigs H P0 d (k + 1) (-1) with
    | none => rfl
    | some r => exact erase_singleLeft svd eps dflt eigs H P0 k r.1 r.2

theorem erase_iteration (svd : Tensor K → SvdRes K) (eps dflt : ℝ) (eigs : Eigs K) (solve : Solve K) (tol : ℝ) (H : Ham K) (P0 : List (List (Tensor K)))
    (dk : Int) (d : St K) : (iteration svd eps dflt eigs solve tol H P0 0 dk d).map Iter.erase = iteration svd eps dflt eigs solve tol H [] 0 dk (erase d) := by
  unfold iteration
  simp only [ne_eq, not_true_eq_false, if_false]
  split_ifs
  · exact erase_singleRight ..
  · exact erase_singleLeft ..

theorem erase_loop {f g : Int → St K → Option (Iter (St K))} (h : ∀ dk d, (f dk d).map Iter.erase = g dk (erase d)) (fail : List (Tensor K) → List (Tensor K))
    (o : Dmrg.Opts) : ∀ (n i : Nat) (dk fails : Int) (E : ℝ) (d : St K) (es : List ℝ),
    (Dmrg.loop f fail o n i dk fails E d es).map (fun r => (⟨r.E, r.P, r.energies, erase r.last⟩ : Dmrg.Out K)) = Dmrg.loop g fail o n i dk fails E (erase d) es
  | 0, _, _, _, _, _, _ => rfl
  | n + 1, i, dk, fails, E, d, es => by
    unfold Dmrg.loop
    rw [← h dk d]
    cases f dk d with
    | none => rfl
    | some r =>
      cases r with
      | skip d => exact erase_loop h fail o n _ _ _ _ d _
      | failed d => rfl
      | done d' newE =>
        simp only [Option.bind_some, Option.map_some, Iter.erase]
        split_ifs
        · rfl
        · rfl
        · exact erase_loop h fail o n _ _ _ _ d' _
        · exact erase_loop h fail o n _ _ _ _ d' _

/-- the states given to `orthogonal_to` have no influence on single-site DMRG: the same numbers and the same state are returned without them -/
theorem C99_ignored (svd : Tensor K → SvdRes K) (eps dflt : ℝ) (eigs : Eigs K) (solve : Solve K) (o : Dmrg.Opts) (H : Ham K)
    (P0 : List (List (Tensor K))) (P : List (Tensor K)) (E0 : ℝ) :
    (Dmrg.minimize svd eps dflt eigs solve o H P0 P 0 E0).map (fun r => (r.E, r.P, r.energies)) =
      (Dmrg.minimize svd eps dflt eigs solve o H [] P 0 E0).map (fun r => (r.E, r.P, r.energies)) := by
  unfold Dmrg.minimize
  split_ifs
  · rfl
  · rfl
  · have hst : erase (start svd eps dflt H P0 P) = start svd eps dflt H [] P := by
      unfold start
      exact erase_init H P0 _ _
    rw [← hst, ← erase_loop (erase_iteration svd eps dflt eigs solve o.svdTolerance H P0), Option.map_map]
    rfl

/-- **C99 is false**: if single-site DMRG has found a state (without loss in the last step), a second call with the same arguments, after
`orthogonal_to` with that state, returns that state again: the overlap is one, not zero.  With `Dmax > 0` it aborts (C56). -/
theorem C99_violated {svd : Tensor K → SvdRes K} (hg : GoodSvd svd) (eps : ℝ) {dflt : ℝ} (hd0 : 0 < dflt) {eigs : Eigs K} (he : GoodEigs eigs)
    (solve : Solve K) {ds : List Nat} {H : Ham K} (hH : HamOk ds H) {P : List (Tensor K)} (hw : WF 1 P ds 1) (o : Dmrg.Opts) (hs : 0 < o.sweeps) (E0 : ℝ)
    {out : Dmrg.Out K} (h : Dmrg.minimize svd eps dflt eigs solve o H [] P 0 E0 = some out) (h0 : out.last.lost = 0) :
    ∃ out', Dmrg.minimize svd eps dflt eigs solve o H [out.P] P 0 E0 = some out' ∧ MPS.inner ds (amp out.P) (amp out'.P) = 1 := by
  have hi := C99_ignored svd eps dflt eigs solve o H [out.P] P E0
  rw [h] at hi
  cases h' : Dmrg.minimize svd eps dflt eigs solve o H [out.P] P 0 E0 with
  | none => rw [h'] at hi; simp at hi
  | some out' =>
    rw [h'] at hi
    simp only [Option.map_some, Option.some.injEq, Prod.mk.injEq] at hi
    refine ⟨out', rfl, ?_⟩
    rw [hi.2.1]
    obtain ⟨-, -, -, c, -⟩ := C97_single_site hg eps hd0 he solve hH [] hw o hs E0 h
    have := (c h0).1
    unfold normSq at this
    rw [inner_self_ofReal, this]
    simp

/-- C99 is not vacuous: one sweep for a two-site Ising chain, and a second run which should look for an excited state -/
example : ∃ (svd : Tensor ℂ → SvdRes ℂ) (eigs : Eigs ℂ), GoodSvd svd ∧ GoodEigs eigs ∧ ∀ (solve : Solve ℂ) (eps dflt E0 : ℝ), 0 < dflt →
    ∃ out out', Dmrg.minimize svd eps dflt eigs solve ⟨1, 1e-6, 1e-8, 0⟩ twoIsing [] twoZero 0 E0 = some out ∧
      Dmrg.minimize svd eps dflt eigs solve ⟨1, 1e-6, 1e-8, 0⟩ twoIsing [out.P] twoZero 0 E0 = some out' ∧ MPS.inner [2, 2] (amp out.P) (amp out'.P) = 1 := by
  obtain ⟨svd, hg⟩ := exists_goodSvd (K := ℂ)
  obtain ⟨eigs, he, hok⟩ := exists_goodEigs (K := ℂ)
  refine ⟨svd, eigs, hg, he, fun solve eps dflt E0 hd => ?_⟩
  obtain ⟨out, h⟩ := C97_returns svd eps dflt hok solve twoIsing_ok [] twoZero ⟨1, 1e-6, 1e-8, 0⟩ E0
  obtain ⟨-, -, c1, c2, -, c3, c4, -⟩ := C97_single_site hg eps hd he solve twoIsing_ok [] twoZero_wf ⟨1, 1e-6, 1e-8, 0⟩ (by simp) E0 h
  have : out.energies.length = 1 := by
    have h0 : out.energies ≠ [] := by rintro h0; rw [h0] at c3; simp at c3
    have := List.length_pos_iff.2 h0
    simp at c4; omega
  obtain ⟨out', h1, h2⟩ := C99_violated hg eps hd he solve twoIsing_ok twoZero_wf ⟨1, 1e-6, 1e-8, 0⟩ (by simp) E0 h (c1 (by rw [this]))
  exact ⟨out, out', h, h1, h2⟩

/-- C98 (what holds) is not vacuous: the terms of the two-site Ising chain are real -/
example : HamOk [2, 2] (twoIsing : Ham ℂ) ∧ RealTerms 2 (twoIsing : Ham ℂ) := by
  refine ⟨twoIsing_ok, fun k _ I _ => ?_, fun k n _ _ I _ => ?_, fun k n _ _ I _ => ?_⟩ <;> simp only [twoIsing] <;> split_ifs <;> simp

/-- C56 is not vacuous: a Hamiltonian, a state, and a solver that returns a vector -/
example (svd : Tensor ℂ → SvdRes ℂ) (eps dflt : ℝ) (eigs : Eigs ℂ) (E0 : ℝ) :
    Dmrg.minimize svd eps dflt eigs (fun _ _ => (⟨[4], fun _ => 1⟩, 0, true)) ⟨1, 1e-6, 1e-8, 0⟩ twoIsing [] twoZero 2 E0 = none :=
  C56_aborts_violated svd eps dflt eigs (fun _ _ => rfl) (fun _ _ => by simp [rank]) (by simp) _ _ _ (by simp) E0

end MPS.Props
