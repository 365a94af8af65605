import Verif.MinimizerSpec
import Verif.Props.FormProps2
import Verif.Props.CanonProps2
import Verif.MPOCanonLemmas2
import Verif.TrotterLemmas4

set_option linter.unusedSectionVars false
set_option linter.unusedSimpArgs false

namespace MPS.Minim
open MPS Tensor Form
variable {K : Type} [RCLike K]

theorem expect_star {ds : List Nat} {O Q P : List (Tensor K)} (h : Hermitian ds O) : star (expect ds Q O P) = expect ds P O Q := by
  unfold expect MPS.inner actOp
  rw [sumCfg_star]
  simp only [star_mul', star_star, sumCfg_star, ← sumCfg_mul_left]
  rw [sumCfg_comm]
  refine sumCfg_congr fun s hs => sumCfg_congr fun t ht => ?_
  rw [h t s ht hs]; ring

/-- a basis tensor -/
def basis (d : List Nat) (I : List Nat) : Tensor K := ⟨d, fun J => if J = I then 1 else 0⟩

theorem sumCfg_if {M : Type} [AddCommMonoid M] (ds : List Nat) (φ : List Nat → M) {s : List Nat} (hs : IsCfg ds s) :
    sumCfg ds (fun t => if t = s then φ t else 0) = φ s := by
  induction hs generalizing φ with
  | nil => simp
  | @cons i d s ds hi hs ih =>
    rw [sumCfg_cons, Finset.sum_eq_single_of_mem i (Finset.mem_range.2 hi)]
    · rw [← ih (fun t => φ (i :: t))]
      refine sumCfg_congr fun t _ => by simp
    · intro j _ hj
      rw [← sumCfg_zero (R := M) ds]
      refine sumCfg_congr fun t _ => by simp [hj]

theorem matForm_basis {M : Tensor K} (hM : M.isEmpty = false) {d : List Nat} {I J : List Nat} (hI : IsCfg d I) (hJ : IsCfg d J) :
    matForm M d d (basis d I).get (basis d J).get = M.get [flat d I, flat d J] := by
  unfold matForm basis
  rw [hM, if_neg (by simp)]
  simp only
  rw [← sumCfg_if d (fun I => M.get [flat d I, flat d J]) hI]
  refine sumCfg_congr fun I' _ => ?_
  by_cases h : I' = I
  · simp only [h, if_true, star_one, one_mul]
    rw [← sumCfg_if d (fun J => M.get [flat d I, flat d J]) hJ]
    refine sumCfg_congr fun J' _ => by by_cases h : J' = J <;> simp [h]
  · simp only [h, if_false, star_zero, zero_mul]
    exact sumCfg_zero (R := K) d

theorem sumCfg_flat {M : Type} [AddCommMonoid M] {d : List Nat} (hd : ∀ x ∈ d, 0 < x) (F : Nat → M) :
    sumCfg d (fun I => F (flat d I)) = ∑ n ∈ Finset.range d.prod, F n := by
  rw [sumCfg_range _ _ hd]
  refine Finset.sum_congr rfl fun n hn => ?_
  obtain ⟨I, hI, rfl⟩ := flat_surj (Finset.mem_range.1 hn)
  rw [unflat_flat hI]

/-- the eigenvalue problem for a Hermitian matrix whose rows and columns are groups of indices -/
theorem eig_core {eigs : Eigs K} (he : GoodEigs eigs) {d : List Nat} (hd : ∀ x ∈ d, 0 < x) {M : Tensor K} {A : Tensor K → Tensor K}
    (hM : M.isEmpty = false)
    (hherm : ∀ I J, IsCfg d I → IsCfg d J → star (M.get [flat d I, flat d J]) = M.get [flat d J, flat d I])
    (hA : ∀ X : Tensor K, X.dims = [d.prod] → (A X).dims = [d.prod] ∧ ∀ I, IsCfg d I → (A X).get [flat d I] =
      sumCfg d fun J => M.get [flat d I, flat d J] * X.get [flat d J]) (P0 : Tensor K)
    (hok : (eigs A d.prod P0).ok = true) :
    let r := eigs A d.prod P0
    let X := reshape r.P d
    sumCfg d (fun I => ‖X.get I‖ ^ 2) = 1 ∧ matForm M d d X.get X.get = ((RCLike.re r.E : ℝ) : K) ∧
    ∀ Y : List Nat → K, RCLike.re r.E * sumCfg d (fun I => ‖Y I‖ ^ 2) ≤ RCLike.re (matForm M d d Y Y) := by
  intro r X
  have hn : 0 < d.prod := List.prod_pos (fun x hx => hd x hx)
  have hW : ∀ i j, i < d.prod → j < d.prod → star (M.get [i, j]) = M.get [j, i] := by
    intro i j hi hj
    obtain ⟨I, hI, rfl⟩ := flat_surj hi
    obtain ⟨J, hJ, rfl⟩ := flat_surj hj
    exact hherm I J hI hJ
  obtain ⟨h1, h2, h3, h4⟩ := he A d.prod P0 (fun i j => M.get [i, j]) hn hW (fun X hX => by
    obtain ⟨e1, e2⟩ := hA X hX
    refine ⟨e1, fun i hi => ?_⟩
    obtain ⟨I, hI, rfl⟩ := flat_surj hi
    rw [e2 I hI, sumCfg_flat hd (fun j => M.get [flat d I, j] * X.get [j])]) hok
  have hX : ∀ I, IsCfg d I → X.get I = r.P.get [flat d I] := by
    intro I hI
    apply reshape_get
    · rw [h1]; exact .cons (flat_lt hI) .nil
    · rw [h1]; simp [flat]
  have hform : ∀ (Y : List Nat → K) (y : Nat → K), (∀ I, IsCfg d I → Y I = y (flat d I)) →
      matForm M d d Y Y = ∑ i ∈ Finset.range d.prod, ∑ j ∈ Finset.range d.prod, star (y i) * M.get [i, j] * y j := by
    intro Y y hy
    unfold matForm
    rw [hM, if_neg (by simp), ← sumCfg_flat hd (fun i => ∑ j ∈ Finset.range d.prod, star (y i) * M.get [i, j] * y j)]
    refine sumCfg_congr fun I hI => ?_
    rw [← sumCfg_flat hd (fun j => star (y (flat d I)) * M.get [flat d I, j] * y j)]
    refine sumCfg_congr fun J hJ => ?_
    rw [hy I hI, hy J hJ]
  have hnorm : sumCfg d (fun I => ‖X.get I‖ ^ 2) = 1 := by
    rw [← h2, ← sumCfg_flat hd (fun i => ‖r.P.get [i]‖ ^ 2)]
    exact sumCfg_congr fun I hI => by rw [hX I hI]
  have hE : matForm M d d X.get X.get = r.E := by
    rw [hform X.get (fun i => r.P.get [i]) hX]
    have : ∀ i ∈ Finset.range d.prod, ∑ j ∈ Finset.range d.prod, star (r.P.get [i]) * M.get [i, j] * r.P.get [j] =
        r.E * ((‖r.P.get [i]‖ ^ 2 : ℝ) : K) := by
      intro i hi
      simp only [mul_assoc, ← Finset.mul_sum]
      rw [h3 i (Finset.mem_range.1 hi), ofReal_normSq]
      ring
    rw [Finset.sum_congr rfl this, ← Finset.mul_sum, ← RCLike.ofReal_sum, h2]
    simp
  refine ⟨hnorm, ?_, fun Y => ?_⟩
  · have hst : star (matForm M d d X.get X.get) = matForm M d d X.get X.get := by
      rw [hform X.get (fun i => r.P.get [i]) hX]
      simp only [star_sum, star_mul', star_star]
      rw [Finset.sum_comm]
      refine Finset.sum_congr rfl fun i hi => Finset.sum_congr rfl fun j hj => ?_
      rw [hW j i (Finset.mem_range.1 hj) (Finset.mem_range.1 hi)]; ring
    rw [hE] at hst ⊢
    exact ((RCLike.conj_eq_iff_re).1 hst).symm
  · have hy : ∀ I, IsCfg d I → Y I = (fun n => Y (unflat d n)) (flat d I) := fun I hI => by simp only [unflat_flat hI]
    have := h4 (fun n => Y (unflat d n))
    rw [← hform Y _ hy, ← sumCfg_flat hd (fun n => ‖Y (unflat d n)‖ ^ 2)] at this
    have e : sumCfg d (fun I => ‖Y (unflat d (flat d I))‖ ^ 2) = sumCfg d (fun I => ‖Y I‖ ^ 2) :=
      sumCfg_congr fun I hI => by rw [unflat_flat hI]
    rwa [e] at this

/-- a tensor used for bra and ket -/
def dup (A : Tensor K) : Tensor K × Tensor K := (A, A)

@[simp] theorem map_dup_fst (l : List (Tensor K)) : (l.map dup).map Prod.fst = l := by
  rw [List.map_map]; exact List.map_id l

@[simp] theorem map_dup_snd (l : List (Tensor K)) : (l.map dup).map Prod.snd = l := by
  rw [List.map_map]; exact List.map_id l

theorem zip_dup (l : List (Tensor K)) : l.zip l = l.map dup := by
  induction l with
  | nil => rfl
  | cons a l ih => simp [ih, dup]

theorem set_split {α : Type} {l : List α} {k : Nat} (hk : k < l.length) (X : α) : l.set k X = l.take k ++ X :: l.drop (k + 1) := by
  rw [List.set_eq_take_append_cons_drop, if_pos hk]

/-- the parts of a chain around a site -/
theorem WF.around {ψ : List (Tensor K)} {ds : List Nat} (h : WF 1 ψ ds 1) {k : Nat} (hk : k < ds.length) :
    ∃ a b, WF 1 (ψ.take k) (ds.take k) a ∧ (site ψ k).dims = [a, ds.getD k 0, b] ∧ WF b (ψ.drop (k + 1)) (ds.drop (k + 1)) 1 ∧
      0 < a ∧ 0 < ds.getD k 0 ∧ 0 < b := by
  have hl := h.length
  obtain ⟨a, h1, h2⟩ := Form.WF.cut h hk.le
  rw [drop_site (by omega), List.drop_eq_getElem_cons hk] at h2
  cases h2 with
  | cons k1 k2 k3 k4 k5 =>
    refine ⟨a, _, h1, ?_, k5, k2, ?_, k4⟩
    · rw [k1]; simp [hk]
    · simpa [hk] using k3

theorem WF.replace {ψ : List (Tensor K)} {ds : List Nat} {k a b : Nat} (hk : k < ds.length) (hl : ψ.length = ds.length)
    (h1 : WF 1 (ψ.take k) (ds.take k) a) (h2 : WF b (ψ.drop (k + 1)) (ds.drop (k + 1)) 1) {X : Tensor K}
    (hX : X.dims = [a, ds.getD k 0, b]) (ha : 0 < a) (hd : 0 < ds.getD k 0) (hb : 0 < b) : WF 1 (ψ.set k X) ds 1 := by
  rw [set_split (by omega)]
  have := h1.append (WF.cons hX ha hd hb h2)
  have e : ds.take k ++ ds.getD k 0 :: ds.drop (k + 1) = ds := by
    have : ds.drop k = ds.getD k 0 :: ds.drop (k + 1) := by rw [List.drop_eq_getElem_cons hk]; simp [hk]
    rw [← this, List.take_append_drop]
  rwa [e] at this

theorem normSq_at {ψ : List (Tensor K)} {ds : List Nat} (h : WF 1 ψ ds 1) {k : Nat} (hk : k < ds.length)
    (hl : ∀ j < k, LeftIso (site ψ j)) (hr : ∀ j, k < j → j < ds.length → RightIso (site ψ j)) :
    normSq ds ψ = sumCfg (site ψ k).dims fun I => ‖(site ψ k).get I‖ ^ 2 := by
  have hlen := h.length
  have hne : ψ ≠ [] := by rintro rfl; simp at hlen; omega
  obtain ⟨a, d, b, h1, h2⟩ := canonical_norm h k (by omega) hl (by rw [hlen]; exact hr)
  apply RCLike.ofReal_injective (K := K)
  unfold normSq
  rw [← inner_self_ofReal, h1, sumCfg_ofReal]
  simp only [ofReal_normSq, sumCfg_cons, sumCfg_nil]
  rw [← h2]
  unfold MPS.inner
  simp only [Finset.sum_range_one]
  refine sumCfg_congr fun s _ => ?_
  rw [amp_of_WF h hne, Finset.sum_range_one]

/-- one eigenvalue problem of the single-site algorithm -/
theorem solve_single {eigs : Eigs K} (he : GoodEigs eigs) {ψ O : List (Tensor K)} {ds : List Nat} (h : WF 1 ψ ds 1) (hO : WFO 1 O ds 1)
    (hherm : Hermitian ds O) {k : Nat} (hk : k < ds.length)
    (hl : ∀ j < k, LeftIso (site ψ j)) (hr : ∀ j, k < j → j < ds.length → RightIso (site ψ j)) {H : QForm K}
    (hg : QGood ds O H ((ψ.take k).map dup, (ψ.drop (k + 1)).map dup))
    (hne : (H.applyOneSite (site ψ k)).isEmpty = false) (P0 : Tensor K)
    (hok : (eigs (applyQform1 (site ψ k).dims H []) (site ψ k).size P0).ok = true) :
    let r := eigs (applyQform1 (site ψ k).dims H []) (site ψ k).size P0
    let X := reshape r.P (site ψ k).dims
    WF 1 (ψ.set k X) ds 1 ∧ normSq ds (ψ.set k X) = 1 ∧ expect ds (ψ.set k X) O (ψ.set k X) = ((RCLike.re r.E : ℝ) : K) ∧
    ∀ Y : Tensor K, Y.dims = (site ψ k).dims → RCLike.re r.E * normSq ds (ψ.set k Y) ≤ energyOf ds O (ψ.set k Y) := by
  classical
  intro r X
  have hlen := h.length
  obtain ⟨a, b, h1, hd, h2, ha, hd0, hb⟩ := WF.around h hk
  have htl : ((ψ.take k).map dup).length = k := by simp; omega
  obtain ⟨-, -, hform, happ⟩ := Props.form_single (a := a) (b := a) (a' := b) (b' := b) hO hg (by rw [htl, map_dup_fst]; exact h1)
    (by rw [htl, map_dup_fst]; exact h2) (by rw [htl, map_dup_snd]; exact h1) (by rw [htl, map_dup_snd]; exact h2)
  simp only [htl, map_dup_fst, map_dup_snd] at hform happ
  have hMne : H.singleSiteMatrix.isEmpty = false := by rw [← (happ _ hd).1]; exact hne
  have hdpos : ∀ x ∈ (site ψ k).dims, 0 < x := by rw [hd]; intro x hx; simp at hx; rcases hx with rfl | rfl | rfl <;> assumption
  have hset : ∀ Y : Tensor K, ψ.set k Y = ψ.take k ++ Y :: ψ.drop (k + 1) := fun Y => set_split (by omega) Y
  have hcfg : ∀ I, IsCfg (site ψ k).dims I → (basis (K := K) (site ψ k).dims I).dims = [a, ds.getD k 0, b] := fun I _ => hd
  have hM : ∀ I J, IsCfg (site ψ k).dims I → IsCfg (site ψ k).dims J →
      H.singleSiteMatrix.get [flat (site ψ k).dims I, flat (site ψ k).dims J] =
        expect ds (ψ.set k (basis (site ψ k).dims I)) O (ψ.set k (basis (site ψ k).dims J)) := by
    intro I J hI hJ
    rw [hset, hset, ← hform _ _ (hcfg I hI) (hcfg J hJ), ← matForm_basis hMne hI hJ, hd]
  have hherm' : ∀ I J, IsCfg (site ψ k).dims I → IsCfg (site ψ k).dims J →
      star (H.singleSiteMatrix.get [flat (site ψ k).dims I, flat (site ψ k).dims J]) =
        H.singleSiteMatrix.get [flat (site ψ k).dims J, flat (site ψ k).dims I] := by
    intro I J hI hJ
    rw [hM I J hI hJ, hM J I hJ hI, expect_star hherm]
  have hA : ∀ X : Tensor K, X.dims = [(site ψ k).dims.prod] → (applyQform1 (site ψ k).dims H [] X).dims = [(site ψ k).dims.prod] ∧
      ∀ I, IsCfg (site ψ k).dims I → (applyQform1 (site ψ k).dims H [] X).get [flat (site ψ k).dims I] =
      sumCfg (site ψ k).dims fun J => H.singleSiteMatrix.get [flat (site ψ k).dims I, flat (site ψ k).dims J] * X.get [flat (site ψ k).dims J] := by
    intro X hX
    have hsz : X.size = (site ψ k).dims.prod := by simp [Tensor.size, hX]
    obtain ⟨-, e2⟩ := happ (reshape X (site ψ k).dims) (by rw [← hd]; rfl)
    obtain ⟨e3, e4⟩ := e2 hMne
    unfold applyQform1 orthogonalize
    simp only [List.foldl_nil]
    refine ⟨by rw [← hsz]; rfl, fun I hI => ?_⟩
    rw [reshape_get (idx := I), e4 I (by rw [← hd]; exact hI), hd]
    · refine sumCfg_congr fun J hJ => ?_
      rw [reshape_get (idx := [flat [a, ds.getD k 0, b] J])]
      · rw [hX]; exact .cons (by rw [hd]; exact flat_lt hJ) .nil
      · rw [hX]; simp [flat]
    · rw [e3, ← hd]; exact hI
    · rw [e3, hsz, hd]; simp [flat]
  have hsz : (site ψ k).size = (site ψ k).dims.prod := rfl
  rw [hsz] at hok
  obtain ⟨c1, c2, c3⟩ := eig_core he hdpos hMne hherm' hA P0 hok
  have hw : ∀ Y : Tensor K, Y.dims = (site ψ k).dims → WF 1 (ψ.set k Y) ds 1 := fun Y hY =>
    WF.replace hk hlen h1 h2 (hY.trans hd) ha hd0 hb
  have hnorm : ∀ Y : Tensor K, Y.dims = (site ψ k).dims → normSq ds (ψ.set k Y) = sumCfg (site ψ k).dims fun I => ‖Y.get I‖ ^ 2 := by
    intro Y hY
    rw [normSq_at (hw Y hY) hk, site_set _ _ _ _ (by omega), if_pos rfl, hY]
    · intro j hj; rw [site_set _ _ _ _ (by omega), if_neg (by omega)]; exact hl j hj
    · intro j hj hj2; rw [site_set _ _ _ _ (by omega), if_neg (by omega)]; exact hr j hj hj2
  refine ⟨hw X rfl, ?_, ?_, fun Y hY => ?_⟩
  · rw [hnorm X rfl]; exact c1
  · rw [hset, ← hform X X hd hd]
    rw [← hd]; exact c2
  · have := c3 Y.get
    rw [hnorm Y hY]
    refine le_trans this (le_of_eq ?_)
    unfold energyOf
    rw [hset, ← hform Y Y (hY.trans hd) (hY.trans hd), ← hd]

end MPS.Minim
