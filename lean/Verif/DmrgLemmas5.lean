import Verif.DmrgLemmas4

/-! The eigenvalue problem of one site. -/

set_option linter.unusedSectionVars false
set_option linter.unusedSimpArgs false

namespace MPS.Dmrg
open MPS Tensor Form Minim
variable {K : Type} [RCLike K]

theorem cfg3 {a d b : Nat} {I : List Nat} (h : IsCfg [a, d, b] I) : ∃ u i x, I = [u, i, x] ∧ u < a ∧ i < d ∧ x < b := by
  rcases h with _ | ⟨h1, h⟩
  rcases h with _ | ⟨h2, h⟩
  rcases h with _ | ⟨h3, h⟩
  cases h
  exact ⟨_, _, _, rfl, h1, h2, h3⟩

/-- the matrix `Heff` -/
noncomputable def heff (Opli Opir : Tensor K) (a b : Nat) : Tensor K := Tensor.add (kron2 Opli (eye b)) (kron2 (eye a) Opir)

theorem ops_spec {ds : List Nat} {P A : List (Tensor K)} (h : WF 1 P ds 1) {H : Ham K} (hH : HamOk ds H) {k a b : Nat} (hk : k < ds.length)
    (hX : (site P k).dims = [a, ds.getD k 0, b]) (hl : ∀ j < k, LeftIso (site P j)) (hr : ∀ j, k < j → j < ds.length → RightIso (site P j))
    (hAl : 0 < k → LGood ds H P A (k - 1)) (hAr : k + 1 < ds.length → RGood ds H P A (k + 1)) (dk : Int) :
    ∃ F G, IsBlk (opLeft H P A k dk) a (ds.getD k 0) F ∧ IsBlk (opRight H P A k dk) (ds.getD k 0) b G ∧ HermF a (ds.getD k 0) F ∧
      HermF (ds.getD k 0) b G ∧ ∀ u i x v j y, F u i v j * (if x = y then 1 else 0) + (if u = v then 1 else 0) * G i x j y = effM ds H P k u i x v j y := by
  obtain ⟨l1, l2⟩ := blockLeft_spec h hH hk hX hl hAl
  obtain ⟨r1, r2⟩ := blockRight_spec h hH hk hX hr hAr
  unfold opLeft opRight
  rw [dim0_of hX, dim2_of hX]
  by_cases hdk : dk > 0
  · rw [if_pos hdk, if_pos hdk]
    refine ⟨_, _, (l1.add (IsBlk.kron2 (show (eye a : Tensor K).dims = [a, a] from rfl) (hH.loc k hk))).congr
      (fun i x j y _ _ _ _ => by rw [eye_get]), r1, l2.add (loc_left_herm hH hk a), r2, fun u i x v j y => ?_⟩
    unfold effM; rfl
  · rw [if_neg hdk, if_neg hdk]
    refine ⟨_, _, l1, (r1.add (IsBlk.kron2 (hH.loc k hk) (show (eye b : Tensor K).dims = [b, b] from rfl))).congr
      (fun i x j y _ _ _ _ => by rw [eye_get]), l2, r2.add (loc_right_herm hH hk b), fun u i x v j y => ?_⟩
    unfold effM; ring

theorem heff_get {L R : Tensor K} {a d b : Nat} {F G : Nat → Nat → Nat → Nat → K} (hL : IsBlk L a d F) (hR : IsBlk R d b G) {u i x v j y : Nat}
    (hu : u < a) (hi : i < d) (hx : x < b) (hv : v < a) (hj : j < d) (hy : y < b) :
    (heff L R a b).get [flat [a, d, b] [u, i, x], flat [a, d, b] [v, j, y]] =
      F u i v j * (if x = y then 1 else 0) + (if u = v then 1 else 0) * G i x j y := by
  unfold heff
  simp only [Tensor.add]
  have e1 : ∀ u i x, flat [a, d, b] [u, i, x] = (u + a * i) + a * d * x := by intro u i x; simp only [flat]; ring
  have e2 : ∀ u i x, flat [a, d, b] [u, i, x] = u + a * (i + d * x) := by intro u i x; simp only [flat]; ring
  congr 1
  · rw [e1, e1, Props.kron2_get hL.1 (add_mul_lt hu hi) (add_mul_lt hv hj), hL.2 u i v j hu hi hv hj, eye_get]
  · rw [e2, e2, Props.kron2_get (show (eye a : Tensor K).dims = [a, a] from rfl) hu hv, hR.2 i x j y hi hx hj hy, eye_get]

theorem dense_spec {L R : Tensor K} {a d b : Nat} {F G : Nat → Nat → Nat → Nat → K} (hL : IsBlk L a d F) (hR : IsBlk R d b G)
    (hd : ∀ n ∈ [a, d, b], 0 < n) {X : Tensor K} (hX : X.dims = [[a, d, b].prod]) :
    (denseMul L R a b X).dims = [[a, d, b].prod] ∧ ∀ I, IsCfg [a, d, b] I → (denseMul L R a b X).get [flat [a, d, b] I] =
      sumCfg [a, d, b] fun J => (heff L R a b).get [flat [a, d, b] I, flat [a, d, b] J] * X.get [flat [a, d, b] J] := by
  have hdims : (heff L R a b).dims = [[a, d, b].prod, [a, d, b].prod] := by
    unfold heff
    simp only [Tensor.add]
    rw [Props.kron2_dims hL.1 (show (eye b : Tensor K).dims = [b, b] from rfl)]
    simp [mul_assoc]
  change (mmult (heff L R a b) X).dims = _ ∧ ∀ I, IsCfg [a, d, b] I → (mmult (heff L R a b) X).get _ = _
  refine ⟨by simp only [mmult, fold, hdims, hX]; simp [nrm], fun I hI => ?_⟩
  rw [sumCfg_flat hd (fun n => (heff L R a b).get [flat [a, d, b] I, n] * X.get [n])]
  generalize [a, d, b].prod = N at hdims hX
  simp only [mmult, fold, hdims, hX]
  simp [nrm]

theorem arpack_spec {L R : Tensor K} {a d b : Nat} {F G : Nat → Nat → Nat → Nat → K} (hL : IsBlk L a d F) (hR : IsBlk R d b G)
    {X : Tensor K} (hX : X.dims = [[a, d, b].prod]) :
    (arpackMul L R a d b X).dims = [[a, d, b].prod] ∧ ∀ I, IsCfg [a, d, b] I → (arpackMul L R a d b X).get [flat [a, d, b] I] =
      sumCfg [a, d, b] fun J => (heff L R a b).get [flat [a, d, b] I, flat [a, d, b] J] * X.get [flat [a, d, b] J] := by
  have hp : [a, d, b].prod = a * (d * b) := by simp
  have hL' := hL.reshape
  have hR' := hR.reshape
  refine ⟨by rw [hp]; rfl, fun I hI => ?_⟩
  obtain ⟨u, i, x, rfl, hu, hi, hx⟩ := cfg3 hI
  have hflat : ∀ {u i x}, u < a → i < d → x < b → flat [a, d, b] [u, i, x] < a * (d * b) := fun h1 h2 h3 => by
    rw [← hp]; exact flat_lt (.cons h1 (.cons h2 (.cons h3 .nil)))
  have x1 : ∀ {u i x}, u < a → i < d → x < b → (reshape X [a * d, b]).get [u + a * i, x] = X.get [flat [a, d, b] [u, i, x]] := by
    intro u i x hu hi hx
    apply reshape_get
    · rw [hX, hp]; exact .cons (hflat hu hi hx) .nil
    · rw [hX]; simp only [flat]; ring
  have x2 : ∀ {u i x}, u < a → i < d → x < b → (reshape X [a, d * b]).get [u, i + d * x] = X.get [flat [a, d, b] [u, i, x]] := by
    intro u i x hu hi hx
    apply reshape_get
    · rw [hX, hp]; exact .cons (hflat hu hi hx) .nil
    · rw [hX]; simp only [flat]; ring
  have f1 : (fold (reshape L [a * d, a * d]) (-1) (reshape X [a * d, b]) 0).dims = [a * d, b] := by simp [fold, nrm]
  have f2 : (fold (reshape X [a, d * b]) (-1) (reshape R [d * b, d * b]) (-1)).dims = [a, d * b] := by simp [fold, nrm]
  have g1 : (reshape (fold (reshape L [a * d, a * d]) (-1) (reshape X [a * d, b]) 0) [a * (d * b)]).get [flat [a, d, b] [u, i, x]] =
      ∑ j ∈ Finset.range d, ∑ v ∈ Finset.range a, F u i v j * X.get [flat [a, d, b] [v, j, x]] := by
    rw [reshape_get (idx := [u + a * i, x])]
    · have e : (fold (reshape L [a * d, a * d]) (-1) (reshape X [a * d, b]) 0).get [u + a * i, x] =
          ∑ n ∈ Finset.range (a * d), (reshape L [a * d, a * d]).get [u + a * i, n] * (reshape X [a * d, b]).get [n, x] := by simp [fold, nrm]
      rw [e, sum_range_mul]
      refine Finset.sum_congr rfl fun j hj => Finset.sum_congr rfl fun v hv => ?_
      rw [hL'.2 u i v j hu hi (Finset.mem_range.1 hv) (Finset.mem_range.1 hj), x1 (Finset.mem_range.1 hv) (Finset.mem_range.1 hj) hx]
    · rw [f1]; exact .cons (add_mul_lt hu hi) (.cons hx .nil)
    · rw [f1]; simp only [flat]; ring
  have g2 : (reshape (fold (reshape X [a, d * b]) (-1) (reshape R [d * b, d * b]) (-1)) [a * (d * b)]).get [flat [a, d, b] [u, i, x]] =
      ∑ y ∈ Finset.range b, ∑ j ∈ Finset.range d, X.get [flat [a, d, b] [u, j, y]] * G i x j y := by
    rw [reshape_get (idx := [u, i + d * x])]
    · have e : (fold (reshape X [a, d * b]) (-1) (reshape R [d * b, d * b]) (-1)).get [u, i + d * x] =
          ∑ n ∈ Finset.range (d * b), (reshape X [a, d * b]).get [u, n] * (reshape R [d * b, d * b]).get [i + d * x, n] := by simp [fold, nrm]
      rw [e, sum_range_mul]
      refine Finset.sum_congr rfl fun y hy => Finset.sum_congr rfl fun j hj => ?_
      rw [hR'.2 i x j y hi hx (Finset.mem_range.1 hj) (Finset.mem_range.1 hy), x2 hu (Finset.mem_range.1 hj) (Finset.mem_range.1 hy)]
    · rw [f2]; exact .cons hu (.cons (add_mul_lt hi hx) .nil)
    · rw [f2]; simp only [flat]; ring
  unfold arpackMul
  rw [reshape_get (idx := [flat [a, d, b] [u, i, x]])]
  · simp only [Tensor.add]
    rw [g1, g2]
    simp only [sumCfg_cons, sumCfg_nil]
    have e : ∀ v ∈ Finset.range a, ∀ j ∈ Finset.range d, ∀ y ∈ Finset.range b,
        (heff L R a b).get [flat [a, d, b] [u, i, x], flat [a, d, b] [v, j, y]] * X.get [flat [a, d, b] [v, j, y]] =
        (if x = y then F u i v j * X.get [flat [a, d, b] [v, j, x]] else 0) + (if u = v then X.get [flat [a, d, b] [u, j, y]] * G i x j y else 0) := by
      intro v hv j hj y hy
      rw [heff_get hL hR hu hi hx (Finset.mem_range.1 hv) (Finset.mem_range.1 hj) (Finset.mem_range.1 hy)]
      by_cases h1 : x = y
      · subst h1
        by_cases h2 : u = v
        · subst h2; simp; ring
        · simp [h2]
      · by_cases h2 : u = v
        · subst h2; simp [h1]; ring
        · simp [h1, h2]
    rw [Finset.sum_congr rfl fun v hv => Finset.sum_congr rfl fun j hj => Finset.sum_congr rfl (e v hv j hj)]
    simp only [Finset.sum_add_distrib]
    congr 1
    · rw [Finset.sum_comm]
      refine Finset.sum_congr rfl fun v hv => Finset.sum_congr rfl fun j hj => ?_
      rw [Finset.sum_ite_eq, if_pos (Finset.mem_range.2 hx)]
    · have : ∀ v ∈ Finset.range a, (∑ j ∈ Finset.range d, ∑ y ∈ Finset.range b, if u = v then X.get [flat [a, d, b] [u, j, y]] * G i x j y else 0) =
          if u = v then ∑ y ∈ Finset.range b, ∑ j ∈ Finset.range d, X.get [flat [a, d, b] [u, j, y]] * G i x j y else 0 := by
        intro v _
        by_cases h : u = v
        · simp only [h, if_true]; rw [Finset.sum_comm]
        · simp [h]
      rw [Finset.sum_congr rfl this, Finset.sum_ite_eq, if_pos (Finset.mem_range.2 hu)]
  · exact .cons (hflat hu hi hx) .nil
  · simp [flat, reshape, Tensor.add]

end MPS.Dmrg
