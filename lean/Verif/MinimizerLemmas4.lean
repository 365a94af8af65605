import Verif.MinimizerLemmas3

set_option linter.unusedSectionVars false
set_option linter.unusedSimpArgs false

namespace MPS.Minim
open MPS Tensor Form
variable {K : Type} [RCLike K]

/-- `psi` with the tensors at `p` and `p+1` replaced -/
def setPair (ψ : List (Tensor K)) (p : Nat) (A B : Tensor K) : List (Tensor K) := (ψ.set p A).set (p + 1) B

theorem setPair_eq {ψ : List (Tensor K)} {p : Nat} (hp : p + 1 < ψ.length) (A B : Tensor K) :
    setPair ψ p A B = ψ.take p ++ A :: B :: ψ.drop (p + 2) := by
  unfold setPair
  rw [set_split (by simp; omega), set_split (by omega)]
  have hl : (List.take p ψ).length = p := by simp; omega
  rw [List.take_append, List.drop_append]
  simp only [hl, List.take_take]
  have e1 : p + 1 - p = 1 := by omega
  have e2 : p + 1 + 1 - p = 2 := by omega
  rw [e1, e2, List.drop_eq_nil_of_le (by omega : (List.take p ψ).length ≤ p + 1 + 1)]
  simp [List.drop_drop]

/-- the parts of a chain around a pair of sites -/
theorem WF.aroundPair {ψ : List (Tensor K)} {ds : List Nat} (h : WF 1 ψ ds 1) {p : Nat} (hp : p + 1 < ds.length) :
    ∃ a c b, WF 1 (ψ.take p) (ds.take p) a ∧ (site ψ p).dims = [a, ds.getD p 0, c] ∧ (site ψ (p + 1)).dims = [c, ds.getD (p + 1) 0, b] ∧
      WF b (ψ.drop (p + 2)) (ds.drop (p + 2)) 1 ∧ 0 < a ∧ 0 < ds.getD p 0 ∧ 0 < c ∧ 0 < ds.getD (p + 1) 0 ∧ 0 < b := by
  obtain ⟨a, c, h1, h2, h3, h4, h5, h6⟩ := WF.around h (k := p) (by omega)
  have hlen := h.length
  rw [drop_site (by omega), List.drop_eq_getElem_cons hp] at h3
  cases h3 with
  | @cons _ d b _ _ _ _ k1 k2 k3 k4 k5 =>
    have e : ds.getD (p + 1) 0 = ds[p + 1] := by simp [hp]
    exact ⟨a, c, b, h1, h2, by rw [e]; exact k1, k5, h4, h5, h6, by rw [e]; exact k3, k4⟩

theorem ds_pair {ds : List Nat} {p : Nat} (hp : p + 1 < ds.length) :
    ds = ds.take p ++ ds.getD p 0 :: ds.getD (p + 1) 0 :: ds.drop (p + 2) := by
  have e1 : ds.getD (p + 1) 0 :: ds.drop (p + 2) = ds.drop (p + 1) := by rw [List.drop_eq_getElem_cons hp]; simp [hp]
  have e2 : ds.getD p 0 :: ds.drop (p + 1) = ds.drop p := by rw [List.drop_eq_getElem_cons (by omega : p < ds.length)]; simp [show p < ds.length by omega]
  rw [e1, e2, List.take_append_drop]

theorem WF.setPair {ψ : List (Tensor K)} {ds : List Nat} {p a b n : Nat} (hp : p + 1 < ds.length) (hl : ψ.length = ds.length)
    (h1 : WF 1 (ψ.take p) (ds.take p) a) (h2 : WF b (ψ.drop (p + 2)) (ds.drop (p + 2)) 1) {A B : Tensor K}
    (hA : A.dims = [a, ds.getD p 0, n]) (hB : B.dims = [n, ds.getD (p + 1) 0, b])
    (hpos : 0 < a ∧ 0 < ds.getD p 0 ∧ 0 < n ∧ 0 < ds.getD (p + 1) 0 ∧ 0 < b) : WF 1 (setPair ψ p A B) ds 1 := by
  obtain ⟨q1, q2, q3, q4, q5⟩ := hpos
  rw [setPair_eq (by omega), ds_pair hp]
  rw [← ds_pair hp]
  have := h1.append (WF.cons hA q1 q2 q3 (WF.cons hB q3 q4 q5 h2))
  rwa [← ds_pair hp] at this

/-- norm of the difference of two states which differ at one pair of sites -/
theorem pair_dist {c f d d2 g g' : Nat} {pre post : List (Tensor K)} {A A' B B' : Tensor K}
    {ds1 ds3 : List Nat} (w1 : WF 1 pre ds1 c) (hA : A.dims = [c, d, g]) (hB : B.dims = [g, d2, f]) (hA' : A'.dims = [c, d, g'])
    (hB' : B'.dims = [g', d2, f]) (hpos : 0 < c ∧ 0 < d ∧ 0 < g ∧ 0 < g' ∧ 0 < d2 ∧ 0 < f) (w4 : WF f post ds3 1)
    (hpre : ∀ A ∈ pre, LeftIso A) (hpost : ∀ A ∈ post, RightIso A) :
    sumCfg (ds1 ++ d :: d2 :: ds3) (fun s => ‖amp (pre ++ A :: B :: post) s - amp (pre ++ A' :: B' :: post) s‖ ^ 2) =
      sumCfg [c, d, d2, f] fun I => ‖joined g A B I - joined g' A' B' I‖ ^ 2 := by
  obtain ⟨p1, p2, p3, p4, p5, p6⟩ := hpos
  have wA : WF 1 (pre ++ A :: B :: post) (ds1 ++ d :: d2 :: ds3) 1 := w1.append (WF.cons hA p1 p2 p3 (WF.cons hB p3 p5 p6 w4))
  have wA' : WF 1 (pre ++ A' :: B' :: post) (ds1 ++ d :: d2 :: ds3) 1 := w1.append (WF.cons hA' p1 p2 p4 (WF.cons hB' p4 p5 p6 w4))
  have h := sandwich_norm w1 w4 hpre hpost d d2 (fun x i j y => joined g A B [x, i, j, y] - joined g' A' B' [x, i, j, y])
  simp only [Finset.sum_range_one] at h
  rw [sumCfg_append]
  simp only [sumCfg_cons, sumCfg_nil]
  rw [← h]
  refine sumCfg_congr fun s1 hs1 => Finset.sum_congr rfl fun i _ => Finset.sum_congr rfl fun j _ => sumCfg_congr fun s3 _ => ?_
  rw [amp_of_WF wA (by simp), amp_of_WF wA' (by simp), Finset.sum_range_one, Finset.sum_range_one,
    path_pair_expand w1 hA hB ⟨p1, p2, p3, p5, p6⟩ w4 hs1 i j (by omega), path_pair_expand w1 hA' hB' ⟨p1, p2, p4, p5, p6⟩ w4 hs1 i j (by omega),
    ← Finset.sum_sub_distrib]
  congr 2
  refine Finset.sum_congr rfl fun x _ => ?_
  rw [← mul_sub, ← Finset.sum_sub_distrib]
  congr 1
  refine Finset.sum_congr rfl fun y _ => ?_
  rw [← sub_mul]; rfl

/-- norm of a state at a pair of sites -/
theorem pair_norm {c f d d2 g : Nat} {pre post : List (Tensor K)} {A B : Tensor K}
    {ds1 ds3 : List Nat} (w1 : WF 1 pre ds1 c) (hA : A.dims = [c, d, g]) (hB : B.dims = [g, d2, f])
    (hpos : 0 < c ∧ 0 < d ∧ 0 < g ∧ 0 < d2 ∧ 0 < f) (w4 : WF f post ds3 1)
    (hpre : ∀ A ∈ pre, LeftIso A) (hpost : ∀ A ∈ post, RightIso A) :
    sumCfg (ds1 ++ d :: d2 :: ds3) (fun s => ‖amp (pre ++ A :: B :: post) s‖ ^ 2) =
      sumCfg [c, d, d2, f] fun I => ‖joined g A B I‖ ^ 2 := by
  obtain ⟨p1, p2, p3, p5, p6⟩ := hpos
  have wA : WF 1 (pre ++ A :: B :: post) (ds1 ++ d :: d2 :: ds3) 1 := w1.append (WF.cons hA p1 p2 p3 (WF.cons hB p3 p5 p6 w4))
  have h := sandwich_norm w1 w4 hpre hpost d d2 (fun x i j y => joined g A B [x, i, j, y])
  simp only [Finset.sum_range_one] at h
  rw [sumCfg_append]
  simp only [sumCfg_cons, sumCfg_nil]
  rw [← h]
  refine sumCfg_congr fun s1 hs1 => Finset.sum_congr rfl fun i _ => Finset.sum_congr rfl fun j _ => sumCfg_congr fun s3 _ => ?_
  rw [amp_of_WF wA (by simp), Finset.sum_range_one, path_pair_expand w1 hA hB ⟨p1, p2, p3, p5, p6⟩ w4 hs1 i j (by omega)]
  rfl

/-- a tensor with four indices as the product of two tensors with three indices -/
def factL (a d d' b : Nat) (T : List Nat → K) : Tensor K :=
  ⟨[a, d, d' * b], fun i => T [i.getD 0 0, i.getD 1 0, i.getD 2 0 % d', i.getD 2 0 / d']⟩

def factR (d' b : Nat) : Tensor K := ⟨[d' * b, d', b], fun i => if i.getD 0 0 = i.getD 1 0 + d' * i.getD 2 0 then 1 else 0⟩

theorem joined_fact {a d d' b : Nat} (T : List Nat → K) {I : List Nat} (hI : IsCfg [a, d, d', b] I) :
    joined (d' * b) (factL a d d' b T) (factR d' b) I = T I := by
  obtain ⟨x, i, j, y, rfl, hx, hi, hj, hy⟩ := isCfg4 hI
  unfold joined factL factR
  simp only [List.getD_cons_zero, List.getD_cons_succ]
  have hlt : j + d' * y < d' * b := add_mul_lt hj hy
  rw [Finset.sum_eq_single_of_mem (j + d' * y) (Finset.mem_range.2 hlt)]
  · rw [if_pos rfl, mul_one]
    have e1 : (j + d' * y) % d' = j := by rw [Nat.add_mul_mod_self_left, Nat.mod_eq_of_lt hj]
    have e2 : (j + d' * y) / d' = y := by rw [Nat.add_mul_div_left _ _ (by omega), Nat.div_eq_of_lt hj, zero_add]
    rw [e1, e2]
  · intro c _ hc
    rw [if_neg hc, mul_zero]

/-- the first site of the pair treated by a step at site `k` -/
def pairOf (step : Int) (k : Nat) : Nat := if step > 0 then k else k - 1

/-- what the solution `T` of the two-site eigenvalue problem means -/
structure PairSolution (ds : List Nat) (O ψ : List (Tensor K)) (p : Nat) (E : ℝ) (a b : Nat) (T : Tensor K) : Prop where
  dims : T.dims = [a, ds.getD p 0, ds.getD (p + 1) 0, b]
  norm : sumCfg [a, ds.getD p 0, ds.getD (p + 1) 0, b] (fun I => ‖T.get I‖ ^ 2) = 1
  energy : ∀ (A B : Tensor K) (n : Nat), 0 < n → A.dims = [a, ds.getD p 0, n] → B.dims = [n, ds.getD (p + 1) 0, b] →
    (∀ I, IsCfg [a, ds.getD p 0, ds.getD (p + 1) 0, b] I → joined n A B I = T.get I) →
    expect ds (setPair ψ p A B) O (setPair ψ p A B) = (E : K)
  best : ∀ (A B : Tensor K) (n : Nat), 0 < n → A.dims = [a, ds.getD p 0, n] → B.dims = [n, ds.getD (p + 1) 0, b] →
    E * normSq ds (setPair ψ p A B) ≤ energyOf ds O (setPair ψ p A B)

/-- the cache around a pair -/
theorem around_pair {ψ : List (Tensor K)} {N k p : Nat} (step : Int) (hlen : ψ.length = N) (hk : k < N) (hp : pairOf step k = p) (hp1 : p + 1 < N)
    (hk1 : step > 0 ∨ 1 ≤ k) :
    HasPair step ((ψ.take k).map dup, (ψ.drop (k + 1)).map dup) ∧
    Form.aroundPair step ((ψ.take k).map dup, (ψ.drop (k + 1)).map dup) = ((ψ.take p).map dup, (ψ.drop (p + 2)).map dup) := by
  unfold HasPair Form.aroundPair
  unfold pairOf at hp
  by_cases hs : step > 0
  · rw [if_pos hs] at hp ⊢
    subst hp
    rw [if_pos hs]
    refine ⟨by simp; omega, ?_⟩
    rw [← List.map_tail, List.tail_drop]
  · rw [if_neg hs] at hp ⊢
    rw [if_neg hs]
    obtain ⟨k, rfl⟩ : ∃ k', k = k' + 1 := ⟨k - 1, by omega⟩
    simp only [Nat.add_sub_cancel] at hp
    subst hp
    refine ⟨by intro hh; have := congrArg List.length hh; simp only [List.length_map, List.length_take, List.length_nil] at this; omega, ?_⟩
    rw [take_succ_site (by omega)]; simp

theorem iso_take {ψ : List (Tensor K)} {p : Nat} (h : ∀ j < p, LeftIso (site ψ j)) : ∀ A ∈ ψ.take p, LeftIso A := by
  intro A hA
  obtain ⟨j, hj, rfl⟩ := List.mem_iff_getElem.1 hA
  have hj' : j < p ∧ j < ψ.length := by simpa [List.length_take] using hj
  have := h j hj'.1
  simpa [site, hj'.2] using this

theorem iso_drop {ψ : List (Tensor K)} {q : Nat} (h : ∀ j, q ≤ j → j < ψ.length → RightIso (site ψ j)) : ∀ A ∈ ψ.drop q, RightIso A := by
  intro A hA
  obtain ⟨j, hj, rfl⟩ := List.mem_iff_getElem.1 hA
  simp only [List.length_drop] at hj
  have := h (q + j) (by omega) (by omega)
  simpa [site, show q + j < ψ.length by omega] using this

theorem matForm_congr {M : Tensor K} {d1 d2 : List Nat} {y y' x x' : List Nat → K} (hy : ∀ I, IsCfg d1 I → y I = y' I)
    (hx : ∀ I, IsCfg d2 I → x I = x' I) : matForm M d1 d2 y x = matForm M d1 d2 y' x' := by
  unfold matForm
  split
  · rfl
  · refine sumCfg_congr fun I hI => sumCfg_congr fun J hJ => ?_
    rw [hy I hI, hx J hJ]

/-- the unconstrained two-site eigenvalue problem -/
theorem solve_pair {eigs : Eigs K} (he : GoodEigs eigs) {ψ O : List (Tensor K)} {ds : List Nat} (h : WF 1 ψ ds 1) (hO : WFO 1 O ds 1)
    (hherm : Hermitian ds O) {k p : Nat} (hk : k < ds.length) (step : Int) (hp : pairOf step k = p) (hp1 : p + 1 < ds.length) (hk1 : step > 0 ∨ 1 ≤ k)
    (hl : ∀ j < p, LeftIso (site ψ j)) (hr : ∀ j, p + 1 < j → j < ds.length → RightIso (site ψ j)) {H : QForm K}
    (hg : QGood ds O H ((ψ.take k).map dup, (ψ.drop (k + 1)).map dup)) {a b : Nat} 
    (h1 : WF 1 (ψ.take p) (ds.take p) a) (h2 : WF b (ψ.drop (p + 2)) (ds.drop (p + 2)) 1)
    (hpos : 0 < a ∧ 0 < ds.getD p 0 ∧ 0 < ds.getD (p + 1) 0 ∧ 0 < b) {P12 : Tensor K} (hP : P12.dims = [a, ds.getD p 0, ds.getD (p + 1) 0, b])
    (hne : ((H.applyTwoSite P12 step).getD Tensor.empty).isEmpty = false) (P0 : Tensor K)
    (hok : (eigs (applyQform2 step P12.dims H []) P12.size P0).ok = true) :
    let r := eigs (applyQform2 step P12.dims H []) P12.size P0
    PairSolution ds O ψ p (RCLike.re r.E) a b (reshape r.P P12.dims) := by
  classical
  intro r
  obtain ⟨q1, q2, q3, q4⟩ := hpos
  have hlen := h.length
  obtain ⟨hh1, hh2⟩ := around_pair (ψ := ψ) step hlen hk hp hp1 hk1
  have htl : ((ψ.take p).map dup).length = p := by simp; omega
  obtain ⟨M, -, hMd, hform, happ, -⟩ := Props.form_two (a := a) (b := a) (a' := b) (b' := b) hO step hg hh1 hh2 (by rw [htl, map_dup_fst]; exact h1)
    (by rw [htl, map_dup_fst]; exact h2) (by rw [htl, map_dup_snd]; exact h1) (by rw [htl, map_dup_snd]; exact h2)
  simp only [htl, map_dup_fst, map_dup_snd] at hMd hform happ
  set d := ds.getD p 0 with hd
  set d' := ds.getD (p + 1) 0 with hd'
  have hMne : M.isEmpty = false := by
    obtain ⟨V, e1, e2, -⟩ := happ P12 hP
    rw [e1, Option.getD_some] at hne
    rw [← e2]; exact hne
  have hdpos : ∀ x ∈ [a, d, d', b], 0 < x := by intro x hx; simp at hx; rcases hx with rfl | rfl | rfl | rfl <;> assumption
  have hform' : ∀ (Y X : List Nat → K) (A B C D : Tensor K) (m n : Nat), 0 < m → 0 < n → A.dims = [a, d, m] → B.dims = [m, d', b] →
      C.dims = [a, d, n] → D.dims = [n, d', b] → (∀ I, IsCfg [a, d, d', b] I → joined m A B I = Y I) →
      (∀ I, IsCfg [a, d, d', b] I → joined n C D I = X I) →
      matForm M [a, d, d', b] [a, d, d', b] Y X = expect ds (setPair ψ p A B) O (setPair ψ p C D) := by
    intro Y X A B C D m n hm hn hA hB hC hD hY hX
    rw [setPair_eq (by omega), setPair_eq (by omega), ← hform A B C D m n hm hn hA hB hC hD]
    exact (matForm_congr hY hX).symm
  have hfact : ∀ Y X : List Nat → K, matForm M [a, d, d', b] [a, d, d', b] Y X =
      expect ds (setPair ψ p (factL a d d' b Y) (factR d' b)) O (setPair ψ p (factL a d d' b X) (factR d' b)) := by
    intro Y X
    apply hform' Y X _ _ _ _ (d' * b) (d' * b) (Nat.mul_pos q3 q4) (Nat.mul_pos q3 q4)
    · rfl
    · rfl
    · rfl
    · rfl
    · exact fun I hI => joined_fact Y hI
    · exact fun I hI => joined_fact X hI
  have hherm' : ∀ I J, IsCfg [a, d, d', b] I → IsCfg [a, d, d', b] J →
      star (M.get [flat [a, d, d', b] I, flat [a, d, d', b] J]) = M.get [flat [a, d, d', b] J, flat [a, d, d', b] I] := by
    intro I J hI hJ
    rw [← matForm_basis hMne hI hJ, ← matForm_basis hMne hJ hI, hfact, hfact, expect_star hherm]
  have hA : ∀ X : Tensor K, X.dims = [[a, d, d', b].prod] → (applyQform2 step P12.dims H [] X).dims = [[a, d, d', b].prod] ∧
      ∀ I, IsCfg [a, d, d', b] I → (applyQform2 step P12.dims H [] X).get [flat [a, d, d', b] I] =
      sumCfg [a, d, d', b] fun J => M.get [flat [a, d, d', b] I, flat [a, d, d', b] J] * X.get [flat [a, d, d', b] J] := by
    intro X hX
    obtain ⟨V, e1, -, e2⟩ := happ (reshape X P12.dims) hP
    obtain ⟨e3, e4⟩ := e2 hMne
    unfold applyQform2 orthogonalize
    simp only [List.foldl_nil, e1, Option.getD_some]
    have hV : V.size = [a, d, d', b].prod := by simp [Tensor.size, e3]
    refine ⟨by show [V.size] = _; rw [hV], fun I hI => ?_⟩
    rw [reshape_get (idx := I), e4 I hI]
    · refine sumCfg_congr fun J hJ => ?_
      rw [hP, reshape_get (idx := [flat [a, d, d', b] J])]
      · rw [hX]; exact .cons (flat_lt hJ) .nil
      · rw [hX]; simp [flat]
    · rw [e3]; exact hI
    · rw [e3, hV]; simp [flat]
  have hsz : P12.size = [a, d, d', b].prod := by unfold Tensor.size; rw [hP]
  rw [hsz] at hok
  obtain ⟨c1, c2, c3⟩ := eig_core he hdpos hMne hherm' hA P0 hok
  have er : eigs (applyQform2 step P12.dims H []) [a, d, d', b].prod P0 = r := by rw [← hsz]
  rw [er] at c1 c2 c3
  simp only [← hP] at c1 c2
  have hnorm : ∀ (A B : Tensor K) (n : Nat), 0 < n → A.dims = [a, d, n] → B.dims = [n, d', b] →
      normSq ds (setPair ψ p A B) = sumCfg [a, d, d', b] fun I => ‖joined n A B I‖ ^ 2 := by
    intro A B n hn hA hB
    have := pair_norm h1 hA hB ⟨q1, q2, hn, q3, q4⟩ h2 (iso_take hl) (iso_drop fun j hj hj2 => hr j (by omega) (by omega))
    rw [← ds_pair hp1, ← setPair_eq (by omega)] at this
    exact this
  refine ⟨hP, ?_, ?_, ?_⟩
  · rw [← hP]; exact c1
  · intro A B n hn hA hB hj
    rw [← hform' (reshape r.P P12.dims).get (reshape r.P P12.dims).get A B A B n n hn hn hA hB hA hB hj hj, ← hP]
    exact c2
  · intro A B n hn hA hB
    rw [hnorm A B n hn hA hB]
    refine le_trans (c3 (joined n A B)) (le_of_eq ?_)
    unfold energyOf
    rw [hform' (joined n A B) (joined n A B) A B A B n n hn hn hA hB hA hB (fun _ _ => rfl) (fun _ _ => rfl)]

end MPS.Minim
