import Verif.FormQLemmas3

set_option linter.unusedSectionVars false
set_option linter.unusedSimpArgs false

/-! # Helper lemmas for quadratic forms: entries of the effective matrices -/

namespace MPS.Form
open MPS Tensor
variable {R : Type} [CommRing R] [StarRing R] [DecidableEq R]

/-- the effective operator of one site -/
def eff1 (EL : Nat → Nat → Nat → R) (T : Tensor R) (ER : Nat → Nat → Nat → R) (c c' x i x' y j y' : Nat) : R :=
  ∑ α ∈ Finset.range c, ∑ β ∈ Finset.range c', EL x α y * T.get [α, i, j, β] * ER x' β y'

/-- the effective operator of two sites -/
def eff2 (EL : Nat → Nat → Nat → R) (T1 T2 : Tensor R) (ER : Nat → Nat → Nat → R) (c c1 c' x i i' x' y j j' y' : Nat) : R :=
  ∑ α ∈ Finset.range c, ∑ β ∈ Finset.range c', EL x α y * (∑ γ ∈ Finset.range c1, T1.get [α, i, j, γ] * T2.get [γ, i', j', β]) * ER x' β y'

/-- a pair with both matrices present -/
def valid1 (ml mr : List (Tensor R)) (p : Pair R) : Bool :=
  !(ml.getD p.left Tensor.empty).isEmpty && !(mr.getD p.right Tensor.empty).isEmpty

theorem sumPairs_eq (f : QForm R) (g : Pair R → Tensor R → Tensor R → Tensor R) :
    f.sumPairs g = (f.pairs.getD f.here []).foldl (fun out p => if valid1 (f.mat.getD f.here []) (f.mat.getD (f.here + 1) []) p then
      maybeAdd out (g p ((f.mat.getD f.here []).getD p.left Tensor.empty) ((f.mat.getD (f.here + 1) []).getD p.right Tensor.empty)) else out) Tensor.empty := rfl

theorem env_cases {ml mr : List (Tensor R)} {a b a' b' c c' : Nat} {EL ER : Nat → Nat → Nat → R}
    (hl : ∀ α, α < c → EnvL (ml.getD α Tensor.empty) a b (fun x y => EL x α y))
    (hr : ∀ β, β < c' → EnvR (mr.getD β Tensor.empty) a' b' (fun x y => ER x β y)) (ha : 0 < a) (hb : 0 < b) (ha' : 0 < a') (hb' : 0 < b')
    {α β : Nat} (hα : α < c) (hβ : β < c') :
    let v := !(ml.getD α Tensor.empty).isEmpty && !(mr.getD β Tensor.empty).isEmpty
    (v = true → (ml.getD α Tensor.empty).dims = [1, 1, a, b] ∧ (mr.getD β Tensor.empty).dims = [a', b', 1, 1] ∧
      (∀ x y, x < a → y < b → (ml.getD α Tensor.empty).get [0, 0, x, y] = EL x α y) ∧
      ∀ x y, x < a' → y < b' → (mr.getD β Tensor.empty).get [x, y, 0, 0] = ER x β y) ∧
    (v = false → ∀ x y x' y' w, x < a → y < b → x' < a' → y' < b' → EL x α y * w * ER x' β y' = 0) := by
  intro v
  rcases hl α hα with ⟨h1, h2⟩ | ⟨h1, h2⟩
  · simp only [v, h1]
    exact ⟨by simp, fun _ x y x' y' w hx hy _ _ => by rw [show EL x α y = 0 from h2 x y hx hy, zero_mul, zero_mul]⟩
  · rcases hr β hβ with ⟨k1, k2⟩ | ⟨k1, k2⟩
    · simp only [v, k1]
      exact ⟨by simp, fun _ x y x' y' w _ _ hx' hy' => by rw [show ER x' β y' = 0 from k2 x' y' hx' hy', mul_zero]⟩
    · have e1 := notEmpty_dims h1 (by simp; omega)
      have e2 := notEmpty_dims k1 (by simp; omega)
      simp only [v, e1, e2]
      exact ⟨fun _ => ⟨h1, k1, h2, k2⟩, by simp⟩

/-- a matrix, its action and its diagonal, summed over the same items -/
theorem core_abstract {ι : Type} (l : List ι) (v : ι → Bool) (e : ι → List Nat → List Nat → R) (GM : ι → Tensor R)
    (GA : Tensor R → ι → Tensor R) (GD : ι → Tensor R) {dI dJ : List Nat} (W : List Nat → List Nat → R) (hI : dI.prod ≠ 0) (hJ : dJ.prod ≠ 0)
    (hW : ∀ I J, IsCfg dI I → IsCfg dJ J → (l.map fun p => if v p then e p I J else 0).sum = W I J)
    (hM : ∀ p ∈ l, v p = true → (GM p).dims = [dI.prod, dJ.prod] ∧ ∀ I J, IsCfg dI I → IsCfg dJ J → (GM p).get [flat dI I, flat dJ J] = e p I J)
    (hA : ∀ P, P.dims = dJ → ∀ p ∈ l, v p = true → (GA P p).dims = dI ∧ ∀ I, IsCfg dI I → (GA P p).get I = sumCfg dJ fun J => e p I J * P.get J)
    (hD : dI = dJ → ∀ p ∈ l, v p = true → (GD p).dims = [dI.prod] ∧ ∀ I, IsCfg dI I → (GD p).get [flat dI I] = e p I I) :
    let M := l.foldl (fun out p => if v p then maybeAdd out (GM p) else out) Tensor.empty
    let A := fun P => l.foldl (fun out p => if v p then maybeAdd out (GA P p) else out) Tensor.empty
    let D := l.foldl (fun out p => if v p then maybeAdd out (GD p) else out) Tensor.empty
    (M = Tensor.empty ∧ (∀ P, A P = Tensor.empty) ∧ D = Tensor.empty ∧ ∀ I J, IsCfg dI I → IsCfg dJ J → W I J = 0) ∨
    (M.dims = [dI.prod, dJ.prod] ∧ (∀ I J, IsCfg dI I → IsCfg dJ J → M.get [flat dI I, flat dJ J] = W I J) ∧
      (∀ P, P.dims = dJ → (A P).dims = dI ∧ ∀ I, IsCfg dI I → (A P).get I = sumCfg dJ fun J => W I J * P.get J) ∧
      (dI = dJ → D.dims = [dI.prod] ∧ ∀ I, IsCfg dI I → D.get [flat dI I] = W I I)) := by
  intro M A D
  by_cases hex : ∃ p ∈ l, v p = true
  · right
    have hn : ¬ ∀ p ∈ l, v p = false := by
      obtain ⟨p, h1, h2⟩ := hex
      intro h; rw [h p h1] at h2; exact absurd h2 (by simp)
    have fM := addFold l v GM (dm := [dI.prod, dJ.prod]) (by simpa using ⟨by simpa using hI, by simpa using hJ⟩) (fun p hp hv => (hM p hp hv).1)
    refine ⟨fM.1.elim (fun h => absurd h.2 hn) fun h => h.1, fun I J hi hj => ?_, fun P hP => ?_, fun hIJ => ?_⟩
    · rw [fM.2 hex, ← hW I J hi hj]
      congr 1
      refine List.map_congr_left fun p hp => ?_
      by_cases hv : v p = true
      · rw [if_pos hv, if_pos hv, (hM p hp hv).2 I J hi hj]
      · rw [if_neg hv, if_neg hv]
    · have fA := addFold l v (GA P) (dm := dI) hI (fun p hp hv => (hA P hP p hp hv).1)
      refine ⟨fA.1.elim (fun h => absurd h.2 hn) fun h => h.1, fun I hi => ?_⟩
      rw [fA.2 hex]
      have e1 : ∀ J, IsCfg dJ J → W I J * P.get J = (l.map fun p => (if v p then e p I J else 0) * P.get J).sum := by
        intro J hj
        rw [← hW I J hi hj, ← List.sum_map_mul_right]
      rw [sumCfg_congr e1]
      obtain ⟨S, hS⟩ := exists_cfgs (R := R) dJ
      rw [hS]
      have hcomm : ∀ (l : List ι) (F : List Nat → ι → R), ∑ s ∈ S, (l.map (F s)).sum = (l.map fun p => ∑ s ∈ S, F s p).sum := by
        intro l F
        induction l with
        | nil => simp
        | cons p l ih => simp only [List.map_cons, List.sum_cons, Finset.sum_add_distrib, ih]
      rw [hcomm]
      congr 1
      refine List.map_congr_left fun p hp => ?_
      by_cases hv : v p = true
      · rw [if_pos hv, (hA P hP p hp hv).2 I hi, hS]
        simp only [if_pos hv]
      · rw [if_neg hv]
        simp only [if_neg hv, zero_mul, Finset.sum_const_zero]
    · have fD := addFold l v GD (dm := [dI.prod]) (by simpa using hI) (fun p hp hv => (hD hIJ p hp hv).1)
      refine ⟨fD.1.elim (fun h => absurd h.2 hn) fun h => h.1, fun I hi => ?_⟩
      rw [fD.2 hex, ← hW I I hi (hIJ ▸ hi)]
      congr 1
      refine List.map_congr_left fun p hp => ?_
      by_cases hv : v p = true
      · rw [if_pos hv, if_pos hv, (hD hIJ p hp hv).2 I hi]
      · rw [if_neg hv, if_neg hv]
  · left
    have hn : ∀ p ∈ l, v p = false := by
      intro p h1
      by_contra h
      exact hex ⟨p, h1, by simpa using h⟩
    have h0 : ∀ G : ι → Tensor R, l.foldl (fun out p => if v p then maybeAdd out (G p) else out) Tensor.empty = Tensor.empty := by
      intro G
      clear hW hM hA hD hex M A D
      induction l with
      | nil => rfl
      | cons p l ih =>
        rw [List.foldl_cons, hn p (by simp)]
        simp only [Bool.false_eq_true, if_false]
        exact ih fun q hq => hn q (by simp [hq])
    refine ⟨h0 _, fun P => h0 _, h0 _, fun I J hi hj => ?_⟩
    rw [← hW I J hi hj]
    have : (l.map fun p => if v p then e p I J else 0) = l.map fun _ => 0 :=
      List.map_congr_left fun p hp => by rw [hn p hp]; simp
    rw [this]; simp

theorem isCfg3 {a d b : Nat} {I : List Nat} (h : IsCfg [a, d, b] I) : ∃ x i y, I = [x, i, y] ∧ x < a ∧ i < d ∧ y < b := by
  cases h with
  | @cons x _ J _ hx h =>
  cases h with
  | @cons i _ J _ hi h =>
  cases h with
  | @cons y _ J _ hy h =>
  cases h
  exact ⟨x, i, y, rfl, hx, hi, hy⟩

theorem isCfg4 {a d e b : Nat} {I : List Nat} (h : IsCfg [a, d, e, b] I) : ∃ x i j y, I = [x, i, j, y] ∧ x < a ∧ i < d ∧ j < e ∧ y < b := by
  cases h with
  | @cons x _ J _ hx h =>
  obtain ⟨i, j, y, rfl, h1, h2, h3⟩ := isCfg3 h
  exact ⟨x, i, j, y, rfl, hx, h1, h2, h3⟩

theorem one_site_core {f : QForm R} {T : Tensor R} {a b a' b' c c' d : Nat} {EL ER : Nat → Nat → Nat → R}
    (hp : f.pairs.getD f.here [] = makePairs T) (hT : T.dims = [c, d, d, c'])
    (hl : ∀ α, α < c → EnvL ((f.mat.getD f.here []).getD α Tensor.empty) a b (fun x y => EL x α y))
    (hr : ∀ β, β < c' → EnvR ((f.mat.getD (f.here + 1) []).getD β Tensor.empty) a' b' (fun x y => ER x β y))
    (ha : 0 < a) (hb : 0 < b) (ha' : 0 < a') (hb' : 0 < b') (hd : 0 < d) :
    let W := fun I J : List Nat => eff1 EL T ER c c' (I.getD 0 0) (I.getD 1 0) (I.getD 2 0) (J.getD 0 0) (J.getD 1 0) (J.getD 2 0)
    let dI := [a, d, a']
    let dJ := [b, d, b']
    (f.singleSiteMatrix = Tensor.empty ∧ (∀ P, f.applyOneSite P = Tensor.empty) ∧ ∀ I J, IsCfg dI I → IsCfg dJ J → W I J = 0) ∨
    (f.singleSiteMatrix.dims = [dI.prod, dJ.prod] ∧
      (∀ I J, IsCfg dI I → IsCfg dJ J → f.singleSiteMatrix.get [flat dI I, flat dJ J] = W I J) ∧
      (∀ P, P.dims = dJ → (f.applyOneSite P).dims = dI ∧ ∀ I, IsCfg dI I → (f.applyOneSite P).get I = sumCfg dJ fun J => W I J * P.get J)) := by
  intro W dI dJ
  let ml := f.mat.getD f.here []
  let mr := f.mat.getD (f.here + 1) []
  have hc : ∀ p ∈ makePairs T, _ := fun p hp => env_cases hl hr ha hb ha' hb' (mem_makePairs hT hp).1 (mem_makePairs hT hp).2.1
  have := core_abstract (makePairs T) (valid1 ml mr) (fun p I J => (ml.getD p.left Tensor.empty).get [0, 0, I.getD 0 0, J.getD 0 0] *
      p.op.get [I.getD 1 0, J.getD 1 0] * (mr.getD p.right Tensor.empty).get [I.getD 2 0, J.getD 2 0, 0, 0])
    (fun p => qfCompose (ml.getD p.left Tensor.empty) p.op (mr.getD p.right Tensor.empty))
    (fun P p => fold (fold (reshape (ml.getD p.left Tensor.empty)
      [(ml.getD p.left Tensor.empty).dim 2, (ml.getD p.left Tensor.empty).dim 3]) 1 (foldin p.op (-1) P 1) 0) 2
      (reshape (mr.getD p.right Tensor.empty) [(mr.getD p.right Tensor.empty).dim 0, (mr.getD p.right Tensor.empty).dim 1]) 1)
    (fun p => ⟨[dI.prod], fun k => let I := unflat dI (k.getD 0 0); (ml.getD p.left Tensor.empty).get [0, 0, I.getD 0 0, I.getD 0 0] *
      p.op.get [I.getD 1 0, I.getD 1 0] * (mr.getD p.right Tensor.empty).get [I.getD 2 0, I.getD 2 0, 0, 0]⟩)
    (dI := dI) (dJ := dJ) W (by simp [dI]; omega) (by simp [dJ]; omega) ?_ ?_ ?_ ?_
  · unfold QForm.singleSiteMatrix QForm.applyOneSite
    simp only [sumPairs_eq, hp]
    rcases this with ⟨h1, h2, _, h4⟩ | ⟨h1, h2, h3, _⟩
    · exact Or.inl ⟨h1, h2, h4⟩
    · exact Or.inr ⟨h1, h2, h3⟩
  · intro I J hI hJ
    obtain ⟨x, i, x', rfl, hx, hi, hx'⟩ := isCfg3 hI
    obtain ⟨y, j, y', rfl, hy, hj, hy'⟩ := isCfg3 hJ
    simp only [W, List.getD_cons_zero, List.getD_cons_succ]
    have e : ((makePairs T).map fun p => if valid1 ml mr p then (ml.getD p.left Tensor.empty).get [0, 0, x, y] * p.op.get [i, j] *
        (mr.getD p.right Tensor.empty).get [x', y', 0, 0] else 0) = (makePairs T).map fun p => EL x p.left y * p.op.get [i, j] * ER x' p.right y' := by
      refine List.map_congr_left fun p hp => ?_
      by_cases hv : valid1 ml mr p = true
      · rw [if_pos hv]
        obtain ⟨_, _, h3, h4⟩ := (hc p hp).1 hv
        rw [h3 x y hx hy, h4 x' y' hx' hy']
      · rw [if_neg hv]
        have hv' : valid1 ml mr p = false := by simpa using hv
        exact ((hc p hp).2 hv' x y x' y' _ hx hy hx' hy').symm
    rw [e, sum_makePairs hT]
    · unfold eff1
      simp [Pair.new]
    · intro α β _ _ hz
      simp [Pair.new, hz i j hi hj]
  · intro p hp hv
    obtain ⟨h1, h2, _, _⟩ := (hc p hp).1 hv
    have := qfCompose_spec h1 h2 (mem_makePairs hT hp).2.2.1
    refine ⟨this.1 ha hb hd, fun I J hI hJ => ?_⟩
    obtain ⟨x, i, x', rfl, hx, hi, hx'⟩ := isCfg3 hI
    obtain ⟨y, j, y', rfl, hy, hj, hy'⟩ := isCfg3 hJ
    exact this.2 x i x' y j y' hx hi hx' hy hj hy'
  · intro P hP p hp hv
    obtain ⟨h1, h2, _, _⟩ := (hc p hp).1 hv
    have := applyOne_spec h1 h2 (mem_makePairs hT hp).2.2.1 hP
    refine ⟨this.1, fun I hI => ?_⟩
    obtain ⟨x, i, x', rfl, hx, hi, hx'⟩ := isCfg3 hI
    exact this.2 x i x' hx hi hx'
  · intro _ p hp hv
    refine ⟨rfl, fun I hI => ?_⟩
    simp only [List.getD_cons_zero]
    rw [unflat_flat hI]

/-! ### two sites -/

theorem kron2v_get {A B : Tensor R} {n m : Nat} (hA : A.dims = [n]) (hB : B.dims = [m]) {x y : Nat} (hx : x < n) :
    (kron2v A B).dims = [n * m] ∧ (kron2v A B).get [x + n * y] = A.get [x] * B.get [y] := by
  have e : A.dim 0 = n ∧ B.dim 0 = m := by simp [dim, hA, hB]
  obtain ⟨e1, e2⟩ := e
  refine ⟨by simp [kron2v, e1, e2], ?_⟩
  have h1 : (x + n * y) / n = y := by rw [Nat.add_mul_div_left _ _ (by omega), Nat.div_eq_of_lt hx, zero_add]
  have h2 : (x + n * y) % n = x := by rw [Nat.add_mul_mod_self_left, Nat.mod_eq_of_lt hx]
  simp [kron2v, e1, h1, h2]

/-- two pairs that follow each other, with both matrices present -/
def valid2 (ml mr : List (Tensor R)) (p : Pair R × Pair R) : Bool :=
  decide (p.1.right = p.2.left) && (!(ml.getD p.1.left Tensor.empty).isEmpty && !(mr.getD p.2.right Tensor.empty).isEmpty)

theorem sumPairs2_eq (f : QForm R) (i : Nat) (g : Pair R → Pair R → Tensor R → Tensor R → Tensor R) :
    f.sumPairs2 i g = ((f.pairs.getD i []).flatMap fun p1 => (f.pairs.getD (i + 1) []).map fun p2 => (p1, p2)).foldl (fun out p =>
      if valid2 (f.mat.getD i []) (f.mat.getD (i + 1 + 1) []) p then
      maybeAdd out (g p.1 p.2 ((f.mat.getD i []).getD p.1.left Tensor.empty) ((f.mat.getD (i + 1 + 1) []).getD p.2.right Tensor.empty)) else out)
      Tensor.empty := by
  unfold QForm.sumPairs2
  rw [List.foldl_flatMap]
  congr 1
  funext out p1
  rw [List.foldl_map]
  congr 1
  funext out p2
  unfold valid2
  by_cases h : p1.right = p2.left
  · simp [h]
  · simp [h]

theorem list_sum_flatMap_pairs {α : Type} (l m : List α) (g : α × α → R) :
    ((l.flatMap fun p => m.map fun q => (p, q)).map g).sum = (l.map fun p => (m.map fun q => g (p, q)).sum).sum := by
  induction l with
  | nil => rfl
  | cons p l ih =>
    rw [List.flatMap_cons, List.map_append, List.sum_append, ih, List.map_map]
    rfl

theorem two_site_core {f : QForm R} {n : Nat} {T1 T2 : Tensor R} {a b a' b' c c1 c' d d' : Nat} {EL ER : Nat → Nat → Nat → R}
    (hp1 : f.pairs.getD n [] = makePairs T1) (hp2 : f.pairs.getD (n + 1) [] = makePairs T2) (hT1 : T1.dims = [c, d, d, c1]) (hT2 : T2.dims = [c1, d', d', c'])
    (hl : ∀ α, α < c → EnvL ((f.mat.getD n []).getD α Tensor.empty) a b (fun x y => EL x α y))
    (hr : ∀ β, β < c' → EnvR ((f.mat.getD (n + 1 + 1) []).getD β Tensor.empty) a' b' (fun x y => ER x β y))
    (ha : 0 < a) (hb : 0 < b) (ha' : 0 < a') (hb' : 0 < b') (hd : 0 < d) (hd' : 0 < d') :
    let W := fun I J : List Nat => eff2 EL T1 T2 ER c c1 c' (I.getD 0 0) (I.getD 1 0) (I.getD 2 0) (I.getD 3 0)
      (J.getD 0 0) (J.getD 1 0) (J.getD 2 0) (J.getD 3 0)
    let dI := [a, d, d', a']
    let dJ := [b, d, d', b']
    let M := f.sumPairs2 n fun p1 p2 L Rt => qfCompose2 L p1.op p2.op Rt
    let A := fun P => f.sumPairs2 n fun p1 p2 L Rt =>
      fold (fold (reshape L [L.dim 2, L.dim 3]) 1 (foldin p1.op (-1) (foldin p2.op (-1) P 2) 1) 0) 3 (reshape Rt [Rt.dim 0, Rt.dim 1]) 1
    let D := f.sumPairs2 n fun p1 p2 L Rt => kron2v (kron2v (takeDiag (reshape L [L.dim 2, L.dim 3])) (takeDiag p1.op))
      (kron2v (takeDiag p2.op) (takeDiag (reshape Rt [Rt.dim 0, Rt.dim 1])))
    (M = Tensor.empty ∧ (∀ P, A P = Tensor.empty) ∧ D = Tensor.empty ∧ ∀ I J, IsCfg dI I → IsCfg dJ J → W I J = 0) ∨
    (M.dims = [dI.prod, dJ.prod] ∧ (∀ I J, IsCfg dI I → IsCfg dJ J → M.get [flat dI I, flat dJ J] = W I J) ∧
      (∀ P, P.dims = dJ → (A P).dims = dI ∧ ∀ I, IsCfg dI I → (A P).get I = sumCfg dJ fun J => W I J * P.get J) ∧
      (dI = dJ → D.dims = [dI.prod] ∧ ∀ I, IsCfg dI I → D.get [flat dI I] = W I I)) := by
  intro W dI dJ M A D
  let ml := f.mat.getD n []
  let mr := f.mat.getD (n + 1 + 1) []
  have hmem : ∀ p ∈ ((makePairs T1).flatMap fun p1 => (makePairs T2).map fun p2 => (p1, p2)), p.1 ∈ makePairs T1 ∧ p.2 ∈ makePairs T2 := by
    intro p hp
    rw [List.mem_flatMap] at hp
    obtain ⟨p1, h1, hp⟩ := hp
    rw [List.mem_map] at hp
    obtain ⟨p2, h2, rfl⟩ := hp
    exact ⟨h1, h2⟩
  have hc : ∀ p1 ∈ makePairs T1, ∀ p2 ∈ makePairs T2, _ := fun p1 h1 p2 h2 =>
    env_cases hl hr ha hb ha' hb' (mem_makePairs hT1 h1).1 (mem_makePairs hT2 h2).2.1
  have hval : ∀ p, valid2 ml mr p = true → (!(ml.getD p.1.left Tensor.empty).isEmpty && !(mr.getD p.2.right Tensor.empty).isEmpty) = true := by
    intro p hv
    unfold valid2 at hv
    rw [Bool.and_eq_true] at hv
    exact hv.2
  have := core_abstract ((makePairs T1).flatMap fun p1 => (makePairs T2).map fun p2 => (p1, p2)) (valid2 ml mr)
    (fun p I J => (ml.getD p.1.left Tensor.empty).get [0, 0, I.getD 0 0, J.getD 0 0] *
      (p.1.op.get [I.getD 1 0, J.getD 1 0] * p.2.op.get [I.getD 2 0, J.getD 2 0]) * (mr.getD p.2.right Tensor.empty).get [I.getD 3 0, J.getD 3 0, 0, 0])
    (fun p => qfCompose2 (ml.getD p.1.left Tensor.empty) p.1.op p.2.op (mr.getD p.2.right Tensor.empty))
    (fun P p => fold (fold (reshape (ml.getD p.1.left Tensor.empty)
      [(ml.getD p.1.left Tensor.empty).dim 2, (ml.getD p.1.left Tensor.empty).dim 3]) 1 (foldin p.1.op (-1) (foldin p.2.op (-1) P 2) 1) 0) 3
      (reshape (mr.getD p.2.right Tensor.empty) [(mr.getD p.2.right Tensor.empty).dim 0, (mr.getD p.2.right Tensor.empty).dim 1]) 1)
    (fun p => kron2v (kron2v (takeDiag (reshape (ml.getD p.1.left Tensor.empty)
      [(ml.getD p.1.left Tensor.empty).dim 2, (ml.getD p.1.left Tensor.empty).dim 3])) (takeDiag p.1.op))
      (kron2v (takeDiag p.2.op) (takeDiag (reshape (mr.getD p.2.right Tensor.empty)
        [(mr.getD p.2.right Tensor.empty).dim 0, (mr.getD p.2.right Tensor.empty).dim 1]))))
    (dI := dI) (dJ := dJ) W (by simp [dI]; omega) (by simp [dJ]; omega) ?_ ?_ ?_ ?_
  · simp only [M, A, D]
    simp only [sumPairs2_eq, hp1, hp2]
    exact this
  · intro I J hI hJ
    obtain ⟨x, i, i', x', rfl, hx, hi, hi', hx'⟩ := isCfg4 hI
    obtain ⟨y, j, j', y', rfl, hy, hj, hj', hy'⟩ := isCfg4 hJ
    simp only [W, List.getD_cons_zero, List.getD_cons_succ]
    rw [list_sum_flatMap_pairs]
    have e : ∀ p1 ∈ makePairs T1, ((makePairs T2).map fun p2 => if valid2 ml mr (p1, p2) then (ml.getD p1.left Tensor.empty).get [0, 0, x, y] *
        (p1.op.get [i, j] * p2.op.get [i', j']) * (mr.getD p2.right Tensor.empty).get [x', y', 0, 0] else 0).sum =
        ∑ γ ∈ Finset.range c1, ∑ β ∈ Finset.range c', if p1.right = γ then EL x p1.left y * (p1.op.get [i, j] * T2.get [γ, i', j', β]) * ER x' β y' else 0 := by
      intro p1 h1
      have e1 : ((makePairs T2).map fun p2 => if valid2 ml mr (p1, p2) then (ml.getD p1.left Tensor.empty).get [0, 0, x, y] *
          (p1.op.get [i, j] * p2.op.get [i', j']) * (mr.getD p2.right Tensor.empty).get [x', y', 0, 0] else 0) =
          (makePairs T2).map fun p2 => if p1.right = p2.left then EL x p1.left y * (p1.op.get [i, j] * p2.op.get [i', j']) * ER x' p2.right y' else 0 := by
        refine List.map_congr_left fun p2 h2 => ?_
        have hcp := hc p1 h1 p2 h2
        by_cases hr : p1.right = p2.left
        · rw [if_pos hr]
          by_cases hv : (!(ml.getD p1.left Tensor.empty).isEmpty && !(mr.getD p2.right Tensor.empty).isEmpty) = true
          · rw [if_pos (by unfold valid2; simp only [hr, decide_true, hv, Bool.and_self])]
            obtain ⟨_, _, h3, h4⟩ := hcp.1 hv
            rw [h3 x y hx hy, h4 x' y' hx' hy']
          · have hv' : (!(ml.getD p1.left Tensor.empty).isEmpty && !(mr.getD p2.right Tensor.empty).isEmpty) = false := by
              rw [Bool.not_eq_true] at hv; exact hv
            rw [if_neg (by unfold valid2; simp only [hv', Bool.and_false]; simp)]
            exact (hcp.2 hv' x y x' y' _ hx hy hx' hy').symm
        · rw [if_neg hr, if_neg (by unfold valid2; simp [hr])]
      rw [e1, sum_makePairs hT2]
      · simp [Pair.new]
      · intro γ β _ _ hz
        simp [Pair.new, hz i' j' hi' hj']
    rw [List.map_congr_left e, sum_makePairs hT1]
    · unfold eff2
      refine Finset.sum_congr rfl fun α _ => ?_
      rw [Finset.sum_comm]
      simp only [Finset.mul_sum, Finset.sum_mul]
      conv_rhs => rw [Finset.sum_comm]
      rw [Finset.sum_comm]
      have : ∀ γ ∈ Finset.range c1, ∑ γ' ∈ Finset.range c1, ∑ β ∈ Finset.range c', (if (Pair.new α γ' T1).right = γ then
          EL x (Pair.new α γ' T1).left y * ((Pair.new α γ' T1).op.get [i, j] * T2.get [γ, i', j', β]) * ER x' β y' else 0) =
          ∑ β ∈ Finset.range c', EL x α y * (T1.get [α, i, j, γ] * T2.get [γ, i', j', β]) * ER x' β y' := by
        intro γ hγ
        rw [Finset.sum_eq_single γ]
        · refine Finset.sum_congr rfl fun β _ => ?_
          simp [Pair.new]
        · intro γ' _ hne
          refine Finset.sum_eq_zero fun β _ => ?_
          rw [if_neg (by simpa [Pair.new] using hne)]
        · intro h; exact absurd hγ h
      rw [← Finset.sum_congr rfl this]
      rw [Finset.sum_comm]
    · intro α γ _ _ hz
      refine Finset.sum_eq_zero fun γ' _ => Finset.sum_eq_zero fun β _ => ?_
      simp [Pair.new, hz i j hi hj]
  · intro p hp hv
    obtain ⟨m1, m2⟩ := hmem p hp
    obtain ⟨h1, h2, _, _⟩ := (hc p.1 m1 p.2 m2).1 (hval p hv)
    have := qfCompose2_spec h1 h2 (mem_makePairs hT1 m1).2.2.1 (mem_makePairs hT2 m2).2.2.1
    refine ⟨this.1 ha hb hd hd', fun I J hI hJ => ?_⟩
    obtain ⟨x, i, i', x', rfl, hx, hi, hi', hx'⟩ := isCfg4 hI
    obtain ⟨y, j, j', y', rfl, hy, hj, hj', hy'⟩ := isCfg4 hJ
    exact this.2 x i i' x' y j j' y' hx hi hi' hx' hy hj hj' hy'
  · intro P hP p hp hv
    obtain ⟨m1, m2⟩ := hmem p hp
    obtain ⟨h1, h2, _, _⟩ := (hc p.1 m1 p.2 m2).1 (hval p hv)
    have := applyTwo_spec h1 h2 (mem_makePairs hT1 m1).2.2.1 (mem_makePairs hT2 m2).2.2.1 hP
    refine ⟨this.1, fun I hI => ?_⟩
    obtain ⟨x, i, i', x', rfl, hx, hi, hi', hx'⟩ := isCfg4 hI
    exact this.2 x i i' x' hx hi hi' hx'
  · intro hIJ p hp hv
    obtain ⟨m1, m2⟩ := hmem p hp
    obtain ⟨h1, h2, _, _⟩ := (hc p.1 m1 p.2 m2).1 (hval p hv)
    have o1 := (mem_makePairs hT1 m1).2.2.1
    have o2 := (mem_makePairs hT2 m2).2.2.1
    obtain ⟨_, _, l2, l3⟩ := dim_of4 h1
    obtain ⟨r0, r1, _, _⟩ := dim_of4 h2
    have hab : a = b ∧ a' = b' := by
      have : [a, d, d', a'] = [b, d, d', b'] := hIJ
      simp only [List.cons.injEq, and_true, true_and] at this
      exact this
    obtain ⟨rfl, rfl⟩ := hab
    have l2' : (ml.getD p.1.left Tensor.empty).dim 2 = a := l2
    have l3' : (ml.getD p.1.left Tensor.empty).dim 3 = a := l3
    have r0' : (mr.getD p.2.right Tensor.empty).dim 0 = a' := r0
    have r1' : (mr.getD p.2.right Tensor.empty).dim 1 = a' := r1
    simp only [l2', l3', r0', r1']
    have tl : (takeDiag (reshape (ml.getD p.1.left Tensor.empty) [a, a])).dims = [a] := by simp [takeDiag, dim]
    have t1 : (takeDiag p.1.op).dims = [d] := by simp [takeDiag, dim, o1]
    have t2 : (takeDiag p.2.op).dims = [d'] := by simp [takeDiag, dim, o2]
    have tr : (takeDiag (reshape (mr.getD p.2.right Tensor.empty) [a', a'])).dims = [a'] := by simp [takeDiag, dim]
    have k1 := fun (x i : Nat) (hx : x < a) => kron2v_get tl t1 hx (y := i)
    have k2 := fun (x i : Nat) (hx : x < d') => kron2v_get t2 tr hx (y := i)
    have k3 := fun (x i : Nat) (hx : x < a * d) => kron2v_get (k1 0 0 ha).1 (k2 0 0 hd').1 hx (y := i)
    refine ⟨by rw [(k3 0 0 (Nat.mul_pos ha hd)).1]; simp [dI, mul_assoc], fun I hI => ?_⟩
    obtain ⟨x, i, i', x', rfl, hx, hi, hi', hx'⟩ := isCfg4 hI
    have e : flat dI [x, i, i', x'] = (x + a * i) + (a * d) * (i' + d' * x') := by simp [dI, flat]; ring
    rw [e, (k3 _ _ (add_mul_lt hx hi)).2, (k1 x i hx).2, (k2 i' x' hi').2]
    simp only [takeDiag, List.getD_cons_zero, List.getD_cons_succ]
    rw [mat2_left h1 hx hx, mat2_right h2 hx' hx']
    ring

end MPS.Form
