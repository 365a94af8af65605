import Verif.FormLemmas2
import Verif.MPOLemmas

set_option linter.unusedSectionVars false
set_option linter.unusedSimpArgs false

/-! # Helper lemmas for quadratic forms: the environments -/

namespace MPS.Form
open MPS Tensor
variable {R : Type} [CommRing R] [StarRing R]

/-- contraction of a segment of bra, operator and ket between given values of the outer bonds -/
def envG (Q O P : List (Tensor R)) (ds : List Nat) (u γ v x α y : Nat) : R :=
  sumCfg ds fun s => sumCfg ds fun t => star (path Q s u x) * opPath O s t γ α * path P t v y

theorem envG_append {Q1 Q2 O1 O2 P1 P2 : List (Tensor R)} {d1 d2 : List Nat} {a0 a c0 c b0 b : Nat}
    (hQ : WF a0 Q1 d1 a) (hO : WFO c0 O1 d1 c) (hP : WF b0 P1 d1 b) {u γ v : Nat} (hu : u < a0) (hγ : γ < c0) (hv : v < b0) (z β w : Nat) :
    envG (Q1 ++ Q2) (O1 ++ O2) (P1 ++ P2) (d1 ++ d2) u γ v z β w =
      ∑ x ∈ Finset.range a, ∑ α ∈ Finset.range c, ∑ y ∈ Finset.range b,
        envG Q1 O1 P1 d1 u γ v x α y * envG Q2 O2 P2 d2 x α y z β w := by
  unfold envG
  rw [sumCfg_append]
  have e1 : ∀ s, IsCfg d1 s → (sumCfg d2 fun s' => sumCfg (d1 ++ d2) fun t =>
      star (path (Q1 ++ Q2) (s ++ s') u z) * opPath (O1 ++ O2) (s ++ s') t γ β * path (P1 ++ P2) t v w) =
      ∑ x ∈ Finset.range a, ∑ α ∈ Finset.range c, ∑ y ∈ Finset.range b,
        (sumCfg d1 fun t => star (path Q1 s u x) * opPath O1 s t γ α * path P1 t v y) *
        (sumCfg d2 fun s' => sumCfg d2 fun t' => star (path Q2 s' x z) * opPath O2 s' t' α β * path P2 t' y w) := by
    intro s hs
    have e2 : ∀ s', IsCfg d2 s' → (sumCfg (d1 ++ d2) fun t =>
      star (path (Q1 ++ Q2) (s ++ s') u z) * opPath (O1 ++ O2) (s ++ s') t γ β * path (P1 ++ P2) t v w) =
      ∑ x ∈ Finset.range a, ∑ α ∈ Finset.range c, ∑ y ∈ Finset.range b,
        (sumCfg d1 fun t => star (path Q1 s u x) * opPath O1 s t γ α * path P1 t v y) *
        (sumCfg d2 fun t' => star (path Q2 s' x z) * opPath O2 s' t' α β * path P2 t' y w) := by
      intro s' hs'
      rw [sumCfg_append]
      have e3 : ∀ t, IsCfg d1 t → ∀ t', IsCfg d2 t' →
          star (path (Q1 ++ Q2) (s ++ s') u z) * opPath (O1 ++ O2) (s ++ s') (t ++ t') γ β * path (P1 ++ P2) (t ++ t') v w =
          ∑ x ∈ Finset.range a, ∑ α ∈ Finset.range c, ∑ y ∈ Finset.range b,
            (star (path Q1 s u x) * opPath O1 s t γ α * path P1 t v y) * (star (path Q2 s' x z) * opPath O2 s' t' α β * path P2 t' y w) := by
        intro t ht t' ht'
        rw [path_append hQ (by rw [hs.length, hQ.length]) hu, path_append hP (by rw [ht.length, hP.length]) hv,
          opPath_append hO hs.length ht.length hγ, star_sum, Finset.sum_mul_sum, Finset.sum_mul]
        refine Finset.sum_congr rfl fun x _ => ?_
        rw [Finset.sum_mul]
        refine Finset.sum_congr rfl fun α _ => ?_
        rw [Finset.mul_sum]
        refine Finset.sum_congr rfl fun y _ => ?_
        rw [star_mul']
        ring
      have e4 : ∀ t, IsCfg d1 t → (sumCfg d2 fun t' =>
          star (path (Q1 ++ Q2) (s ++ s') u z) * opPath (O1 ++ O2) (s ++ s') (t ++ t') γ β * path (P1 ++ P2) (t ++ t') v w) =
          ∑ x ∈ Finset.range a, ∑ α ∈ Finset.range c, ∑ y ∈ Finset.range b,
            (star (path Q1 s u x) * opPath O1 s t γ α * path P1 t v y) *
            sumCfg d2 fun t' => (star (path Q2 s' x z) * opPath O2 s' t' α β * path P2 t' y w) := by
        intro t ht
        rw [sumCfg_congr fun t' ht' => e3 t ht t' ht']
        simp only [sumCfg_sum]
        refine Finset.sum_congr rfl fun x _ => Finset.sum_congr rfl fun α _ => Finset.sum_congr rfl fun y _ => ?_
        rw [← sumCfg_mul_left]
      rw [sumCfg_congr e4]
      simp only [sumCfg_sum]
      refine Finset.sum_congr rfl fun x _ => Finset.sum_congr rfl fun α _ => Finset.sum_congr rfl fun y _ => ?_
      rw [← sumCfg_mul_right]
    rw [sumCfg_congr e2]
    simp only [sumCfg_sum]
    refine Finset.sum_congr rfl fun x _ => Finset.sum_congr rfl fun α _ => Finset.sum_congr rfl fun y _ => ?_
    rw [← sumCfg_mul_left]
  rw [sumCfg_congr e1]
  simp only [sumCfg_sum]
  refine Finset.sum_congr rfl fun x _ => Finset.sum_congr rfl fun α _ => Finset.sum_congr rfl fun y _ => ?_
  rw [← sumCfg_mul_right]

theorem envG_single {B T X : Tensor R} {a d a' c c' b b' : Nat} (hB : B.dims = [a, d, a']) (hT : T.dims = [c, d, d, c'])
    (hX : X.dims = [b, d, b']) {x α y x' β y' : Nat} (hx : x' < a') (hβ : β < c') (hy : y' < b') :
    envG [B] [T] [X] [d] x α y x' β y' =
      ∑ i ∈ Finset.range d, ∑ j ∈ Finset.range d, star (B.get [x, i, x']) * T.get [α, i, j, β] * X.get [y, j, y'] := by
  unfold envG
  simp only [sumCfg_single]
  refine Finset.sum_congr rfl fun i _ => Finset.sum_congr rfl fun j _ => ?_
  rw [path_single hB hx, path_single hX hy, opPath_single hT hβ]

/-- an open chain: `⟨bra|O|ket⟩` -/
theorem expect_envG {Q O P : List (Tensor R)} {ds : List Nat} (hQ : WF 1 Q ds 1) (hO : WFO 1 O ds 1) (hP : WF 1 P ds 1) (hne : ds ≠ []) :
    MPS.inner ds (amp Q) (actOp ds (opElt O) (amp P)) = envG Q O P ds 0 0 0 0 0 0 := by
  have n1 : Q ≠ [] := by rintro rfl; have := hQ.length; exact hne (List.length_eq_zero_iff.1 this.symm)
  have n2 : O ≠ [] := by rintro rfl; have := hO.length; exact hne (List.length_eq_zero_iff.1 this.symm)
  have n3 : P ≠ [] := by rintro rfl; have := hP.length; exact hne (List.length_eq_zero_iff.1 this.symm)
  unfold MPS.inner actOp envG
  refine sumCfg_congr fun s _ => ?_
  rw [← sumCfg_mul_left]
  refine sumCfg_congr fun t _ => ?_
  rw [amp_open hQ n1, amp_open hP n3, opElt_of_WFO hO n2]
  simp [mul_assoc]

/-! ### one cached matrix -/

/-- a cached left matrix holds `F`; it may be empty if `F` vanishes -/
def EnvL (M : Tensor R) (a b : Nat) (F : Nat → Nat → R) : Prop :=
  (M.isEmpty = true ∧ ∀ x y, x < a → y < b → F x y = 0) ∨
  (M.dims = [1, 1, a, b] ∧ ∀ x y, x < a → y < b → M.get [0, 0, x, y] = F x y)

/-- a cached right matrix holds `F`; it may be empty if `F` vanishes -/
def EnvR (M : Tensor R) (a b : Nat) (F : Nat → Nat → R) : Prop :=
  (M.isEmpty = true ∧ ∀ x y, x < a → y < b → F x y = 0) ∨
  (M.dims = [a, b, 1, 1] ∧ ∀ x y, x < a → y < b → M.get [x, y, 0, 0] = F x y)

theorem EnvL.congr {M : Tensor R} {a b : Nat} {F G : Nat → Nat → R} (h : EnvL M a b F) (hFG : ∀ x y, x < a → y < b → F x y = G x y) :
    EnvL M a b G := by
  rcases h with ⟨h1, h2⟩ | ⟨h1, h2⟩
  · exact Or.inl ⟨h1, fun x y hx hy => by rw [← hFG x y hx hy, h2 x y hx hy]⟩
  · exact Or.inr ⟨h1, fun x y hx hy => by rw [← hFG x y hx hy, h2 x y hx hy]⟩

theorem EnvR.congr {M : Tensor R} {a b : Nat} {F G : Nat → Nat → R} (h : EnvR M a b F) (hFG : ∀ x y, x < a → y < b → F x y = G x y) :
    EnvR M a b G := by
  rcases h with ⟨h1, h2⟩ | ⟨h1, h2⟩
  · exact Or.inl ⟨h1, fun x y hx hy => by rw [← hFG x y hx hy, h2 x y hx hy]⟩
  · exact Or.inr ⟨h1, fun x y hx hy => by rw [← hFG x y hx hy, h2 x y hx hy]⟩

theorem notEmpty_dims {M : Tensor R} {dm : List Nat} (h : M.dims = dm) (h0 : dm.prod ≠ 0) : M.isEmpty = false := by
  simp only [isEmpty, size, h]; simpa using h0

theorem EnvL.add {M T : Tensor R} {a b : Nat} {F G : Nat → Nat → R} (h : EnvL M a b F) (ha : 0 < a) (hb : 0 < b)
    (hT : T.dims = [1, 1, a, b]) (hG : ∀ x y, x < a → y < b → T.get [0, 0, x, y] = G x y) :
    EnvL (maybeAdd M T) a b (fun x y => F x y + G x y) := by
  unfold maybeAdd
  rcases h with ⟨h1, h2⟩ | ⟨h1, h2⟩
  · rw [if_pos h1]
    exact Or.inr ⟨hT, fun x y hx hy => by beta_reduce; rw [hG x y hx hy, h2 x y hx hy, zero_add]⟩
  · rw [notEmpty_dims h1 (by simp; omega), if_neg (by simp)]
    exact Or.inr ⟨h1, fun x y hx hy => by simp only [Tensor.add]; rw [hG x y hx hy, h2 x y hx hy]⟩

theorem EnvR.add {M T : Tensor R} {a b : Nat} {F G : Nat → Nat → R} (h : EnvR M a b F) (ha : 0 < a) (hb : 0 < b)
    (hT : T.dims = [a, b, 1, 1]) (hG : ∀ x y, x < a → y < b → T.get [x, y, 0, 0] = G x y) :
    EnvR (maybeAdd M T) a b (fun x y => F x y + G x y) := by
  unfold maybeAdd
  rcases h with ⟨h1, h2⟩ | ⟨h1, h2⟩
  · rw [if_pos h1]
    exact Or.inr ⟨hT, fun x y hx hy => by beta_reduce; rw [hG x y hx hy, h2 x y hx hy, zero_add]⟩
  · rw [notEmpty_dims h1 (by simp; omega), if_neg (by simp)]
    exact Or.inr ⟨h1, fun x y hx hy => by simp only [Tensor.add]; rw [hG x y hx hy, h2 x y hx hy]⟩

theorem propMatrix_right' {M B X op : Tensor R} {a b a' b' d : Nat} (hM : M.dims = [1, 1, a, b]) (hne : M.isEmpty = false)
    (hB : B.dims = [a, d, a']) (hX : X.dims = [b, d, b']) (hop : op.dims = [d, d]) :
    (propMatrix M 1 B X (some op)).dims = [1, 1, a', b'] ∧ ∀ x y, x < a' → y < b' → (propMatrix M 1 B X (some op)).get [0, 0, x, y] =
      ∑ x1 ∈ Finset.range a, ∑ y1 ∈ Finset.range b, M.get [0, 0, x1, y1] *
        ∑ i ∈ Finset.range d, ∑ j ∈ Finset.range d, star (B.get [x1, i, x]) * op.get [i, j] * X.get [y1, j, y] := by
  have hok : OpOk d (some op) := fun o h => by obtain rfl := Option.some.inj h; exact hop
  have e : propMatrix M 1 B X (some op) = propRight4 M B X (some op) := by
    simp [propMatrix, propRight, hne, Tensor.rank, hM]
  rw [e]
  refine ⟨propRight4_dims hM hB hX hok, fun x y hx hy => ?_⟩
  rw [propRight4_get hM hB hX hok (by omega) (by omega) hx hy]
  refine Finset.sum_congr rfl fun x1 _ => Finset.sum_congr rfl fun y1 _ => ?_
  congr 1
  refine Finset.sum_congr rfl fun i _ => ?_
  rw [actT_get_some hop hX, Finset.mul_sum]
  refine Finset.sum_congr rfl fun j _ => ?_
  ring

theorem propMatrix_left' {M B X op : Tensor R} {a b a' b' d : Nat} (hM : M.dims = [a', b', 1, 1]) (hne : M.isEmpty = false)
    (hB : B.dims = [a, d, a']) (hX : X.dims = [b, d, b']) (hop : op.dims = [d, d]) :
    (propMatrix M (-1) B X (some op)).dims = [a, b, 1, 1] ∧ ∀ x y, x < a → y < b → (propMatrix M (-1) B X (some op)).get [x, y, 0, 0] =
      ∑ x1 ∈ Finset.range a', ∑ y1 ∈ Finset.range b', (∑ i ∈ Finset.range d, ∑ j ∈ Finset.range d,
        star (B.get [x, i, x1]) * op.get [i, j] * X.get [y, j, y1]) * M.get [x1, y1, 0, 0] := by
  have hok : OpOk d (some op) := fun o h => by obtain rfl := Option.some.inj h; exact hop
  have e : propMatrix M (-1) B X (some op) = propLeft4 M B X (some op) := by
    simp [propMatrix, propLeft, hne, Tensor.rank, hM]
  rw [e]
  refine ⟨propLeft4_dims hM hB hX hok, fun x y hx hy => ?_⟩
  rw [propLeft4_get hM hB hX hok hx hy (by omega) (by omega)]
  refine Finset.sum_congr rfl fun x1 _ => Finset.sum_congr rfl fun y1 _ => ?_
  congr 1
  refine Finset.sum_congr rfl fun i _ => ?_
  rw [actT_get_some hop hX, Finset.mul_sum]
  refine Finset.sum_congr rfl fun j _ => ?_
  ring

/-! ### sums over the pairs -/

theorem list_sum_range (n : Nat) (g : Nat → R) : ((List.range n).map g).sum = ∑ i ∈ Finset.range n, g i := by
  induction n with
  | zero => rfl
  | succ n ih => rw [List.range_succ, List.map_append, List.sum_append, ih, Finset.sum_range_succ]; simp

theorem list_sum_filter {α : Type} (l : List α) (q : α → Bool) (g : α → R) (h : ∀ p ∈ l, q p = false → g p = 0) :
    ((l.filter q).map g).sum = (l.map g).sum := by
  induction l with
  | nil => rfl
  | cons p l ih =>
    rw [List.filter_cons]
    cases hq : q p with
    | true => simp only [if_true, List.map_cons, List.sum_cons, ih fun p' hp' => h p' (by simp [hp'])]
    | false =>
      simp only [Bool.false_eq_true, if_false, List.map_cons, List.sum_cons, ih fun p' hp' => h p' (by simp [hp']),
        h p (by simp) hq, zero_add]

theorem list_sum_flatMap {α : Type} (n : Nat) (h : Nat → List α) (g : α → R) :
    (((List.range n).flatMap h).map g).sum = ∑ i ∈ Finset.range n, ((h i).map g).sum := by
  induction n with
  | zero => rfl
  | succ n ih =>
    rw [List.range_succ, List.flatMap_append, List.map_append, List.sum_append, ih, Finset.sum_range_succ]
    simp

section pairs
variable [DecidableEq R]

/-- a function of the pairs that vanishes when the operator vanishes, summed over the nonzero pairs of a tensor -/
theorem sum_makePairs {T : Tensor R} {c d c' : Nat} (hT : T.dims = [c, d, d, c']) (g : Pair R → R)
    (hz : ∀ i j, i < c → j < c' → (∀ x y, x < d → y < d → T.get [i, x, y, j] = 0) → g (Pair.new i j T) = 0) :
    ((makePairs T).map g).sum = ∑ i ∈ Finset.range c, ∑ j ∈ Finset.range c', g (Pair.new i j T) := by
  obtain ⟨t0, t1, t2, t3⟩ := dim_of4 hT
  unfold makePairs
  rw [list_sum_filter]
  · rw [list_sum_flatMap, t0]
    refine Finset.sum_congr rfl fun i _ => ?_
    rw [List.map_map, t3]
    exact list_sum_range c' _
  · intro p hp hq
    rw [List.mem_flatMap] at hp
    obtain ⟨i, hi, hp⟩ := hp
    rw [List.mem_map] at hp
    obtain ⟨j, hj, rfl⟩ := hp
    rw [List.mem_range] at hi hj
    refine hz i j (by omega) (by omega) fun x y hx hy => ?_
    have : (Pair.new i j T).isZero = true := by simpa using hq
    unfold Pair.isZero at this
    rw [List.all_eq_true] at this
    have h1 := this x (by simp [Pair.new, dim, hT, hx])
    rw [List.all_eq_true] at h1
    have h2 := h1 y (by simp [Pair.new, dim, hT, hy])
    simpa [Pair.new] using h2

theorem mem_makePairs {T : Tensor R} {c d c' : Nat} (hT : T.dims = [c, d, d, c']) {p : Pair R} (hp : p ∈ makePairs T) :
    p.left < c ∧ p.right < c' ∧ p.op.dims = [d, d] ∧ ∀ x y, p.op.get [x, y] = T.get [p.left, x, y, p.right] := by
  obtain ⟨t0, t1, t2, t3⟩ := dim_of4 hT
  unfold makePairs at hp
  rw [List.mem_filter, List.mem_flatMap] at hp
  obtain ⟨⟨i, hi, hp⟩, _⟩ := hp
  rw [List.mem_map] at hp
  obtain ⟨j, hj, rfl⟩ := hp
  rw [List.mem_range] at hi hj
  exact ⟨by simpa [Pair.new, t0] using hi, by simpa [Pair.new, t3] using hj, by simp [Pair.new, t1, t2], fun x y => by simp [Pair.new]⟩

/-- contribution of a pair to the contraction of one more site -/
def pairTerm (B X : Tensor R) (d : Nat) (p : Pair R) (x1 y1 x y : Nat) : R :=
  ∑ i ∈ Finset.range d, ∑ j ∈ Finset.range d, star (B.get [x1, i, x]) * p.op.get [i, j] * X.get [y1, j, y]

theorem rightFold {ml : List (Tensor R)} {B X : Tensor R} {a b a' b' d c : Nat} {F : Nat → Nat → Nat → R}
    (hB : B.dims = [a, d, a']) (hX : X.dims = [b, d, b']) (ha : 0 < a) (hb : 0 < b) (ha' : 0 < a') (hb' : 0 < b')
    (hml : ∀ α, α < c → EnvL (ml.getD α Tensor.empty) a b (F α)) (l : List (Pair R))
    (hl : ∀ p ∈ l, p.left < c ∧ p.op.dims = [d, d]) (acc : List (Tensor R)) (S : Nat → Nat → Nat → R)
    (hr : ∀ p ∈ l, p.right < acc.length) (hacc : ∀ β, β < acc.length → EnvL (acc.getD β Tensor.empty) a' b' (S β)) :
    (l.foldl (qfRightStep ml B X) acc).length = acc.length ∧
    ∀ β, β < acc.length → EnvL ((l.foldl (qfRightStep ml B X) acc).getD β Tensor.empty) a' b' (fun x y => S β x y +
      (l.map fun p => if p.right = β then ∑ x1 ∈ Finset.range a, ∑ y1 ∈ Finset.range b, F p.left x1 y1 * pairTerm B X d p x1 y1 x y else 0).sum) := by
  induction l generalizing acc S with
  | nil => exact ⟨rfl, fun β hβ => by simpa using hacc β hβ⟩
  | cons p l ih =>
    simp only [List.foldl_cons]
    have hp := hl p (by simp)
    have hpr := hr p (by simp)
    have hstep : (qfRightStep ml B X acc p).length = acc.length ∧ ∀ β, β < acc.length →
        EnvL ((qfRightStep ml B X acc p).getD β Tensor.empty) a' b' (fun x y => S β x y +
          if p.right = β then ∑ x1 ∈ Finset.range a, ∑ y1 ∈ Finset.range b, F p.left x1 y1 * pairTerm B X d p x1 y1 x y else 0) := by
      unfold qfRightStep
      rcases hml p.left hp.1 with ⟨h1, h2⟩ | ⟨h1, h2⟩
      · rw [if_pos h1]
        refine ⟨rfl, fun β hβ => (hacc β hβ).congr fun x y hx hy => ?_⟩
        have : ∑ x1 ∈ Finset.range a, ∑ y1 ∈ Finset.range b, F p.left x1 y1 * pairTerm B X d p x1 y1 x y = 0 :=
          Finset.sum_eq_zero fun x1 hx1 => Finset.sum_eq_zero fun y1 hy1 => by
            rw [h2 x1 y1 (Finset.mem_range.1 hx1) (Finset.mem_range.1 hy1), zero_mul]
        rw [this]; simp
      · have hne := notEmpty_dims h1 (by simp; omega)
        rw [if_neg (by simp only [hne]; simp)]
        refine ⟨by simp, fun β hβ => ?_⟩
        obtain ⟨g1, g2⟩ := propMatrix_right' h1 hne hB hX hp.2
        by_cases hpb : p.right = β
        · subst hpb
          rw [show (acc.set p.right (maybeAdd (acc.getD p.right Tensor.empty) (propMatrix (ml.getD p.left Tensor.empty) 1 B X (some p.op)))).getD
            p.right Tensor.empty = maybeAdd (acc.getD p.right Tensor.empty) (propMatrix (ml.getD p.left Tensor.empty) 1 B X (some p.op)) by
              simp [hpr]]
          simp only [if_true]
          refine (hacc p.right hpr).add ha' hb' g1 fun x y hx hy => ?_
          rw [g2 x y hx hy]
          refine Finset.sum_congr rfl fun x1 hx1 => Finset.sum_congr rfl fun y1 hy1 => ?_
          rw [h2 x1 y1 (Finset.mem_range.1 hx1) (Finset.mem_range.1 hy1)]
          rfl
        · rw [show (acc.set p.right (maybeAdd (acc.getD p.right Tensor.empty) (propMatrix (ml.getD p.left Tensor.empty) 1 B X (some p.op)))).getD
            β Tensor.empty = acc.getD β Tensor.empty by simp [List.getElem?_set, hpb]]
          exact (hacc β hβ).congr fun x y _ _ => by simp [hpb]
    obtain ⟨s1, s2⟩ := hstep
    obtain ⟨i1, i2⟩ := ih (fun p' h' => hl p' (by simp [h'])) (qfRightStep ml B X acc p) _ (fun p' h' => by rw [s1]; exact hr p' (by simp [h']))
      (fun β hβ => s2 β (by omega))
    refine ⟨by rw [i1, s1], fun β hβ => (i2 β (by omega)).congr fun x y _ _ => ?_⟩
    simp only [List.map_cons, List.sum_cons]
    ring

theorem leftFold {mr : List (Tensor R)} {B X : Tensor R} {a b a' b' d c : Nat} {F : Nat → Nat → Nat → R}
    (hB : B.dims = [a, d, a']) (hX : X.dims = [b, d, b']) (ha : 0 < a) (hb : 0 < b) (ha' : 0 < a') (hb' : 0 < b')
    (hmr : ∀ α, α < c → EnvR (mr.getD α Tensor.empty) a' b' (F α)) (l : List (Pair R))
    (hl : ∀ p ∈ l, p.right < c ∧ p.op.dims = [d, d]) (acc : List (Tensor R)) (S : Nat → Nat → Nat → R)
    (hr : ∀ p ∈ l, p.left < acc.length) (hacc : ∀ β, β < acc.length → EnvR (acc.getD β Tensor.empty) a b (S β)) :
    (l.foldl (qfLeftStep mr B X) acc).length = acc.length ∧
    ∀ β, β < acc.length → EnvR ((l.foldl (qfLeftStep mr B X) acc).getD β Tensor.empty) a b (fun x y => S β x y +
      (l.map fun p => if p.left = β then ∑ x1 ∈ Finset.range a', ∑ y1 ∈ Finset.range b', pairTerm B X d p x y x1 y1 * F p.right x1 y1 else 0).sum) := by
  induction l generalizing acc S with
  | nil => exact ⟨rfl, fun β hβ => by simpa using hacc β hβ⟩
  | cons p l ih =>
    simp only [List.foldl_cons]
    have hp := hl p (by simp)
    have hpr := hr p (by simp)
    have hstep : (qfLeftStep mr B X acc p).length = acc.length ∧ ∀ β, β < acc.length →
        EnvR ((qfLeftStep mr B X acc p).getD β Tensor.empty) a b (fun x y => S β x y +
          if p.left = β then ∑ x1 ∈ Finset.range a', ∑ y1 ∈ Finset.range b', pairTerm B X d p x y x1 y1 * F p.right x1 y1 else 0) := by
      unfold qfLeftStep
      rcases hmr p.right hp.1 with ⟨h1, h2⟩ | ⟨h1, h2⟩
      · rw [if_pos h1]
        refine ⟨rfl, fun β hβ => (hacc β hβ).congr fun x y hx hy => ?_⟩
        have : ∑ x1 ∈ Finset.range a', ∑ y1 ∈ Finset.range b', pairTerm B X d p x y x1 y1 * F p.right x1 y1 = 0 :=
          Finset.sum_eq_zero fun x1 hx1 => Finset.sum_eq_zero fun y1 hy1 => by
            rw [h2 x1 y1 (Finset.mem_range.1 hx1) (Finset.mem_range.1 hy1), mul_zero]
        rw [this]; simp
      · have hne := notEmpty_dims h1 (by simp; omega)
        rw [if_neg (by simp only [hne]; simp)]
        refine ⟨by simp, fun β hβ => ?_⟩
        obtain ⟨g1, g2⟩ := propMatrix_left' h1 hne hB hX hp.2
        by_cases hpb : p.left = β
        · subst hpb
          rw [show (acc.set p.left (maybeAdd (acc.getD p.left Tensor.empty) (propMatrix (mr.getD p.right Tensor.empty) (-1) B X (some p.op)))).getD
            p.left Tensor.empty = maybeAdd (acc.getD p.left Tensor.empty) (propMatrix (mr.getD p.right Tensor.empty) (-1) B X (some p.op)) by
              simp [hpr]]
          simp only [if_true]
          refine (hacc p.left hpr).add ha hb g1 fun x y hx hy => ?_
          rw [g2 x y hx hy]
          refine Finset.sum_congr rfl fun x1 hx1 => Finset.sum_congr rfl fun y1 hy1 => ?_
          rw [h2 x1 y1 (Finset.mem_range.1 hx1) (Finset.mem_range.1 hy1)]
          rfl
        · rw [show (acc.set p.left (maybeAdd (acc.getD p.left Tensor.empty) (propMatrix (mr.getD p.right Tensor.empty) (-1) B X (some p.op)))).getD
            β Tensor.empty = acc.getD β Tensor.empty by simp [List.getElem?_set, hpb]]
          exact (hacc β hβ).congr fun x y _ _ => by simp [hpb]
    obtain ⟨s1, s2⟩ := hstep
    obtain ⟨i1, i2⟩ := ih (fun p' h' => hl p' (by simp [h'])) (qfLeftStep mr B X acc p) _ (fun p' h' => by rw [s1]; exact hr p' (by simp [h']))
      (fun β hβ => s2 β (by omega))
    refine ⟨by rw [i1, s1], fun β hβ => (i2 β (by omega)).congr fun x y _ _ => ?_⟩
    simp only [List.map_cons, List.sum_cons]
    ring

/-! ### the caches of one bond -/

/-- `ml` caches the left part of the chain, one matrix per value of the bond of the operator -/
def LeftQ (ml : List (Tensor R)) (Q O P : List (Tensor R)) (ds : List Nat) (c : Nat) : Prop :=
  ml.length = c ∧ (∀ a b, WF 1 Q ds a → WF 1 P ds b → ∀ α, α < c →
    EnvL (ml.getD α Tensor.empty) a b (fun x y => envG Q O P ds 0 0 0 x α y)) ∧
  -- a matrix is empty only if nothing in the operator leads to this value of the bond
  ∀ a b, WF 1 Q ds a → WF 1 P ds b → ∀ α, α < c → (ml.getD α Tensor.empty).isEmpty = true →
    ∀ s t, IsCfg ds s → IsCfg ds t → opPath O s t 0 α = 0

/-- `mr` caches the right part of the chain, one matrix per value of the bond of the operator -/
def RightQ (mr : List (Tensor R)) (Q O P : List (Tensor R)) (ds : List Nat) (c : Nat) : Prop :=
  mr.length = c ∧ (∀ a b, WF a Q ds 1 → WF b P ds 1 → ∀ α, α < c →
    EnvR (mr.getD α Tensor.empty) a b (fun x y => envG Q O P ds x α y 0 0 0)) ∧
  ∀ a b, WF a Q ds 1 → WF b P ds 1 → ∀ α, α < c → (mr.getD α Tensor.empty).isEmpty = true →
    ∀ s t, IsCfg ds s → IsCfg ds t → opPath O s t α 0 = 0

theorem mem_pairs {T : Tensor R} {c d c' : Nat} (hT : T.dims = [c, d, d, c']) {i j x y : Nat} (hi : i < c) (hj : j < c') (hx : x < d) (hy : y < d)
    (h : T.get [i, x, y, j] ≠ 0) : ∃ p ∈ makePairs T, p.left = i ∧ p.right = j := by
  obtain ⟨t0, t1, t2, t3⟩ := dim_of4 hT
  refine ⟨Pair.new i j T, ?_, rfl, rfl⟩
  unfold makePairs
  rw [List.mem_filter, List.mem_flatMap]
  refine ⟨⟨i, by rw [t0]; exact List.mem_range.2 hi, List.mem_map.2 ⟨j, by rw [t3]; exact List.mem_range.2 hj, rfl⟩⟩, ?_⟩
  by_contra hz
  have hz : (Pair.new i j T).isZero = true := by simpa using hz
  unfold Pair.isZero at hz
  rw [List.all_eq_true] at hz
  have h1 := hz x (by simp [Pair.new, dim, hT, hx])
  rw [List.all_eq_true] at h1
  have h2 := h1 y (by simp [Pair.new, dim, hT, hy])
  exact h (by simpa [Pair.new] using h2)

theorem maybeAdd_empty {A B : Tensor R} (h : (maybeAdd A B).isEmpty = true) : A.isEmpty = true ∧ B.isEmpty = true := by
  unfold maybeAdd at h
  split_ifs at h with hA
  · exact ⟨hA, h⟩
  · exact absurd h hA

theorem rightFold_empty {ml : List (Tensor R)} {B X : Tensor R} {a b a' b' d c : Nat} {F : Nat → Nat → Nat → R}
    (hB : B.dims = [a, d, a']) (hX : X.dims = [b, d, b']) (ha : 0 < a) (hb : 0 < b) (ha' : 0 < a') (hb' : 0 < b')
    (hml : ∀ α, α < c → EnvL (ml.getD α Tensor.empty) a b (F α)) (l : List (Pair R))
    (hl : ∀ p ∈ l, p.left < c ∧ p.op.dims = [d, d]) (acc : List (Tensor R)) (hr : ∀ p ∈ l, p.right < acc.length) (β : Nat)
    (h : ((l.foldl (qfRightStep ml B X) acc).getD β Tensor.empty).isEmpty = true) :
    (acc.getD β Tensor.empty).isEmpty = true ∧ ∀ p ∈ l, p.right = β → (ml.getD p.left Tensor.empty).isEmpty = true := by
  induction l generalizing acc with
  | nil => exact ⟨h, by simp⟩
  | cons p l ih =>
    have hp := hl p (by simp)
    have hpr := hr p (by simp)
    have hlen : (qfRightStep ml B X acc p).length = acc.length := by unfold qfRightStep; split_ifs <;> simp
    obtain ⟨i1, i2⟩ := ih (fun p' h' => hl p' (by simp [h'])) (qfRightStep ml B X acc p) (fun p' h' => by rw [hlen]; exact hr p' (by simp [h'])) h
    suffices hs : (acc.getD β Tensor.empty).isEmpty = true ∧ (p.right = β → (ml.getD p.left Tensor.empty).isEmpty = true) by
      refine ⟨hs.1, fun p' hp' => ?_⟩
      rcases List.mem_cons.1 hp' with rfl | hp'
      · exact hs.2
      · exact i2 p' hp'
    unfold qfRightStep at i1
    split_ifs at i1 with he
    · exact ⟨i1, fun _ => he⟩
    · by_cases hpb : p.right = β
      · subst hpb
        rw [show (acc.set p.right (maybeAdd (acc.getD p.right Tensor.empty) (propMatrix (ml.getD p.left Tensor.empty) 1 B X (some p.op)))).getD
            p.right Tensor.empty = maybeAdd (acc.getD p.right Tensor.empty) (propMatrix (ml.getD p.left Tensor.empty) 1 B X (some p.op)) by
              simp [hpr]] at i1
        obtain ⟨e1, e2⟩ := maybeAdd_empty i1
        rcases hml p.left hp.1 with ⟨h1, h2⟩ | ⟨h1, h2⟩
        · exact absurd h1 he
        · obtain ⟨g1, -⟩ := propMatrix_right' h1 (by simpa using he) hB hX hp.2
          have := notEmpty_dims g1 (by simp; omega)
          rw [this] at e2
          exact absurd e2 (by simp)
      · rw [show (acc.set p.right (maybeAdd (acc.getD p.right Tensor.empty) (propMatrix (ml.getD p.left Tensor.empty) 1 B X (some p.op)))).getD
            β Tensor.empty = acc.getD β Tensor.empty by simp [List.getElem?_set, hpb]] at i1
        exact ⟨i1, fun hh => absurd hh hpb⟩

theorem leftFold_empty {mr : List (Tensor R)} {B X : Tensor R} {a b a' b' d c : Nat} {F : Nat → Nat → Nat → R}
    (hB : B.dims = [a, d, a']) (hX : X.dims = [b, d, b']) (ha : 0 < a) (hb : 0 < b) (ha' : 0 < a') (hb' : 0 < b')
    (hmr : ∀ α, α < c → EnvR (mr.getD α Tensor.empty) a' b' (F α)) (l : List (Pair R))
    (hl : ∀ p ∈ l, p.right < c ∧ p.op.dims = [d, d]) (acc : List (Tensor R)) (hr : ∀ p ∈ l, p.left < acc.length) (β : Nat)
    (h : ((l.foldl (qfLeftStep mr B X) acc).getD β Tensor.empty).isEmpty = true) :
    (acc.getD β Tensor.empty).isEmpty = true ∧ ∀ p ∈ l, p.left = β → (mr.getD p.right Tensor.empty).isEmpty = true := by
  induction l generalizing acc with
  | nil => exact ⟨h, by simp⟩
  | cons p l ih =>
    have hp := hl p (by simp)
    have hpr := hr p (by simp)
    have hlen : (qfLeftStep mr B X acc p).length = acc.length := by unfold qfLeftStep; split_ifs <;> simp
    obtain ⟨i1, i2⟩ := ih (fun p' h' => hl p' (by simp [h'])) (qfLeftStep mr B X acc p) (fun p' h' => by rw [hlen]; exact hr p' (by simp [h'])) h
    suffices hs : (acc.getD β Tensor.empty).isEmpty = true ∧ (p.left = β → (mr.getD p.right Tensor.empty).isEmpty = true) by
      refine ⟨hs.1, fun p' hp' => ?_⟩
      rcases List.mem_cons.1 hp' with rfl | hp'
      · exact hs.2
      · exact i2 p' hp'
    unfold qfLeftStep at i1
    split_ifs at i1 with he
    · exact ⟨i1, fun _ => he⟩
    · by_cases hpb : p.left = β
      · subst hpb
        rw [show (acc.set p.left (maybeAdd (acc.getD p.left Tensor.empty) (propMatrix (mr.getD p.right Tensor.empty) (-1) B X (some p.op)))).getD
            p.left Tensor.empty = maybeAdd (acc.getD p.left Tensor.empty) (propMatrix (mr.getD p.right Tensor.empty) (-1) B X (some p.op)) by
              simp [hpr]] at i1
        obtain ⟨e1, e2⟩ := maybeAdd_empty i1
        rcases hmr p.right hp.1 with ⟨h1, h2⟩ | ⟨h1, h2⟩
        · exact absurd h1 he
        · obtain ⟨g1, -⟩ := propMatrix_left' h1 (by simpa using he) hB hX hp.2
          have := notEmpty_dims g1 (by simp; omega)
          rw [this] at e2
          exact absurd e2 (by simp)
      · rw [show (acc.set p.left (maybeAdd (acc.getD p.left Tensor.empty) (propMatrix (mr.getD p.right Tensor.empty) (-1) B X (some p.op)))).getD
            β Tensor.empty = acc.getD β Tensor.empty by simp [List.getElem?_set, hpb]] at i1
        exact ⟨i1, fun hh => absurd hh hpb⟩

theorem isCfg_snoc {ds : List Nat} {d : Nat} {s : List Nat} (h : IsCfg (ds ++ [d]) s) : ∃ s' i, s = s' ++ [i] ∧ IsCfg ds s' ∧ i < d := by
  obtain ⟨s1, s2, rfl, h1, h2⟩ := isCfg_split h
  cases h2 with
  | cons hi hn => cases hn; exact ⟨s1, _, rfl, h1, hi⟩

theorem map_empty_getD {α : Type} (l : List α) (n : Nat) : (l.map fun _ => (Tensor.empty : Tensor R)).getD n Tensor.empty = Tensor.empty := by
  simp only [List.getD_eq_getElem?_getD, List.getElem?_map]
  cases l[n]? <;> rfl

theorem LeftQ.step {ml old : List (Tensor R)} {Q O P : List (Tensor R)} {ds : List Nat} {c c' d : Nat} {B T X : Tensor R}
    (h : LeftQ ml Q O P ds c) (hO : WFO 1 O ds c) (hT : T.dims = [c, d, d, c']) (hold : old.length = c') :
    LeftQ ((makePairs T).foldl (qfRightStep ml B X) (old.map fun _ => Tensor.empty)) (Q ++ [B]) (O ++ [T]) (P ++ [X]) (ds ++ [d]) c' := by
  have hlen : (old.map fun _ => (Tensor.empty : Tensor R)).length = c' := by simp [hold]
  have hlen2 : ∀ (l : List (Pair R)) (acc : List (Tensor R)), (l.foldl (qfRightStep ml B X) acc).length = acc.length := by
    intro l
    induction l with
    | nil => intro _; rfl
    | cons p l ih => intro acc; rw [List.foldl_cons, ih]; unfold qfRightStep; split <;> simp
  refine ⟨by rw [hlen2, hlen], fun a' b' hQ hP β hβ => ?_, fun a' b' hQ hP β hβ hem s t hs ht => ?_⟩
  rotate_left
  · obtain ⟨a, q1, q2, ha, hd, ha'⟩ := WF.snoc hQ
    obtain ⟨b, p1, p2, hb, _, hb'⟩ := WF.snoc hP
    obtain ⟨-, hall⟩ := rightFold_empty (c := c) q2 p2 ha hb ha' hb' (h.2.1 a b q1 p1) (makePairs T)
      (fun p hp => ⟨(mem_makePairs hT hp).1, (mem_makePairs hT hp).2.2.1⟩) (old.map fun _ => Tensor.empty)
      (fun p hp => by rw [hlen]; exact (mem_makePairs hT hp).2.1) β hem
    obtain ⟨s, i, rfl, hs, hi⟩ := isCfg_snoc hs
    obtain ⟨t, j, rfl, ht, hj⟩ := isCfg_snoc ht
    rw [opPath_append hO hs.length ht.length (by omega)]
    refine Finset.sum_eq_zero fun α hα => ?_
    rw [Finset.mem_range] at hα
    rw [opPath_single hT hβ]
    by_cases h0 : T.get [α, i, j, β] = 0
    · rw [h0, mul_zero]
    · obtain ⟨p, hp, rfl, hp2⟩ := mem_pairs hT hα hβ hi hj h0
      rw [h.2.2 a b q1 p1 p.left hα (hall p hp hp2) s t hs ht, zero_mul]
  obtain ⟨a, q1, q2, ha, hd, ha'⟩ := WF.snoc hQ
  obtain ⟨b, p1, p2, hb, _, hb'⟩ := WF.snoc hP
  have := (rightFold (c := c) q2 p2 ha hb ha' hb' (h.2.1 a b q1 p1) (makePairs T)
    (fun p hp => ⟨(mem_makePairs hT hp).1, (mem_makePairs hT hp).2.2.1⟩) (old.map fun _ => Tensor.empty) (fun _ _ _ => 0)
    (fun p hp => by rw [hlen]; exact (mem_makePairs hT hp).2.1)
    (fun β _ => by rw [map_empty_getD]; exact Or.inl ⟨empty_isEmpty, fun _ _ _ _ => rfl⟩)).2 β (by omega)
  refine this.congr fun x y hx hy => ?_
  rw [envG_append q1 hO p1 (by omega) (by omega) (by omega), zero_add, sum_makePairs hT]
  conv_rhs => rw [Finset.sum_comm]
  · refine Finset.sum_congr rfl fun α hα => ?_
    rw [Finset.sum_eq_single β]
    · rw [if_pos (by simp [Pair.new])]
      refine Finset.sum_congr rfl fun x1 hx1 => Finset.sum_congr rfl fun y1 hy1 => ?_
      rw [envG_single q2 hT p2 hx hβ hy]
      simp [pairTerm, Pair.new]
    · intro j _ hj
      rw [if_neg (by simpa [Pair.new] using hj)]
    · intro h; exact absurd (Finset.mem_range.2 hβ) h
  · intro i j hi hj hz
    split
    · refine Finset.sum_eq_zero fun x1 _ => Finset.sum_eq_zero fun y1 _ => ?_
      have : pairTerm B X d (Pair.new i j T) x1 y1 x y = 0 := by
        refine Finset.sum_eq_zero fun i' hi' => Finset.sum_eq_zero fun j' hj' => ?_
        have := hz i' j' (Finset.mem_range.1 hi') (Finset.mem_range.1 hj')
        simp [Pair.new, this]
      rw [this, mul_zero]
    · rfl

theorem RightQ.step {mr old : List (Tensor R)} {Q O P : List (Tensor R)} {ds : List Nat} {c c' d : Nat} {B T X : Tensor R}
    (h : RightQ mr Q O P ds c') (hT : T.dims = [c, d, d, c']) (hold : old.length = c) (hc : 0 < c) (hd : 0 < d) (hc' : 0 < c') :
    RightQ ((makePairs T).foldl (qfLeftStep mr B X) (old.map fun _ => Tensor.empty)) (B :: Q) (T :: O) (X :: P) (d :: ds) c := by
  have hlen : (old.map fun _ => (Tensor.empty : Tensor R)).length = c := by simp [hold]
  have hlen2 : ∀ (l : List (Pair R)) (acc : List (Tensor R)), (l.foldl (qfLeftStep mr B X) acc).length = acc.length := by
    intro l
    induction l with
    | nil => intro _; rfl
    | cons p l ih => intro acc; rw [List.foldl_cons, ih]; unfold qfLeftStep; split <;> simp
  refine ⟨by rw [hlen2, hlen], fun a b hQ hP α hα => ?_, fun a b hQ hP α hα hem s t hs ht => ?_⟩
  rotate_left
  · obtain ⟨a', q1, q2, ha, hd, ha'⟩ := WF.cons_inv hQ
    obtain ⟨b', p1, p2, hb, _, hb'⟩ := WF.cons_inv hP
    obtain ⟨-, hall⟩ := leftFold_empty (c := c') q2 p2 ha hb ha' hb' (h.2.1 a' b' q1 p1) (makePairs T)
      (fun p hp => ⟨(mem_makePairs hT hp).2.1, (mem_makePairs hT hp).2.2.1⟩) (old.map fun _ => Tensor.empty)
      (fun p hp => by rw [hlen]; exact (mem_makePairs hT hp).1) α hem
    cases hs with
    | @cons i _ s _ hi hs =>
    cases ht with
    | @cons j _ t _ hj ht =>
    rw [opPath_cons]
    refine Finset.sum_eq_zero fun β hβ => ?_
    rw [Finset.mem_range, dim3_of hT] at hβ
    by_cases h0 : T.get [α, i, j, β] = 0
    · rw [h0, zero_mul]
    · obtain ⟨p, hp, hp1, rfl⟩ := mem_pairs hT hα hβ hi hj h0
      rw [h.2.2 a' b' q1 p1 p.right hβ (hall p hp hp1) s t hs ht, mul_zero]
  obtain ⟨a', q1, q2, ha, hd, ha'⟩ := WF.cons_inv hQ
  obtain ⟨b', p1, p2, hb, _, hb'⟩ := WF.cons_inv hP
  have := (leftFold (c := c') q2 p2 ha hb ha' hb' (h.2.1 a' b' q1 p1) (makePairs T)
    (fun p hp => ⟨(mem_makePairs hT hp).2.1, (mem_makePairs hT hp).2.2.1⟩) (old.map fun _ => Tensor.empty) (fun _ _ _ => 0)
    (fun p hp => by rw [hlen]; exact (mem_makePairs hT hp).1)
    (fun β _ => by rw [map_empty_getD]; exact Or.inl ⟨empty_isEmpty, fun _ _ _ _ => rfl⟩)).2 α (by omega)
  refine this.congr fun x y hx hy => ?_
  have := envG_append (Q1 := [B]) (O1 := [T]) (P1 := [X]) (d1 := [d]) (Q2 := Q) (O2 := O) (P2 := P) (d2 := ds)
    (WF.cons q2 ha hd ha' (WF.nil a')) (WFO.cons hT hc hd hc' (WFO.nil c')) (WF.cons p2 hb hd hb' (WF.nil b')) hx hα hy 0 0 0
  simp only [List.singleton_append] at this
  rw [this, zero_add, sum_makePairs hT, Finset.sum_comm]
  conv_rhs => rw [Finset.sum_comm]
  · refine Finset.sum_congr rfl fun β hβ => ?_
    rw [Finset.sum_eq_single α]
    · rw [if_pos (by simp [Pair.new])]
      refine Finset.sum_congr rfl fun x1 hx1 => Finset.sum_congr rfl fun y1 hy1 => ?_
      rw [envG_single q2 hT p2 (Finset.mem_range.1 hx1) (Finset.mem_range.1 hβ) (Finset.mem_range.1 hy1)]
      simp [pairTerm, Pair.new]
    · intro j _ hj
      rw [if_neg (by simpa [Pair.new] using hj)]
    · intro h; exact absurd (Finset.mem_range.2 hα) h
  · intro i j hi hj hz
    split
    · refine Finset.sum_eq_zero fun x1 _ => Finset.sum_eq_zero fun y1 _ => ?_
      have : pairTerm B X d (Pair.new i j T) x y x1 y1 = 0 := by
        refine Finset.sum_eq_zero fun i' hi' => Finset.sum_eq_zero fun j' hj' => ?_
        have := hz i' j' (Finset.mem_range.1 hi') (Finset.mem_range.1 hj')
        simp [Pair.new, this]
      rw [this, zero_mul]
    · rfl

/-! ### the whole cache -/

/-- size of the `j`-th bond of the operator -/
def bondO (O : List (Tensor R)) (j : Nat) : Nat := if j = 0 ∨ j = O.length then 1 else (site O j).dim 0

theorem WFO.cut {a b : Nat} {O : List (Tensor R)} {ds : List Nat} (h : WFO a O ds b) (j : Nat) (hj : j ≤ ds.length) :
    ∃ c, WFO a (O.take j) (ds.take j) c ∧ WFO c (O.drop j) (ds.drop j) b := by
  induction h generalizing j with
  | nil a => exact ⟨a, by simpa using WFO.nil a, by simpa using WFO.nil a⟩
  | @cons a d c b A As ds h1 h2 h3 h4 h5 ih =>
    cases j with
    | zero => exact ⟨a, WFO.nil a, WFO.cons h1 h2 h3 h4 h5⟩
    | succ j =>
      obtain ⟨e, i1, i2⟩ := ih j (by simpa using hj)
      exact ⟨e, WFO.cons h1 h2 h3 h4 i1, i2⟩

theorem WFO.cutBond {O : List (Tensor R)} {ds : List Nat} (h : WFO 1 O ds 1) (j : Nat) (hj : j ≤ ds.length) :
    WFO 1 (O.take j) (ds.take j) (bondO O j) ∧ WFO (bondO O j) (O.drop j) (ds.drop j) 1 := by
  obtain ⟨c, h1, h2⟩ := WFO.cut h j hj
  have hl := h.length
  have : c = bondO O j := by
    unfold bondO
    by_cases h0 : j = 0
    · subst h0; simp at h1; cases h1; simp
    · by_cases hN : j = O.length
      · subst hN
        rw [List.drop_length, show ds.drop O.length = [] by rw [hl]; simp] at h2
        cases h2; simp
      · rw [if_neg (by omega)]
        rw [drop_site (by omega), List.drop_eq_getElem_cons (l := ds) (by omega)] at h2
        cases h2 with
        | cons k1 _ _ _ _ => exact (dim_of4 k1).1.symm
  subst this
  exact ⟨h1, h2⟩

theorem WFO.at {O : List (Tensor R)} {ds : List Nat} (h : WFO 1 O ds 1) (j : Nat) (hj : j < ds.length) :
    (site O j).dims = [bondO O j, ds.getD j 0, ds.getD j 0, bondO O (j + 1)] ∧ 0 < bondO O j ∧ 0 < ds.getD j 0 ∧ 0 < bondO O (j + 1) := by
  have hl := h.length
  have h1 := (WFO.cutBond h j hj.le).2
  have h2 := (WFO.cutBond h (j + 1) hj).1
  have h1' := (WFO.cutBond h j hj.le).1
  rw [drop_site (by omega), List.drop_eq_getElem_cons hj] at h1
  have e : ds[j] = ds.getD j 0 := by simp [hj]
  rw [e] at h1
  generalize hc : bondO O j = c at h1
  cases h1 with
  | @cons _ _ c' _ _ _ _ k1 k2 k3 k4 k5 =>
    have : c' = bondO O (j + 1) := by
      unfold bondO
      by_cases hN : j + 1 = O.length
      · rw [if_pos (Or.inr hN)]
        rw [hN, List.drop_length, show ds.drop O.length = [] by rw [hl]; simp] at k5
        cases k5; rfl
      · rw [if_neg (by omega)]
        rw [drop_site (by omega)] at k5
        cases hh : ds.drop (j + 1) with
        | nil => rw [List.drop_eq_nil_iff] at hh; omega
        | cons x xs =>
          rw [hh] at k5
          cases k5 with
          | cons m1 _ _ _ _ => exact (dim_of4 m1).1.symm
    subst this
    exact ⟨k1, k2, k3, k4⟩

end pairs

end MPS.Form
