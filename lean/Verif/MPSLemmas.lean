import Verif.TensorLemmas
import Verif.MPSModel

set_option linter.unusedSectionVars false
set_option linter.unusedSimpArgs false

/-! # Helper lemmas: `prop_matrix` computes transfer tensors -/

namespace MPS
open Tensor
variable {R : Type} [CommRing R]

/-- the ket tensor with the operator (if any) already applied on its physical index -/
def actT (op : Option (Tensor R)) (P : Tensor R) : Tensor R :=
  match op with
  | none => P
  | some o => foldin o (-1) P 1

/-- the operator argument, if present, is a `d × d` matrix -/
def OpOk (d : Nat) (op : Option (Tensor R)) : Prop := ∀ o, op = some o → o.dims = [d, d]

theorem actT_dims {op : Option (Tensor R)} {P : Tensor R} {a d c : Nat} (hop : OpOk d op)
    (hP : P.dims = [a, d, c]) : (actT op P).dims = [a, d, c] := by
  cases op with
  | none => exact hP
  | some o => simp [actT, foldin, hP, hop o rfl]

theorem actT_get_some {o : Tensor R} {P : Tensor R} {a d c x i y : Nat} (ho : o.dims = [d, d])
    (hP : P.dims = [a, d, c]) :
    (actT (some o) P).get [x, i, y] = ∑ j ∈ Finset.range d, o.get [i, j] * P.get [x, j, y] := by
  simp [actT, foldin, hP, ho]

section Star
variable [StarRing R]

theorem propInit_dims {Q P : Tensor R} {op : Option (Tensor R)} {a1 d a2 b1 b2 : Nat}
    (hQ : Q.dims = [a1, d, a2]) (hP : P.dims = [b1, d, b2]) (hop : OpOk d op) :
    (propInit Q P op).dims = [a1, b1, a2, b2] := by
  cases op with
  | none => simp [propInit, permute, swapIdx, foldc, fold, hQ, hP]
  | some o => simp [propInit, permute, swapIdx, foldc, fold, hQ, hP, hop o rfl]

theorem propInit_get {Q P : Tensor R} {op : Option (Tensor R)} {a1 d a2 b1 b2 x y x' y' : Nat}
    (hQ : Q.dims = [a1, d, a2]) (hP : P.dims = [b1, d, b2]) (hop : OpOk d op) :
    (propInit Q P op).get [x, y, x', y']
      = ∑ i ∈ Finset.range d, star (Q.get [x, i, x']) * (actT op P).get [y, i, y'] := by
  cases op with
  | none => simp [propInit, permute, swapIdx, foldc, fold, hQ, hP, actT]
  | some o =>
    simp only [actT_get_some (hop o rfl) hP]
    simp [propInit, permute, swapIdx, foldc, fold, hQ, hP, hop o rfl]

theorem propRight4_dims {M Q P : Tensor R} {op : Option (Tensor R)} {a1 b1 a2 b2 d a3 b3 : Nat}
    (hM : M.dims = [a1, b1, a2, b2])
    (hQ : Q.dims = [a2, d, a3]) (hP : P.dims = [b2, d, b3]) (hop : OpOk d op) :
    (propRight4 M Q P op).dims = [a1, b1, a3, b3] := by
  cases op with
  | none => simp [propRight4, dim, fold, hQ, hP, hM]
  | some o => simp [propRight4, dim, fold, hQ, hP, hM]

theorem propRight4_get {M Q P : Tensor R} {op : Option (Tensor R)}
    {a1 b1 a2 b2 d a3 b3 x y x'' y'' : Nat}
    (hM : M.dims = [a1, b1, a2, b2])
    (hQ : Q.dims = [a2, d, a3]) (hP : P.dims = [b2, d, b3]) (hop : OpOk d op)
    (hx : x < a1) (hy : y < b1) (hx'' : x'' < a3) (hy'' : y'' < b3) :
    (propRight4 M Q P op).get [x, y, x'', y'']
      = ∑ x' ∈ Finset.range a2, ∑ y' ∈ Finset.range b2, M.get [x, y, x', y'] *
          ∑ i ∈ Finset.range d, star (Q.get [x', i, x'']) * (actT op P).get [y', i, y''] := by
  have key : ∀ (T : Tensor R), T.dims = [a1, b1, b2, d, a3] →
      (fold (reshape T [a1, b1, b2 * d, a3]) 2 (reshape P [b2 * d, b3]) 0).get [x, y, x'', y'']
        = ∑ i ∈ Finset.range d, ∑ y' ∈ Finset.range b2,
            T.get [x, y, y', i, x''] * P.get [y', i, y''] := by
    intro T hT
    simp only [fold, reshape_dims, nrm_two, nrm_zero, List.length_cons, List.length_nil]
    simp only [List.getD_cons_succ, List.getD_cons_zero]
    rw [sum_range_mul]
    refine Finset.sum_congr rfl fun i hi => Finset.sum_congr rfl fun y' hy' => ?_
    rw [Finset.mem_range] at hi hy'
    simp only [List.take, List.drop, List.insertIdx_succ_cons, List.insertIdx_zero]
    rw [reshape_get (A := T) (idx := [x, y, y', i, x'']), reshape_get (A := P) (idx := [y', i, y''])]
    · simp [hP, *]
    · simp only [hP, flat]; ring
    · simp [hT, *]
    · simp only [hT, flat]; ring
  cases op with
  | none =>
    have hT : (fold M 2 (conj Q) 0).dims = [a1, b1, b2, d, a3] := by simp [fold, hM, hQ]
    have h1 : M.dim 0 = a1 := by simp [dim, hM]
    have h2 : M.dim 1 = b1 := by simp [dim, hM]
    simp only [propRight4, h1, h2, dim0_of hP, dim1_of hP, dim2_of hP, dim2_of hQ]
    rw [key _ hT]
    simp only [actT, Finset.mul_sum]
    rw [Finset.sum_comm]
    conv_rhs => rw [Finset.sum_comm]
    refine Finset.sum_congr rfl fun y' _ => ?_
    conv_rhs => rw [Finset.sum_comm]
    refine Finset.sum_congr rfl fun i _ => ?_
    simp only [fold, hM, hQ, conj_dims, conj_get]
    simp [Finset.sum_mul, mul_assoc]
  | some o =>
    have ho := hop o rfl
    have hT : (fold M 2 (fold o 0 (conj Q) 1) 1).dims = [a1, b1, b2, d, a3] := by
      simp [fold, hM, hQ, ho]
    have h1 : M.dim 0 = a1 := by simp [dim, hM]
    have h2 : M.dim 1 = b1 := by simp [dim, hM]
    simp only [propRight4, h1, h2, dim0_of hP, dim1_of hP, dim2_of hP, dim2_of hQ]
    rw [key _ hT]
    simp only [actT_get_some ho hP, Finset.mul_sum]
    rw [Finset.sum_comm]
    conv_rhs => rw [Finset.sum_comm]
    refine Finset.sum_congr rfl fun y' _ => ?_
    simp only [fold, hM, hQ, ho, conj_dims, conj_get]
    simp only [List.length_cons, List.length_nil, nrm_zero, nrm_one, nrm_two, List.getD_cons_succ,
      List.getD_cons_zero, List.take, List.drop, List.insertIdx_succ_cons, List.insertIdx_zero,
      List.eraseIdx, List.nil_append, List.cons_append]
    simp only [Finset.sum_mul, Finset.mul_sum]
    rw [Finset.sum_comm]
    refine Finset.sum_congr rfl fun x' _ => ?_
    conv_rhs => rw [Finset.sum_comm]
    refine Finset.sum_congr rfl fun i _ => Finset.sum_congr rfl fun j _ => ?_
    ring

theorem propLeft4_dims {M Q P : Tensor R} {op : Option (Tensor R)} {a0 b0 a1 b1 a2 b2 d : Nat}
    (hM : M.dims = [a1, b1, a2, b2])
    (hQ : Q.dims = [a0, d, a1]) (hP : P.dims = [b0, d, b1]) (hop : OpOk d op) :
    (propLeft4 M Q P op).dims = [a0, b0, a2, b2] := by
  cases op with
  | none => simp [propLeft4, dim, foldc, fold, hQ, hP, hM]
  | some o => simp [propLeft4, dim, foldc, fold, hQ, hP, hM]

theorem propLeft4_get {M Q P : Tensor R} {op : Option (Tensor R)}
    {a0 b0 a1 b1 a2 b2 d x y x'' y'' : Nat}
    (hM : M.dims = [a1, b1, a2, b2])
    (hQ : Q.dims = [a0, d, a1]) (hP : P.dims = [b0, d, b1]) (hop : OpOk d op)
    (hx : x < a0) (hy : y < b0) (hx'' : x'' < a2) (hy'' : y'' < b2) :
    (propLeft4 M Q P op).get [x, y, x'', y'']
      = ∑ x' ∈ Finset.range a1, ∑ y' ∈ Finset.range b1,
          (∑ i ∈ Finset.range d, star (Q.get [x, i, x']) * (actT op P).get [y, i, y'])
            * M.get [x', y', x'', y''] := by
  have key : ∀ (T : Tensor R), T.dims = [b0, d, a1, a2, b2] →
      (foldc (reshape Q [a0, d * a1]) (-1) (reshape T [b0, d * a1, a2, b2]) 1).get [x, y, x'', y'']
        = ∑ x' ∈ Finset.range a1, ∑ i ∈ Finset.range d,
            star (Q.get [x, i, x']) * T.get [y, i, x', x'', y''] := by
    intro T hT
    simp only [foldc, fold, conj_dims, reshape_dims, nrm_one, nrm_neg1, List.length_cons,
      List.length_nil]
    simp only [Nat.zero_add, Nat.reduceAdd, Nat.reduceSub, List.getD_cons_succ,
      List.getD_cons_zero]
    rw [sum_range_mul]
    refine Finset.sum_congr rfl fun x' hx' => Finset.sum_congr rfl fun i hi => ?_
    rw [Finset.mem_range] at hi hx'
    simp only [List.take, List.drop, List.insertIdx_succ_cons, List.insertIdx_zero, conj_get]
    rw [reshape_get (A := Q) (idx := [x, i, x']), reshape_get (A := T) (idx := [y, i, x', x'', y''])]
    · simp [hT, *]
    · simp only [hT, flat]; ring
    · simp [hQ, *]
    · simp only [hQ, flat]; ring
  have h2 : M.dim 2 = a2 := by simp [dim, hM]
  have h3 : M.dim 3 = b2 := by simp [dim, hM]
  cases op with
  | none =>
    have hT : (fold P (-1) M 1).dims = [b0, d, a1, a2, b2] := by simp [fold, hM, hP]
    simp only [propLeft4, h2, h3, dim0_of hP, dim1_of hP, dim2_of hP, dim2_of hQ, dim0_of hQ]
    rw [key _ hT]
    simp only [actT, Finset.sum_mul]
    refine Finset.sum_congr rfl fun x' _ => ?_
    conv_rhs => rw [Finset.sum_comm]
    refine Finset.sum_congr rfl fun i _ => ?_
    simp only [fold, hM, hP]
    simp [Finset.mul_sum, mul_assoc]
  | some o =>
    have ho := hop o rfl
    have hT : (fold (fold P 1 o (-1)) 1 M 1).dims = [b0, d, a1, a2, b2] → True := fun _ => trivial
    have hT : (fold (fold P 1 o (-1)) 1 M 1).dims = [b0, d, a1, a2, b2] := by
      simp [fold, hM, hP, ho]
    simp only [propLeft4, h2, h3, dim0_of hP, dim1_of hP, dim2_of hP, dim2_of hQ, dim0_of hQ]
    rw [key _ hT]
    simp only [actT_get_some ho hP, Finset.sum_mul]
    refine Finset.sum_congr rfl fun x' _ => ?_
    conv_rhs => rw [Finset.sum_comm]
    refine Finset.sum_congr rfl fun i _ => ?_
    simp only [fold, hM, hP, ho]
    simp [Finset.mul_sum, Finset.sum_mul]
    refine Finset.sum_congr rfl fun y' _ => Finset.sum_congr rfl fun j _ => ?_
    ring

/-- `M` is the transfer tensor of the sites `Qs` (bra) and `Ps` (ket): the sum over all configurations of those
sites of conj(bra matrix product) times ket matrix product -/
def IsTransfer (M : Tensor R) (Qs Ps : List (Tensor R)) (ds : List Nat) (a1 b1 a2 b2 : Nat) : Prop :=
  M.dims = [a1, b1, a2, b2] ∧
  ∀ x y x' y', x < a1 → y < b1 → x' < a2 → y' < b2 →
    M.get [x, y, x', y'] = sumCfg ds (fun s => star (path Qs s x x') * path Ps s y y')

theorem IsTransfer.notEmpty {M : Tensor R} {Qs Ps : List (Tensor R)} {ds : List Nat}
    {a1 b1 a2 b2 : Nat} (h : IsTransfer M Qs Ps ds a1 b1 a2 b2) (h1 : 0 < a1) (h2 : 0 < b1)
    (h3 : 0 < a2) (h4 : 0 < b2) : M.isEmpty = false := by
  simp [isEmpty, size, h.1]
  omega

theorem IsTransfer.rank {M : Tensor R} {Qs Ps : List (Tensor R)} {ds : List Nat}
    {a1 b1 a2 b2 : Nat} (h : IsTransfer M Qs Ps ds a1 b1 a2 b2) : M.rank = 4 := by
  simp [Tensor.rank, h.1]

theorem isTransfer_init {Q P : Tensor R} {op : Option (Tensor R)} {a1 d a2 b1 b2 : Nat}
    (hQ : Q.dims = [a1, d, a2]) (hP : P.dims = [b1, d, b2]) (hop : OpOk d op) :
    IsTransfer (propInit Q P op) [Q] [actT op P] [d] a1 b1 a2 b2 := by
  refine ⟨propInit_dims hQ hP hop, fun x y x' y' hx hy hx' hy' => ?_⟩
  rw [propInit_get hQ hP hop, sumCfg_single]
  refine Finset.sum_congr rfl fun i _ => ?_
  rw [path_single hQ hx', path_single (actT_dims hop hP) hy']

theorem empty_isEmpty : (Tensor.empty : Tensor R).isEmpty = true := by
  simp [isEmpty, size, Tensor.empty]

theorem propMatrix_empty (Q P : Tensor R) (op : Option (Tensor R)) (sense : Int) :
    propMatrix Tensor.empty sense Q P op = propInit Q P op := by
  simp [propMatrix, empty_isEmpty]

theorem propMatrix_right {M Q P : Tensor R} {Qs Ps : List (Tensor R)} {op : Option (Tensor R)}
    {ds : List Nat} {a1 b1 a2 b2 d a3 b3 : Nat}
    (hM : IsTransfer M Qs Ps ds a1 b1 a2 b2)
    (hQs : WF a1 Qs ds a2) (hPs : WF b1 Ps ds b2)
    (ha1 : 0 < a1) (hb1 : 0 < b1)
    (hQ : Q.dims = [a2, d, a3]) (hP : P.dims = [b2, d, b3]) (hop : OpOk d op) :
    IsTransfer (propMatrix M 1 Q P op) (Qs ++ [Q]) (Ps ++ [actT op P]) (ds ++ [d]) a1 b1 a3 b3 := by
  have hne := hM.notEmpty ha1 hb1 (hQs.pos_right ha1) (hPs.pos_right hb1)
  have hrk := hM.rank
  have : propMatrix M 1 Q P op = propRight4 M Q P op := by
    simp [propMatrix, propRight, hne, hrk]
  rw [this]
  refine ⟨propRight4_dims hM.1 hQ hP hop, fun x y x' y' hx hy hx' hy' => ?_⟩
  rw [propRight4_get hM.1 hQ hP hop hx hy hx' hy', sumCfg_append]
  have h1 : ∀ s, IsCfg ds s →
      sumCfg [d] (fun t => star (path (Qs ++ [Q]) (s ++ t) x x')
          * path (Ps ++ [actT op P]) (s ++ t) y y')
      = ∑ u ∈ Finset.range a2, ∑ v ∈ Finset.range b2, (star (path Qs s x u) * path Ps s y v) *
          ∑ i ∈ Finset.range d, star (Q.get [u, i, x']) * (actT op P).get [v, i, y'] := by
    intro s hs
    rw [sumCfg_single]
    have h2 : ∀ i, star (path (Qs ++ [Q]) (s ++ [i]) x x')
          * path (Ps ++ [actT op P]) (s ++ [i]) y y'
        = ∑ u ∈ Finset.range a2, ∑ v ∈ Finset.range b2, (star (path Qs s x u) * path Ps s y v) *
           (star (Q.get [u, i, x']) * (actT op P).get [v, i, y']) := by
      intro i
      rw [path_append hQs (by rw [hs.length, hQs.length]) hx,
        path_append hPs (by rw [hs.length, hPs.length]) hy, star_sum, Finset.sum_mul_sum]
      refine Finset.sum_congr rfl fun u _ => Finset.sum_congr rfl fun v _ => ?_
      rw [path_single hQ hx', path_single (actT_dims hop hP) hy', star_mul']
      ring
    simp only [h2]
    rw [Finset.sum_comm]
    refine Finset.sum_congr rfl fun u _ => ?_
    rw [Finset.sum_comm]
    refine Finset.sum_congr rfl fun v _ => ?_
    rw [Finset.mul_sum]
  rw [sumCfg_congr h1, sumCfg_sum]
  refine Finset.sum_congr rfl fun u hu => ?_
  rw [sumCfg_sum]
  refine Finset.sum_congr rfl fun v hv => ?_
  rw [sumCfg_mul_right, hM.2 _ _ _ _ hx hy (Finset.mem_range.1 hu) (Finset.mem_range.1 hv)]

theorem propMatrix_left {M Q P : Tensor R} {Qs Ps : List (Tensor R)} {op : Option (Tensor R)}
    {ds : List Nat} {a0 b0 a1 b1 a2 b2 d : Nat}
    (hM : IsTransfer M Qs Ps ds a1 b1 a2 b2)
    (hQs : WF a1 Qs ds a2) (hPs : WF b1 Ps ds b2)
    (ha1 : 0 < a1) (hb1 : 0 < b1)
    (hQ : Q.dims = [a0, d, a1]) (hP : P.dims = [b0, d, b1]) (hop : OpOk d op) :
    IsTransfer (propMatrix M (-1) Q P op) (Q :: Qs) (actT op P :: Ps) (d :: ds) a0 b0 a2 b2 := by
  have hne := hM.notEmpty ha1 hb1 (hQs.pos_right ha1) (hPs.pos_right hb1)
  have hrk := hM.rank
  have : propMatrix M (-1) Q P op = propLeft4 M Q P op := by
    simp [propMatrix, propLeft, hne, hrk]
  rw [this]
  refine ⟨propLeft4_dims hM.1 hQ hP hop, fun x y x' y' hx hy hx' hy' => ?_⟩
  rw [propLeft4_get hM.1 hQ hP hop hx hy hx' hy', sumCfg_cons]
  have h2 : ∀ i s, star (path (Q :: Qs) (i :: s) x x') * path (actT op P :: Ps) (i :: s) y y'
      = ∑ u ∈ Finset.range a1, ∑ v ∈ Finset.range b1,
         (star (Q.get [x, i, u]) * (actT op P).get [y, i, v]) *
          (star (path Qs s u x') * path Ps s v y') := by
    intro i s
    rw [path_cons, path_cons, dim2_of hQ, dim2_of (actT_dims hop hP), star_sum, Finset.sum_mul_sum]
    refine Finset.sum_congr rfl fun u _ => Finset.sum_congr rfl fun v _ => ?_
    rw [star_mul']; ring
  simp only [h2, sumCfg_sum, sumCfg_mul_left]
  conv_rhs => rw [Finset.sum_comm]
  refine Finset.sum_congr rfl fun u hu => ?_
  conv_rhs => rw [Finset.sum_comm]
  refine Finset.sum_congr rfl fun v hv => ?_
  rw [Finset.sum_mul, hM.2 _ _ _ _ (Finset.mem_range.1 hu) (Finset.mem_range.1 hv) hx' hy']

/-- a list of (bra tensor, ket tensor, optional operator) -/
abbrev Trip (R : Type) := List (Tensor R × Tensor R × Option (Tensor R))

def Trip.bras (l : Trip R) : List (Tensor R) := l.map (·.1)
def Trip.kets (l : Trip R) : List (Tensor R) := l.map (·.2.1)
def Trip.acted (l : Trip R) : List (Tensor R) := l.map (fun x => actT x.2.2 x.2.1)
def Trip.OpsOk (ds : List Nat) (l : Trip R) : Prop := List.Forall₂ (fun d x => OpOk d x.2.2) ds l

theorem Trip.acted_WF {l : Trip R} {ds : List Nat} {a b : Nat} (h : WF a l.kets ds b)
    (ho : Trip.OpsOk ds l) : WF a l.acted ds b := by
  induction l generalizing a ds with
  | nil => simpa [Trip.kets, Trip.acted] using h
  | cons x l ih =>
    obtain ⟨q, p, o⟩ := x
    cases ds with
    | nil => cases ho
    | cons d ds =>
      have ho' := List.forall₂_cons.1 ho
      cases h with
      | cons h1 h2 h3 h4 h5 =>
        exact WF.cons (actT_dims ho'.1 h1) h2 h3 h4 (ih h5 ho'.2)

theorem propAllRight_transfer {l : Trip R} {M : Tensor R} {Qs Ps : List (Tensor R)}
    {ds es : List Nat} {a1 b1 a2 b2 a3 b3 : Nat}
    (hM : IsTransfer M Qs Ps ds a1 b1 a2 b2) (hQs : WF a1 Qs ds a2) (hPs : WF b1 Ps ds b2)
    (ha1 : 0 < a1) (hb1 : 0 < b1)
    (hq : WF a2 l.bras es a3) (hp : WF b2 l.kets es b3) (ho : Trip.OpsOk es l) :
    IsTransfer (propAllRight M l) (Qs ++ l.bras) (Ps ++ l.acted) (ds ++ es) a1 b1 a3 b3 := by
  induction l generalizing M Qs Ps ds es a2 b2 with
  | nil =>
    cases hq; cases hp
    simpa [Trip.bras, Trip.acted, propAllRight] using hM
  | cons x l ih =>
    obtain ⟨q, p, o⟩ := x
    cases es with
    | nil => cases ho
    | cons d es =>
      have ho' := List.forall₂_cons.1 ho
      cases hq with
      | cons h1 h2 h3 h4 h5 =>
        cases hp with
        | cons g1 g2 g3 g4 g5 =>
          have step := propMatrix_right hM hQs hPs ha1 hb1 h1 g1 ho'.1
          have := ih step (hQs.append (WF.single h1 h2 h3 h4))
            (hPs.append (WF.single (actT_dims ho'.1 g1) g2 g3 g4)) h5 g5 ho'.2
          simpa [Trip.bras, Trip.acted, propAllRight] using this

theorem propAllRight_empty {l : Trip R} {es : List Nat} {a1 b1 a2 b2 : Nat} (hne : l ≠ [])
    (hq : WF a1 l.bras es a2) (hp : WF b1 l.kets es b2) (ho : Trip.OpsOk es l) :
    IsTransfer (propAllRight Tensor.empty l) l.bras l.acted es a1 b1 a2 b2 := by
  cases l with
  | nil => exact absurd rfl hne
  | cons x l =>
    obtain ⟨q, p, o⟩ := x
    cases es with
    | nil => cases ho
    | cons d es =>
      have ho' := List.forall₂_cons.1 ho
      cases hq with
      | cons h1 h2 h3 h4 h5 =>
        cases hp with
        | cons g1 g2 g3 g4 g5 =>
          have h := propAllRight_transfer (isTransfer_init h1 g1 ho'.1) (WF.single h1 h2 h3 h4)
            (WF.single (actT_dims ho'.1 g1) g2 g3 g4) h2 g2 h5 g5 ho'.2
          simpa [Trip.bras, Trip.acted, propAllRight, propMatrix_empty] using h

theorem propAllLeft_empty {l : Trip R} {es : List Nat} {a1 b1 a2 b2 : Nat} (hne : l ≠ [])
    (hq : WF a1 l.bras es a2) (hp : WF b1 l.kets es b2) (ho : Trip.OpsOk es l) :
    IsTransfer (propAllLeft Tensor.empty l) l.bras l.acted es a1 b1 a2 b2 := by
  induction l generalizing es a1 b1 with
  | nil => exact absurd rfl hne
  | cons x l ih =>
    obtain ⟨q, p, o⟩ := x
    cases es with
    | nil => cases ho
    | cons d es =>
      have ho' := List.forall₂_cons.1 ho
      cases hq with
      | cons h1 h2 h3 h4 h5 =>
        cases hp with
        | cons g1 g2 g3 g4 g5 =>
          by_cases hl : l = []
          · subst hl
            cases h5; cases g5
            simpa [Trip.bras, Trip.acted, propAllLeft, propMatrix_empty]
              using isTransfer_init h1 g1 ho'.1
          · have := ih hl h5 g5 ho'.2
            have := propMatrix_left this h5 (Trip.acted_WF g5 ho'.2) h4 g4 h1 g1 ho'.1
            simpa [Trip.bras, Trip.acted, propAllLeft] using this

theorem lin_zero_scalar {A : Tensor R} (h : A.dims = []) : A.lin 0 = A.get [] := by
  simp [lin, h, unflat]

theorem propClose1_transfer {M : Tensor R} {Qs Ps : List (Tensor R)} {ds : List Nat} {a b : Nat}
    (hM : IsTransfer M Qs Ps ds a b a b) (hQ : WF a Qs ds a) (hP : WF b Ps ds b) (hQn : Qs ≠ [])
    (hPn : Ps ≠ []) :
    (propClose1 M).lin 0 = inner ds (amp Qs) (amp Ps) := by
  have h0 : M.dim 0 = a := by simp [dim, hM.1]
  have h1 : M.dim 1 = b := by simp [dim, hM.1]
  have h2 : M.dim 2 = a := by simp [dim, hM.1]
  have h3 : M.dim 3 = b := by simp [dim, hM.1]
  rw [lin_zero_scalar (by simp [propClose1, trace])]
  simp only [propClose1, trace, h0, h1, h2, h3, reshape_dims, List.getD_cons_zero, List.nil_append]
  rw [sum_range_mul]
  have : ∀ j ∈ Finset.range b, ∀ i ∈ Finset.range a,
      (M.reshape [a * b, a * b]).get [i + a * j, i + a * j]
        = sumCfg ds (fun s => star (path Qs s i i) * path Ps s j j) := by
    intro j hj i hi
    rw [Finset.mem_range] at hi hj
    rw [reshape_get (A := M) (idx := [i, j, i, j]), hM.2 _ _ _ _ hi hj hi hj]
    · simp [hM.1, *]
    · simp only [hM.1, flat]; ring
  rw [Finset.sum_congr rfl fun j hj => Finset.sum_congr rfl (this j hj)]
  simp only [inner, amp_of_WF hQ hQn, amp_of_WF hP hPn, star_sum, Finset.sum_mul_sum, sumCfg_sum]
  rw [Finset.sum_comm]

end Star

/-! ### one-site operators on path sums -/

theorem path_set_act {ψ : List (Tensor R)} {ds s : List Nat} {a b k : Nat} {o : Tensor R}
    (h : WF a ψ ds b) (hk : k < ψ.length) (ho : o.dims = [ds.getD k 0, ds.getD k 0])
    (hs : s.length = ds.length) (x y : Nat) :
    path (ψ.set k (foldin o (-1) (site ψ k) 1)) s x y
      = ∑ t ∈ Finset.range (ds.getD k 0), o.get [s.getD k 0, t] * path ψ (s.set k t) x y := by
  induction h generalizing k s x with
  | nil => simp at hk
  | @cons a d c b A As ds h1 h2 h3 h4 h5 ih =>
    cases s with
    | nil => simp at hs
    | cons i s =>
      cases k with
      | zero =>
        have ho' : o.dims = [d, d] := by simpa using ho
        have := fun y => actT_get_some (x := x) (i := i) (y := y) ho' h1
        simp only [actT] at this
        simp only [List.set_cons_zero, site, List.getD_cons_zero, path_cons, this, dim2_of h1]
        rw [dim2_of (A := foldin o (-1) A 1) (a := a) (d := d) (c := c)
          (by simp [foldin, h1, ho'])]
        simp only [Finset.sum_mul, Finset.mul_sum]
        rw [Finset.sum_comm]
        exact Finset.sum_congr rfl fun t _ => Finset.sum_congr rfl fun e _ => by ring
      | succ k =>
        have := ih (k := k) (s := s) (by simpa using hk) (by simpa using ho) (by simpa using hs)
        simp only [site] at this
        simp only [List.set_cons_succ, site, List.getD_cons_succ, path_cons, this]
        simp only [Finset.mul_sum]
        rw [Finset.sum_comm]
        exact Finset.sum_congr rfl fun t _ => Finset.sum_congr rfl fun e _ => by ring

theorem WF.set_act {ψ : List (Tensor R)} {ds : List Nat} {a b k : Nat} {o : Tensor R}
    (h : WF a ψ ds b) (ho : o.dims = [ds.getD k 0, ds.getD k 0]) :
    WF a (ψ.set k (foldin o (-1) (site ψ k) 1)) ds b := by
  induction h generalizing k with
  | nil => exact WF.nil _
  | @cons a d c b A As ds h1 h2 h3 h4 h5 ih =>
    cases k with
    | zero =>
      have ho' : o.dims = [d, d] := by simpa using ho
      exact WF.cons (by simp [site, foldin, h1, ho']) h2 h3 h4 h5
    | succ k => exact WF.cons h1 h2 h3 h4 (ih (by simpa using ho))

end MPS
