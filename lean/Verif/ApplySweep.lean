import Verif.ApplyInd
import Verif.Props.TrotterProps4

/-! # A layer of gates with truncation: projection and comparison with all states of the same Schmidt rank -/

set_option linter.unusedSectionVars false
set_option linter.unusedSimpArgs false

namespace MPS.Trotter
open MPS Tensor Minim Order MPS.Props

/-- the adjoint of a gate -/
def dagger (U : Tensor ℂ) : Tensor ℂ := ⟨U.dims, fun I => star (U.get [I.getD 1 0, I.getD 0 0])⟩

theorem IsUnitary.right {n : Nat} {U : Tensor ℂ} (h : IsUnitary n U) {a b : Nat} (ha : a < n) (hb : b < n) :
    ∑ m ∈ Finset.range n, U.get [a, m] * (dagger U).get [m, b] = if a = b then 1 else 0 := by
  let M : Matrix (Fin n) (Fin n) ℂ := fun i j => U.get [i, j]
  have h1 : M.conjTranspose * M = 1 := by
    ext i j
    rw [Matrix.mul_apply, Matrix.one_apply]
    have := h i j i.2 j.2
    rw [Finset.sum_range] at this
    simp only [M, Matrix.conjTranspose_apply, Fin.ext_iff]
    exact this
  have h2 := mul_eq_one_comm.1 h1
  have h3 := congrFun (congrFun h2 ⟨a, ha⟩) ⟨b, hb⟩
  rw [Matrix.mul_apply, Matrix.one_apply] at h3
  rw [Finset.sum_range]
  simp only [M, Matrix.conjTranspose_apply, Fin.ext_iff] at h3
  exact h3

theorem actSite_cancel {ds : List Nat} {k : Nat} (hk : k < ds.length) {U : Tensor ℂ} (hU : IsUnitary (ds.getD k 0) U) (φ : List Nat → ℂ)
    {s : List Nat} (hs : IsCfg ds s) : actSite (ds.getD k 0) U k (actSite (ds.getD k 0) (dagger U) k φ) s = φ s := by
  have hl : k < s.length := by rw [hs.length]; exact hk
  have hsk := Order.isCfg_getD hs hk
  unfold actSite
  simp only [List.set_set, getD_set_eq hl, Finset.mul_sum]
  rw [Finset.sum_comm]
  have e : ∀ j ∈ Finset.range (ds.getD k 0), (∑ i ∈ Finset.range (ds.getD k 0), U.get [s.getD k 0, i] * ((dagger U).get [i, j] * φ (s.set k j))) =
      if s.getD k 0 = j then φ (s.set k j) else 0 := by
    intro j hj
    simp only [← mul_assoc, ← Finset.sum_mul]
    rw [hU.right hsk (Finset.mem_range.1 hj)]
    split_ifs <;> simp
  rw [Finset.sum_congr rfl e, Finset.sum_ite_eq, if_pos (Finset.mem_range.2 hsk)]
  congr 1
  apply List.ext_getElem?
  intro i
  rw [List.getElem?_set]
  split_ifs with h1
  · subst h1; simp [List.getD_eq_getElem?_getD, hl]
  · rfl

theorem actPair_cancel {ds : List Nat} {k : Nat} (hk : k + 1 < ds.length) {U : Tensor ℂ} (hU : IsUnitary (ds.getD k 0 * ds.getD (k + 1) 0) U) (φ : List Nat → ℂ)
    {s : List Nat} (hs : IsCfg ds s) :
    actPair (ds.getD k 0) (ds.getD (k + 1) 0) U k (actPair (ds.getD k 0) (ds.getD (k + 1) 0) (dagger U) k φ) s = φ s := by
  have hl : k + 1 < s.length := by rw [hs.length]; exact hk
  have hsk := Order.isCfg_getD hs (show k < ds.length by omega)
  have hsk1 := Order.isCfg_getD hs hk
  set d := ds.getD k 0
  set e := ds.getD (k + 1) 0
  have g1 : ∀ i j, ((s.set k i).set (k + 1) j).getD k 0 = i := fun i j => by rw [getD_set_ne (by omega), getD_set_eq (by omega)]
  have g2 : ∀ i j, ((s.set k i).set (k + 1) j).getD (k + 1) 0 = j := fun i j => by rw [getD_set_eq (by simpa using hl)]
  have g3 : ∀ i j i' j', (((s.set k i).set (k + 1) j).set k i').set (k + 1) j' = (s.set k i').set (k + 1) j' := fun i j i' j' => by
    rw [List.set_comm _ _ (show k + 1 ≠ k by omega), List.set_set, List.set_set]
  unfold actPair
  simp only [g1, g2, g3, Finset.mul_sum]
  have big : ∀ F : Nat → Nat → Nat → Nat → ℂ, (∑ i ∈ Finset.range d, ∑ j ∈ Finset.range e, ∑ i' ∈ Finset.range d, ∑ j' ∈ Finset.range e, F i j i' j') =
      ∑ i' ∈ Finset.range d, ∑ j' ∈ Finset.range e, ∑ i ∈ Finset.range d, ∑ j ∈ Finset.range e, F i j i' j' := by
    intro F
    rw [Finset.sum_congr rfl fun i _ => Finset.sum_comm, Finset.sum_comm]
    refine Finset.sum_congr rfl fun i' _ => ?_
    rw [Finset.sum_congr rfl fun i _ => Finset.sum_comm, Finset.sum_comm]
  rw [big]
  have key : ∀ i' ∈ Finset.range d, ∀ j' ∈ Finset.range e, (∑ i ∈ Finset.range d, ∑ j ∈ Finset.range e,
      U.get [s.getD k 0 + d * s.getD (k + 1) 0, i + d * j] * ((dagger U).get [i + d * j, i' + d * j'] * φ ((s.set k i').set (k + 1) j'))) =
      if s.getD k 0 = i' then (if s.getD (k + 1) 0 = j' then φ ((s.set k i').set (k + 1) j') else 0) else 0 := by
    intro i' hi' j' hj'
    have hi' := Finset.mem_range.1 hi'
    have hj' := Finset.mem_range.1 hj'
    have := hU.right (add_mul_lt hsk hsk1) (add_mul_lt hi' hj')
    rw [sum_range_mul, Finset.sum_comm] at this
    simp only [← mul_assoc, ← Finset.sum_mul]
    rw [this]
    have hd : 0 < d := by omega
    have inj : s.getD k 0 + d * s.getD (k + 1) 0 = i' + d * j' ↔ s.getD k 0 = i' ∧ s.getD (k + 1) 0 = j' := by
      constructor
      · intro h
        have h1 := congrArg (· % d) h
        have h2 := congrArg (· / d) h
        simp only [Nat.add_mul_mod_self_left, Nat.mod_eq_of_lt hsk, Nat.mod_eq_of_lt hi', Nat.add_mul_div_left _ _ hd, Nat.div_eq_of_lt hsk,
          Nat.div_eq_of_lt hi', Nat.zero_add] at h1 h2
        exact ⟨h1, h2⟩
      · rintro ⟨h1, h2⟩; rw [h1, h2]
    by_cases h1 : s.getD k 0 = i'
    · by_cases h2 : s.getD (k + 1) 0 = j'
      · rw [if_pos (inj.2 ⟨h1, h2⟩), if_pos h1, if_pos h2, one_mul]
      · rw [if_neg (fun h => h2 (inj.1 h).2), if_pos h1, if_neg h2, zero_mul]
    · rw [if_neg (fun h => h1 (inj.1 h).1), if_neg h1, zero_mul]
  rw [Finset.sum_congr rfl fun i' hi' => Finset.sum_congr rfl fun j' hj' => key i' hi' j' hj']
  have : ∀ i' ∈ Finset.range d, (∑ j' ∈ Finset.range e, if s.getD k 0 = i' then (if s.getD (k + 1) 0 = j' then φ ((s.set k i').set (k + 1) j') else 0) else 0) =
      if s.getD k 0 = i' then φ ((s.set k i').set (k + 1) (s.getD (k + 1) 0)) else 0 := by
    intro i' _
    by_cases h1 : s.getD k 0 = i'
    · simp only [h1, if_true]
      rw [Finset.sum_ite_eq, if_pos (Finset.mem_range.2 hsk1)]
    · simp only [h1, if_false, Finset.sum_const_zero]
  rw [Finset.sum_congr rfl this, Finset.sum_ite_eq, if_pos (Finset.mem_range.2 hsk)]
  have self : ∀ (l : List Nat) (q : Nat), q < l.length → l.set q (l.getD q 0) = l := by
    intro l q hq
    apply List.ext_getElem?
    intro i
    rw [List.getElem?_set]
    split_ifs with h1
    · subst h1; simp [List.getD_eq_getElem?_getD, hq]
    · rfl
  rw [self s k (by omega), self s (k + 1) hl]

/-- gates which do not cross a cut keep the Schmidt rank -/
theorem schmidt_part {ds : List Nat} {k : Nat} {U : Nat → Tensor ℂ} {S : Nat → Bool} {p D : Nat} (hp : PairAt ds.length k p) (hS : S p = false)
    {φ : List Nat → ℂ} (hφ : SchmidtRank ds (p + 1) D φ) : SchmidtRank ds (p + 1) D (actOp ds (partElt ds k U S) φ) := by
  obtain ⟨X, Y, h⟩ := hφ
  obtain ⟨hpk, hpl⟩ := hp
  have gt : ∀ (s : List Nat) q, q < p + 1 → (s.take (p + 1)).getD q 0 = s.getD q 0 := fun s q hq => by
    simp [List.getD_eq_getElem?_getD, List.getElem?_take, hq]
  have gd : ∀ (s : List Nat) q, s.length = ds.length → p + 1 ≤ q → (List.replicate (p + 1) 0 ++ s.drop (p + 1)).getD q 0 = s.getD q 0 := fun s q hs hq => by
    simp only [List.getD_eq_getElem?_getD]
    rw [List.getElem?_append_right (by simpa using hq), List.length_replicate, List.getElem?_drop, show p + 1 + (q - (p + 1)) = q by omega]
  have fL : ∀ s t q, q < p + 1 → gateFactor ds k U S s t q = gateFactor ds k U S (s.take (p + 1)) (t.take (p + 1)) q := by
    intro s t q hq
    unfold gateFactor
    rw [gt s q hq, gt t q hq]
    by_cases hqp : q = p
    · subst hqp; simp only [hS, Bool.false_eq_true, if_false]
    · rw [gt s (q + 1) (by omega), gt t (q + 1) (by omega)]
  have fR : ∀ s t q, s.length = ds.length → t.length = ds.length → p + 1 ≤ q → gateFactor ds k U S s t q =
      gateFactor ds k U S (List.replicate (p + 1) 0 ++ s.drop (p + 1)) (List.replicate (p + 1) 0 ++ t.drop (p + 1)) q := by
    intro s t q hs ht hq
    unfold gateFactor
    rw [gd s q hs hq, gd t q ht hq, gd s (q + 1) hs (by omega), gd t (q + 1) ht (by omega)]
  let A : List Nat → List Nat → ℂ := fun s t => ∏ q ∈ Finset.range (p + 1), gateFactor ds k U S s t q
  let B : List Nat → List Nat → ℂ := fun s t => ∏ q ∈ Finset.Ico (p + 1) ds.length, gateFactor ds k U S (List.replicate (p + 1) 0 ++ s) (List.replicate (p + 1) 0 ++ t) q
  have fac : ∀ s t, s.length = ds.length → t.length = ds.length → partElt ds k U S s t = A (s.take (p + 1)) (t.take (p + 1)) * B (s.drop (p + 1)) (t.drop (p + 1)) := by
    intro s t hs ht
    unfold partElt
    rw [← Finset.prod_range_mul_prod_Ico _ (show p + 1 ≤ ds.length by omega)]
    congr 1
    · exact Finset.prod_congr rfl fun q hq => fL s t q (Finset.mem_range.1 hq)
    · exact Finset.prod_congr rfl fun q hq => fR s t q hs ht (Finset.mem_Ico.1 hq).1
  refine ⟨fun m l => sumCfg (ds.take (p + 1)) fun t => A l t * X m t, fun m r => sumCfg (ds.drop (p + 1)) fun t => B r t * Y m t, fun s hs => ?_⟩
  unfold actOp
  have e1 : sumCfg ds (fun t => partElt ds k U S s t * φ t) = sumCfg (ds.take (p + 1) ++ ds.drop (p + 1)) fun t => partElt ds k U S s t * φ t := by
    rw [List.take_append_drop]
  rw [e1, sumCfg_append]
  have e2 : ∀ t, IsCfg (ds.take (p + 1)) t → sumCfg (ds.drop (p + 1)) (fun r => partElt ds k U S s (t ++ r) * φ (t ++ r)) =
      ∑ m ∈ Finset.range D, (A (s.take (p + 1)) t * X m t) * sumCfg (ds.drop (p + 1)) fun r => B (s.drop (p + 1)) r * Y m r := by
    intro t ht
    simp only [← sumCfg_mul_left]
    rw [← sumCfg_sum]
    refine sumCfg_congr fun r hr => ?_
    have htr : IsCfg ds (t ++ r) := by have := isCfg_append ht hr; rwa [List.take_append_drop] at this
    have htl : t.length = p + 1 := by rw [ht.length, List.length_take]; omega
    have t1 : (t ++ r).take (p + 1) = t := by rw [← htl]; simp
    have t2 : (t ++ r).drop (p + 1) = r := by rw [← htl]; simp
    rw [fac s _ hs.length htr.length, h _ htr, t1, t2, Finset.mul_sum]
    exact Finset.sum_congr rfl fun m _ => by ring
  rw [sumCfg_congr e2, sumCfg_sum]
  exact Finset.sum_congr rfl fun m _ => by rw [sumCfg_mul_right]

/-- the wave function after the gates in `S` -/
noncomputable def goal (ds : List Nat) (k : Nat) (W : Unitary) (x : Evo) (S : Nat → Bool) : List Nat → ℂ :=
  actOp ds (partElt ds k W.gate S) (amp x.P)

theorem start_sees {ds : List Nat} {k : Nat} {W : Unitary} {x : Evo} {sense : Int} (hs0 : sense ≠ 0) (h : Cent ds x.P (startAt ds.length sense))
    (hpos : 0 < ds.length) {S : Nat → Bool} (hS : ∀ p, p < ds.length → S p = false) :
    Sees sense ds x.P (goal ds k W x S) (startAt ds.length sense) := by
  have hne : x.P ≠ [] := by intro hh; have := h.wf.length; rw [hh] at this; simp at this; omega
  have hc : ∀ s, IsCfg ds s → goal ds k W x S s = amp x.P s := fun s hs => partElt_none ds k W.gate S hS (amp x.P) hs
  refine ⟨fun hs => ?_, fun hs => ?_⟩
  · rw [show startAt ds.length sense = 0 by simp [startAt, hs.le]]
    exact (seesL_start h.wf hne).congr hc
  · rw [show startAt ds.length sense = ds.length - 1 by unfold startAt; rw [if_neg (by omega)]]
    exact (seesR_start h.wf hne).congr hc

theorem cent_pair {ds : List Nat} {P : List (Tensor ℂ)} {sense : Int} {p : Nat} (h : Cent ds P (if sense > 0 then p else p + 1)) :
    (∀ j < p, LeftIso (site P j)) ∧ ∀ j, p + 1 < j → j < ds.length → RightIso (site P j) := by
  refine ⟨fun j hj => h.lo j ?_, fun j hj => h.hi j ?_⟩ <;> split <;> omega

/-- the distance to a wave function of which `f` is a projection -/
theorem proj_dist' {ds : List Nat} {f g : List Nat → ℂ} (h : MPS.inner ds f g = MPS.inner ds f f) :
    (sumCfg ds fun s => ‖g s - f s‖ ^ 2) = (sumCfg ds fun s => ‖g s‖ ^ 2) - sumCfg ds fun s => ‖f s‖ ^ 2 := by
  have h1 : RCLike.re (MPS.inner ds f f) = sumCfg ds fun s => ‖f s‖ ^ 2 := by rw [inner_self_ofReal]; exact RCLike.ofReal_re _
  have h3 := Obc.dist_expand ds f g
  unfold MPS.inner at h h1
  rw [h, h1] at h3
  have e : (sumCfg ds fun s => ‖g s - f s‖ ^ 2) = sumCfg ds fun s => ‖f s - g s‖ ^ 2 := sumCfg_congr fun s _ => by rw [norm_sub_rev]
  rw [e, h3]; ring

/-- a sweep with any gates -/
theorem sweep_sees {svd : Tensor ℂ → SvdRes ℂ} (hg : GoodSvd svd) (eps : ℝ) {dflt : ℝ} (hd0 : 0 < dflt)
    {ds : List Nat} {k : Nat} {W : Unitary} (hW : Fits W ds k) (x : Evo) (hpos : 0 < ds.length) (sense : Int)
    (hs0 : sense ≠ 0) (h : Cent ds x.P (startAt ds.length sense))
    (tol : ℝ) (htol : 0 < effTol dflt tol) {Dmax : Nat} (hD : Dmax ≠ 0) :
    let y := sweep svd eps dflt W x sense tol Dmax
    Cent ds y.P (startAt ds.length (-sense)) ∧
      MPS.inner ds (amp y.P) (actOp ds (layerElt ds k W.gate) (amp x.P)) = MPS.inner ds (amp y.P) (amp y.P) := by
  intro y
  obtain ⟨S, hS, h1, h2⟩ := sweep_ind (I := fun S y _ c => Cent ds y.P c ∧ Sees sense ds y.P (goal ds k W x S) c) (svd := svd) (eps := eps) (dflt := dflt)
    (tol := tol) (Dmax := Dmax) ⟨fun S S' z N p hp a0 a1 aS hz => by
      obtain ⟨g1, g2, -⟩ := gate1_sees hg eps hd0 z hz.1 hp.1 (hW.gates.2 p hp) sense hD hz.2
      exact ⟨g1, g2.congr fun s hs => part_single hp a0 a1 aS (amp x.P) hs⟩, fun S S' z N p hp a0 a1 aS hz => by
      have hi := cent_pair hz.1
      obtain ⟨g1, g2, -⟩ := gate2_sees hg eps hd0 z hz.1.wf hi.1 hi.2 hp.2 (hW.gates.1 p hp) sense tol htol hD hz.2
      exact ⟨g1, g2.congr fun s hs => part_pair hp a0 a1 aS (amp x.P) hs⟩⟩ hW x hpos hs0 h.wf.length
      (fun S hS => ⟨h, start_sees hs0 h hpos hS⟩)
  refine ⟨h1, ?_⟩
  have hne : y.P ≠ [] := by intro hh; have := h1.wf.length; rw [show (sweep svd eps dflt W x sense tol Dmax).P = [] from hh] at this; simp at this; omega
  rw [← h2.overlap h1 hne]
  unfold goal
  exact inner_congr (fun _ _ => rfl) fun s _ => actOp_congr (fun s t => (partElt_all ds k W.gate S hS s t).symm) (fun _ _ => rfl) s

theorem partElt_agree {ds : List Nat} {k : Nat} {U : Nat → Tensor ℂ} {S S' : Nat → Bool}
    (h : ∀ q, q < ds.length → (PairAt ds.length k q ∨ Single ds.length k q) → S' q = S q) (s t : List Nat) :
    partElt ds k U S' s t = partElt ds k U S s t := by
  unfold partElt
  refine Finset.prod_congr rfl fun p hp => ?_
  have hp := Finset.mem_range.1 hp
  unfold gateFactor
  by_cases h1 : PairAt ds.length k p
  · simp only [h1, if_true, h p hp (Or.inl h1)]
  · by_cases h2 : Single ds.length k p
    · simp only [h1, h2, if_true, if_false, h p hp (Or.inr h2)]
    · simp only [h1, h2, if_false]
      have h3 : PairAt ds.length k (p - 1) := by
        by_contra h3
        exact h2 ⟨hp, h1, Or.inr h3⟩
      rw [h (p - 1) (by omega) (Or.inl h3)]

/-- `φ` with the gates outside `S` undone -/
noncomputable def undone (ds : List Nat) (k : Nat) (W : Unitary) (φ : List Nat → ℂ) (S : Nat → Bool) : List Nat → ℂ :=
  actOp ds (partElt ds k (fun p => dagger (W.gate p)) fun q => !S q) φ

theorem undo_single {ds : List Nat} {k : Nat} {W : Unitary} (hU : GatesUnitary ds k W.gate) (x : Evo) (φ : List Nat → ℂ) {S S' : Nat → Bool} {p : Nat}
    (hp : Single ds.length k p) (a0 : S p = false) (a1 : S' p = true)
    (aS : ∀ q, q ≠ p → (PairAt ds.length k q ∨ Single ds.length k q) → S' q = S q) :
    wdist ds (goal ds k W x S') (undone ds k W φ S') = wdist ds (goal ds k W x S) (undone ds k W φ S) ∧
      (sumCfg ds fun s => ‖goal ds k W x S' s‖ ^ 2) = sumCfg ds fun s => ‖goal ds k W x S s‖ ^ 2 := by
  have e1 : ∀ s, IsCfg ds s → goal ds k W x S' s = actSite (ds.getD p 0) (W.gate p) p (goal ds k W x S) s := fun s hs => part_single hp a0 a1 aS (amp x.P) hs
  have e2 : ∀ s, IsCfg ds s → undone ds k W φ S s = actSite (ds.getD p 0) (dagger (W.gate p)) p (undone ds k W φ S') s := fun s hs =>
    part_single (U := fun p => dagger (W.gate p)) hp (S := fun q => !S' q) (S' := fun q => !S q) (by simp [a1]) (by simp [a0])
        (fun q hq hh => by simp only [aS q hq hh]) φ hs
  constructor
  · rw [← actSite_dist hp.1 (hU.2 p hp) (goal ds k W x S)]
    refine wdist_congr e1 fun s hs => ?_
    rw [← actSite_cancel hp.1 (hU.2 p hp) (undone ds k W φ S') hs]
    unfold actSite
    refine Finset.sum_congr rfl fun i hi => ?_
    rw [e2 _ (isCfg_set hs p (Finset.mem_range.1 hi))]
    rfl
  · rw [sumCfg_congr fun s hs => by rw [e1 s hs]]
    exact sumSq_of_inner (inner_actSite hp.1 (hU.2 p hp) _)

theorem undo_pair {ds : List Nat} {k : Nat} {W : Unitary} (hU : GatesUnitary ds k W.gate) (x : Evo) (φ : List Nat → ℂ) {S S' : Nat → Bool} {p : Nat}
    (hp : PairAt ds.length k p) (a0 : S p = false) (a1 : S' p = true)
    (aS : ∀ q, q ≠ p → (PairAt ds.length k q ∨ Single ds.length k q) → S' q = S q) :
    wdist ds (goal ds k W x S') (undone ds k W φ S') = wdist ds (goal ds k W x S) (undone ds k W φ S) ∧
      (sumCfg ds fun s => ‖goal ds k W x S' s‖ ^ 2) = sumCfg ds fun s => ‖goal ds k W x S s‖ ^ 2 := by
  have e1 : ∀ s, IsCfg ds s → goal ds k W x S' s = actPair (ds.getD p 0) (ds.getD (p + 1) 0) (W.gate p) p (goal ds k W x S) s :=
    fun s hs => part_pair hp a0 a1 aS (amp x.P) hs
  have e2 : ∀ s, IsCfg ds s → undone ds k W φ S s = actPair (ds.getD p 0) (ds.getD (p + 1) 0) (dagger (W.gate p)) p (undone ds k W φ S') s := fun s hs =>
    part_pair (U := fun p => dagger (W.gate p)) hp (S := fun q => !S' q) (S' := fun q => !S q) (by simp [a1]) (by simp [a0])
        (fun q hq hh => by simp only [aS q hq hh]) φ hs
  constructor
  · rw [← actPair_dist hp.2 (hU.1 p hp) (goal ds k W x S)]
    refine wdist_congr e1 fun s hs => ?_
    rw [← actPair_cancel hp.2 (hU.1 p hp) (undone ds k W φ S') hs]
    unfold actPair
    refine Finset.sum_congr rfl fun i hi => Finset.sum_congr rfl fun j hj => ?_
    rw [e2 _ (isCfg_set (isCfg_set hs p (Finset.mem_range.1 hi)) (p + 1) (Finset.mem_range.1 hj))]
    rfl
  · rw [sumCfg_congr fun s hs => by rw [e1 s hs]]
    exact sumSq_of_inner (inner_actPair hp.2 (hU.1 p hp) _)

set_option maxHeartbeats 800000 in
/-- a sweep with unitary gates: the weight the program counts, compared with any wave function of the same Schmidt rank -/
theorem sweep_opt {svd : Tensor ℂ → SvdRes ℂ} (hg : GoodSvd svd) (hsort : SortedSvd svd) (eps : ℝ) {dflt : ℝ} (hd0 : 0 < dflt)
    {ds : List Nat} {k : Nat} {W : Unitary} (hW : Fits W ds k) (hU : GatesUnitary ds k W.gate) (x : Evo) (hpos : 0 < ds.length) (sense : Int)
    (hs0 : sense ≠ 0) (h : Cent ds x.P (startAt ds.length sense))
    (tol : ℝ) (htol : 0 < effTol dflt tol) {Dmax : Nat} (hD : Dmax ≠ 0) (φ : List Nat → ℂ)
    (hφ : ∀ p, PairAt ds.length k p → SchmidtRank ds (p + 1) Dmax φ) :
    let y := sweep svd eps dflt W x sense tol Dmax
    y.err - x.err ≤ (ds.length : ℝ) / 2 * max (sumCfg ds fun s => ‖actOp ds (layerElt ds k W.gate) (amp x.P) s - φ s‖ ^ 2)
      (max (effTol dflt tol) eps * normSq ds x.P) := by
  intro y
  let δ : (Nat → Bool) → ℝ := fun S => wdist ds (goal ds k W x S) (undone ds k W φ S)
  have δ2 : ∀ S, δ S ^ 2 = sumCfg ds fun s => ‖goal ds k W x S s - undone ds k W φ S s‖ ^ 2 := fun S =>
    Real.sq_sqrt (sumCfg_nonneg _ _ fun _ _ => by positivity)
  let δ0 := δ fun _ => false
  have hgoal0 : ∀ S : Nat → Bool, (∀ p, p < ds.length → S p = false) → ∀ s, IsCfg ds s → goal ds k W x S s = amp x.P s :=
    fun S hS s hs => partElt_none ds k W.gate S hS (amp x.P) hs
  set τ := max (effTol dflt tol) eps with hτ
  have hτ0 : 0 ≤ τ := htol.le.trans (le_max_left _ _)
  have hn0 : 0 ≤ normSq ds x.P := sumCfg_nonneg _ _ fun _ _ => by positivity
  let B := max (δ0 ^ 2) (τ * normSq ds x.P)
  have hB : 0 ≤ B := le_max_of_le_left (by positivity)
  obtain ⟨S, hS, h1, h2, h3, h4, h5⟩ := sweep_ind (I := fun S y N c => Cent ds y.P c ∧ Sees sense ds y.P (goal ds k W x S) c ∧ δ S = δ0 ∧
      (sumCfg ds fun s => ‖goal ds k W x S s‖ ^ 2) = normSq ds x.P ∧ y.err - x.err ≤ (N : ℝ) / 2 * B) (svd := svd) (eps := eps) (dflt := dflt)
    (tol := tol) (Dmax := Dmax) ⟨fun S S' z N p hp a0 a1 aS hz => by
      obtain ⟨z1, z2, z3, z4, z5⟩ := hz
      obtain ⟨g1, g2, g3⟩ := gate1_sees hg eps hd0 z z1 hp.1 (hW.gates.2 p hp) sense hD z2
      obtain ⟨u1, u2⟩ := undo_single hU x φ hp a0 a1 aS
      refine ⟨g1, g2.congr fun s hs => part_single hp a0 a1 aS (amp x.P) hs, u1.trans z3, u2.trans z4, ?_⟩
      rw [g3]
      push_cast
      nlinarith, fun S S' z N p hp a0 a1 aS hz => by
      obtain ⟨z1, z2, z3, z4, z5⟩ := hz
      have hi := cent_pair z1
      obtain ⟨g1, g2, g3⟩ := gate2_sees hg eps hd0 z z1.wf hi.1 hi.2 hp.2 (hW.gates.1 p hp) sense tol htol hD z2
      obtain ⟨u1, u2⟩ := undo_pair hU x φ hp a0 a1 aS
      have e1 : ∀ s, IsCfg ds s → goal ds k W x S' s = actPair (ds.getD p 0) (ds.getD (p + 1) 0) (W.gate p) p (goal ds k W x S) s :=
        fun s hs => part_pair hp a0 a1 aS (amp x.P) hs
      refine ⟨g1, g2.congr e1, u1.trans z3, u2.trans z4, ?_⟩
      have g := g3 hsort (undone ds k W φ S') (schmidt_part hp (by simp [a1]) (hφ p hp))
      have e2 : (sumCfg ds fun s => ‖actPair (ds.getD p 0) (ds.getD (p + 1) 0) (W.gate p) p (goal ds k W x S) s - undone ds k W φ S' s‖ ^ 2) = δ0 ^ 2 := by
        rw [show δ0 = δ S' from (u1.trans z3).symm, δ2]; exact sumCfg_congr fun s hs => by rw [e1 s hs]
      rw [e2] at g
      have e3 : (sumCfg ds fun s => ‖actPair (ds.getD p 0) (ds.getD (p + 1) 0) (W.gate p) p (goal ds k W x S) s‖ ^ 2) = normSq ds x.P := by
        rw [← u2.trans z4]; exact sumCfg_congr fun s hs => by rw [e1 s hs]
      rw [e3] at g
      have g' : (applyTwo svd eps dflt z (W.gate p) p sense tol Dmax).err - z.err ≤ B := g
      push_cast
      linarith⟩ hW x hpos hs0 h.wf.length
      (fun S hS => by
        refine ⟨h, start_sees hs0 h hpos hS, ?_, sumCfg_congr fun s hs => by rw [hgoal0 S hS s hs], by simp⟩
        refine wdist_congr (fun s hs => by rw [hgoal0 S hS s hs, hgoal0 _ (fun _ _ => rfl) s hs]) fun s hs => ?_
        exact actOp_congr (fun s t => partElt_agree (fun q hq _ => by simp only [hS q hq]) s t) (fun _ _ => rfl) s)
  have e : δ0 ^ 2 = sumCfg ds fun s => ‖actOp ds (layerElt ds k W.gate) (amp x.P) s - φ s‖ ^ 2 := by
    rw [← h3, δ2]
    refine sumCfg_congr fun s hs => ?_
    congr 2
    congr 1
    · exact actOp_congr (fun s t => partElt_all ds k W.gate S hS s t) (fun _ _ => rfl) s
    · have h6 := partElt_none ds k (fun p => dagger (W.gate p)) (fun _ => false) (fun _ _ => rfl) φ hs
      refine Eq.trans ?_ h6
      exact actOp_congr (fun s t => partElt_agree (fun q hq hh => by simp only [hS q hq hh, Bool.not_true]) s t) (fun _ _ => rfl) s
  rw [← e]
  exact h5

end MPS.Trotter
